import Verif.Pipeline.Props
import Verif.Relay.Props

/-!
The tests of `tests/tests_channel.cpp` and `tests/tests_exchange_channel.cpp`. The tests with two threads are generalised to
theorems: they pass for every list of elements, every capacity and in every schedule. The tests with one thread are in
`Conform/Solo.lean`.
-/
namespace Verif.Conform.Channels

/-! ### "usecase sanity check" (tests_channel.cpp:50-66) -/

section Usecase

open Verif.Pipeline

variable {α : Type}

/-- The program of tests_channel.cpp:50-66: one thread pushes the elements of `l` into a channel of capacity `cap`
(channel.hpp:40) and closes it, another one loops over the channel. -/
def usecase (cap : Nat) (l : List α) : Plan α :=
  { inner := 0, cap := fun _ => cap, source := l, body := fun _ _ => [], quota := fun _ => none }

/-- C112. The test "usecase sanity check" (tests_channel.cpp:50-66) passes for every list of elements and every capacity in
every schedule: whenever the loop of the consumer is over, it has visited exactly the list, in order; and the threads cannot
get stuck before that. -/
theorem usecase_passes {cap : Nat} (hc : 1 ≤ cap) {l : List α} {s : Sys α} (h : Reach (usecase cap l) s) :
    ((s.stage 1).pos = .over → (s.stage 1).got = l) ∧
      (Stuck (usecase cap l) s → (s.stage 0).pos = .over ∧ (s.stage 1).pos = .over ∧ (s.stage 1).got = l) := by
  refine ⟨fun ho => ?_, fun hs => ?_⟩
  · exact pipeline_result h ho
  · obtain ⟨h1, h2⟩ := pipeline_no_deadlock (fun _ _ => hc) h hs
    exact ⟨h1 0 (by simp [usecase]), h1 1 (by simp [usecase]), h2⟩

theorem usecase_run : (exec (usecase 3 (List.range 10)) (start (usecase 3 (List.range 10)))
    (sched (usecase 3 (List.range 10)) 400 (start (usecase 3 (List.range 10))))).map
      (fun s => ((s.stage 0).pos, (s.stage 1).pos, (s.stage 1).got)) = some (.over, .over, List.range 10) := by
  decide +kernel

/-- The test as it is in the repository: the elements 0 to 9, capacity 3. -/
example : ∃ s, Reach (usecase 3 (List.range 10)) s ∧ (s.stage 1).pos = .over ∧
    (s.stage 1).got = [0, 1, 2, 3, 4, 5, 6, 7, 8, 9] := by
  have h := usecase_run
  simp only [Option.map_eq_some_iff] at h
  obtain ⟨s, h1, h2⟩ := h
  simp only [Prod.mk.injEq] at h2
  exact ⟨s, ⟨_, h1⟩, h2.2.1, (usecase_passes (by decide) ⟨_, h1⟩).1 h2.2.1⟩

end Usecase

/-! ### The tests of the exchange channel with two threads -/

section Exchange

open Verif.Relay

variable {α : Type}

/-- The program of tests_exchange_channel.cpp:64-90 and 106-123: one thread pushes the elements of `l` into an exchange
channel (exchange_channel.hpp:104) and closes it, another one loops over the channel or calls `pop` until there is
nothing (exchange_channel.hpp:124, 151-245). -/
def spsc (l : List α) : Plan α := { inner := 0, source := l, body := fun _ x => x }

/-- C112. The test "iterator collects all values" (tests_exchange_channel.cpp:64-90) passes for every non-empty list in every
schedule: when the loop is over it has visited something, only elements of the list, never decreasing if the list is in
increasing order. It has visited the last element of the list. -/
theorem collects_passes {l : List Nat} (hl : l ≠ []) (hi : l.Pairwise (· ≤ ·)) {s : Sys Nat} (h : Reach (spsc l) s) :
    ((s.stage 1).pos = .over → (s.stage 1).got ≠ [] ∧ (s.stage 1).got.getLast? = l.getLast?) ∧
      (∀ v ∈ (s.stage 1).got, v ∈ l) ∧ (s.stage 1).got.Pairwise (· ≤ ·) := by
  have hsub := relay_subsequence h 0 (Nat.le_refl _)
  simp only [spsc, through, List.map_id'] at hsub
  refine ⟨fun ho => ?_, fun v hv => hsub.subset hv, hi.sublist hsub⟩
  have hn := relay_newest h (k := 0) (Nat.le_refl _) ho
  simp only [spsc, through, Option.map_id', id] at hn
  refine ⟨?_, hn⟩
  intro he
  rw [he] at hn
  exact hl (List.getLast?_eq_none_iff.mp hn.symm)

/-- C112. The loop of "concurrent single producer single consumer" (tests_exchange_channel.cpp:106-123) passes for every
increasing list in every schedule: every value that `pop` returns is at least the one before. The threads cannot get stuck
before both are done. -/
theorem spsc_passes {l : List Nat} (hi : l.Pairwise (· ≤ ·)) {s : Sys Nat} (h : Reach (spsc l) s) :
    (∀ pre x y post, (s.stage 1).got = pre ++ x :: y :: post → x ≤ y) ∧
      (Blocked (spsc l) s 0 → Blocked (spsc l) s 1 → (s.stage 0).pos = .over ∧ (s.stage 1).pos = .over) := by
  have hsub := relay_subsequence h 0 (Nat.le_refl _)
  simp only [spsc, through, List.map_id'] at hsub
  refine ⟨fun pre x y post he => ?_, fun h0 h1 => ?_⟩
  · have hp := hi.sublist hsub
    rw [he] at hp
    have h2 := (List.pairwise_append.mp hp).2.1
    exact (List.pairwise_cons.mp h2).1 y (by simp)
  · have hb := relay_no_deadlock h (fun i hi => by
      simp only [spsc] at hi
      match i, hi with
      | 0, _ => exact h0
      | 1, _ => exact h1)
    exact ⟨hb 0 (by simp [spsc]), hb 1 (by simp [spsc])⟩

/-- C112. The test "close unblocks waiting pop" (tests_exchange_channel.cpp:92-104) passes in every schedule: a thread that
pops while another one closes cannot stay blocked, and its pop returns nothing. -/
theorem close_unblocks_passes {s : Sys α} (h : Reach (spsc []) s) :
    (s.stage 1).got = [] ∧
      (Blocked (spsc []) s 0 → Blocked (spsc []) s 1 → (s.stage 1).pos = .over) := by
  have hsub := relay_subsequence h 0 (Nat.le_refl _)
  refine ⟨by simpa [spsc] using hsub, fun h0 h1 => ?_⟩
  exact relay_no_deadlock h (fun i hi => by
    simp only [spsc] at hi
    match i, hi with
    | 0, _ => exact h0
    | 1, _ => exact h1) 1 (by simp [spsc])

theorem spsc_run : (exec (spsc (List.range 5)) (start (spsc (List.range 5)))
    (sched (spsc (List.range 5)) [0, 1] 400 (start (spsc (List.range 5))))).map
      (fun s => ((s.stage 0).pos, (s.stage 1).pos, (s.stage 1).got)) = some (.over, .over, [4]) := by
  decide +kernel

/-- The tests as they are in the repository: the elements 0 to 4, with a schedule in which the producer is done before the
consumer begins. The consumer sees only the last element. -/
example : ∃ s, Reach (spsc (List.range 5)) s ∧ (s.stage 1).pos = .over ∧ (s.stage 1).got ≠ [] ∧
    (s.stage 1).got.Pairwise (· ≤ ·) ∧ (s.stage 1).got = [4] := by
  have _use := @spsc_passes (List.range 5) (by decide)
  have h := spsc_run
  simp only [Option.map_eq_some_iff] at h
  obtain ⟨s, h1, h2⟩ := h
  simp only [Prod.mk.injEq] at h2
  have hp := collects_passes (by decide) (by decide) ⟨_, h1⟩
  exact ⟨s, ⟨_, h1⟩, h2.2.1, (hp.1 h2.2.1).1, hp.2.2, h2.2.2⟩

theorem unblock_run : (exec (spsc (α := Nat) []) (start (spsc [])) (sched (spsc (α := Nat) []) [1, 0] 400
    (start (spsc [])))).map
      (fun s => ((s.stage 0).pos, (s.stage 1).pos, (s.chan 0).closed)) = some (.over, .over, true) := by
  decide +kernel

/-- The consumer goes to sleep first (tests_exchange_channel.cpp:92-104). -/
example : ∃ s : Sys Nat, Reach (spsc []) s ∧ (s.stage 1).pos = .over ∧ (s.stage 1).got = [] := by
  have h := unblock_run
  simp only [Option.map_eq_some_iff] at h
  obtain ⟨s, h1, h2⟩ := h
  simp only [Prod.mk.injEq] at h2
  exact ⟨s, ⟨_, h1⟩, h2.2.1, (close_unblocks_passes ⟨_, h1⟩).1⟩

end Exchange

end Verif.Conform.Channels
