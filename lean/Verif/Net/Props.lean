import Verif.Net.Inv

/-!
The results of the threads of a network do not depend on the schedule (C122): for all programs, all graphs (also cyclic
ones), all capacities, all schedules with spurious wakeups, on the channels of `Channel/Model.lean`.
-/
namespace Verif.Net

open Verif.Channel
open Verif.Pipeline (upd)

variable {α : Type}

theorem res_eff (p : Plan α) (s : Sys α) (i : Nat) : (s.thr i).res <+: eff p s i := List.prefix_append ..

/-- **C122** In any two executions the results of the calls of a thread, in order, are the same as far as both go. -/
theorem network_deterministic {p : Plan α} (ho : p.Owned) {s s' : Sys α} (h : Reach p s) (h' : Reach p s') (i : Nat) :
    (s.thr i).res <+: (s'.thr i).res ∨ (s'.thr i).res <+: (s.thr i).res := by
  have hi := inv_reach ho h
  have hi' := inv_reach ho h'
  rcases determined ho hi.areach hi'.areach i with hc | hc
  · exact List.prefix_or_prefix_of_prefix ((res_eff p s i).trans hc) (res_eff p s' i)
  · exact List.prefix_or_prefix_of_prefix (res_eff p s i) ((res_eff p s' i).trans hc)

/-- **C122** If an execution cannot go on, then no execution gets further, in any thread. -/
theorem network_stuck_maximal {p : Plan α} (ho : p.Owned) {s s' : Sys α} (h : Reach p s) (hs : Stuck p s) (h' : Reach p s')
    (i : Nat) : (s'.thr i).res <+: (s.thr i).res := by
  have hi := inv_reach ho h
  have hi' := inv_reach ho h'
  obtain ⟨h1, h2⟩ := stuck_abstract ho hi hs
  have := maximal ho hi.areach h2 hi'.areach i
  rw [h1 i] at this
  exact (res_eff p s' i).trans this

/-- **C122** All executions that cannot go on have the same results: whether a network ends or deadlocks, where it
deadlocks and what it computes does not depend on the schedule. -/
theorem network_outcome {p : Plan α} (ho : p.Owned) {s s' : Sys α} (h : Reach p s) (hs : Stuck p s) (h' : Reach p s')
    (hs' : Stuck p s') (i : Nat) : (s.thr i).res = (s'.thr i).res :=
  (network_stuck_maximal ho h' hs' h i).eq_of_length_le (network_stuck_maximal ho h hs h' i).length_le

/-- **C122** A thread that has finished in one execution makes the same calls, with the same results, in all. -/
theorem network_finished {p : Plan α} (ho : p.Owned) {s s' : Sys α} (h : Reach p s) (hf : p.prog i (s.thr i).res = .stop)
    (h' : Reach p s') : (s'.thr i).res <+: (s.thr i).res := by
  rcases network_deterministic ho h h' i with hc | hc
  · rcases prefix_next hc with e | ⟨r, hr⟩
    · rw [e]; exact List.prefix_rfl
    · exfalso
      have := justified ho (inv_reach ho h').areach i _ r (hr.trans (res_eff p s' i))
      rcases this with ⟨k', x', hp, -⟩ | ⟨k', hp, -⟩ | ⟨k', x', hp, -⟩ | ⟨k', x', hp, -⟩ | ⟨k', hp, -⟩ <;>
        rw [hf] at hp <;> cases hp
  · exact hc

/-! ### Examples -/

/-- An action that is enabled, threads below `n` tried from the last to the first (for examples; channel.hpp:58-194). -/
def pick (p : Plan α) (s : Sys α) : Nat → Option (NAct × Sys α)
  | 0 => none
  | i + 1 =>
    match step p s (.run i none) with
    | some s' => some (.run i none, s')
    | none => match step p s (.run i (some 0)) with
      | some s' => some (.run i (some 0), s')
      | none => match step p s (.run i (some 1)) with
        | some s' => some (.run i (some 1), s')
        | none => match step p s (.begin i) with
          | some s' => some (.begin i, s')
          | none => pick p s i

/-- A schedule (for examples; channel.hpp:58-194). -/
def sched (p : Plan α) (n : Nat) : Nat → Sys α → List NAct
  | 0, _ => []
  | f + 1, s =>
    match pick p s n with
    | none => []
    | some (a, s') => a :: sched p n f s'

/-- Two threads in a cycle: thread 1 doubles what it gets, thread 0 sends it back once (example for channel.hpp:58-194). -/
def cycle : Plan Nat where
  cap _ := 1
  prod k := if k = 0 then 0 else 1
  cons k := if k = 0 then 1 else 0
  prog i rs := match i with
    | 0 => match rs with
      | [] => .push 0 3
      | [_] => .pop 1
      | [_, .val (some y)] => .push 0 y
      | [_, _, _] => .pop 1
      | [_, _, _, _] => .close 0
      | _ => .stop
    | 1 => match rs.getLast? with
      | none => .pop 0
      | some (.val (some v)) => .push 1 (2 * v)
      | some (.val none) => .close 1
      | some (.bool _) => .pop 0
      | _ => .stop
    | _ => .stop

theorem cycle_owned : cycle.Owned := by
  intro i rs
  match i with
  | 0 => simp only [cycle]; split <;> simp <;> omega
  | 1 => simp only [cycle]; split <;> simp <;> omega
  | n + 2 => simp [cycle]

theorem cycle_run : (exec cycle (start Nat) (sched cycle 2 400 (start Nat))).map (fun s => (s.thr 0, s.thr 1)) =
    some (⟨[.bool true, .val (some 6), .bool true, .val (some 12), .unit], false⟩,
      ⟨[.val (some 3), .bool true, .val (some 6), .bool true, .val none, .unit], false⟩) := by decide +kernel

theorem cycle_stuck {s : Sys Nat} (h0 : s.thr 0 = ⟨[.bool true, .val (some 6), .bool true, .val (some 12), .unit], false⟩)
    (h1 : s.thr 1 = ⟨[.val (some 3), .bool true, .val (some 6), .bool true, .val none, .unit], false⟩) : Stuck cycle s := by
  intro i w
  match i with
  | 0 => simp [step, Sys.begin, Sys.run, h0, cycle, Plan.callOf]
  | 1 => simp [step, Sys.begin, Sys.run, h1, cycle, Plan.callOf]
  | n + 2 =>
    have : ∀ rs, cycle.callOf (n + 2) (cycle.prog (n + 2) rs) = none := fun rs => rfl
    simp only [step, Sys.begin, Sys.run, this]
    cases (s.thr (n + 2)).inside <;> simp

/-- All executions of `cycle` compute 6 and 12: by one schedule and the theorems. -/
example : (∃ s, Reach cycle s ∧ Stuck cycle s) ∧ ∀ s, Reach cycle s →
    (s.thr 0).res <+: [.bool true, .val (some 6), .bool true, .val (some 12), .unit] := by
  have h := cycle_run
  simp only [Option.map_eq_some_iff] at h
  obtain ⟨s, h1, h2⟩ := h
  simp only [Prod.mk.injEq] at h2
  have hst := cycle_stuck h2.1 h2.2
  refine ⟨⟨s, ⟨_, h1⟩, hst⟩, fun s' h' => ?_⟩
  have h3 := network_stuck_maximal cycle_owned ⟨_, h1⟩ hst h' 0
  have h4 := network_deterministic cycle_owned ⟨_, h1⟩ h' 0
  have h5 := network_outcome cycle_owned ⟨_, h1⟩ hst ⟨_, h1⟩ hst 0
  have h6 := network_finished cycle_owned (i := 0) ⟨_, h1⟩ (by rw [h2.1]; rfl) h'
  rw [h2.1] at h3
  exact h3

/-- The consumer closes the channel (example for channel.hpp:58-105). -/
def hasty : Plan Nat where
  cap _ := 1
  prod _ := 0
  cons _ := 1
  prog i rs := match i, rs with
    | 0, [] => .push 0 7
    | 1, [] => .close 0
    | _, _ => .stop

/-- **C122** If the consumer also closes, then the results depend on the schedule, although all else is as it should be: in one
execution the push is accepted, in the other it is refused. -/
theorem network_consumer_close_refuted : ∃ (p : Plan Nat) (s s' : Sys Nat), (∀ i rs, (∀ k, p.prog i rs = .pop k → p.cons k = i) ∧
    (∀ k x, p.prog i rs = .push k x → p.prod k = i) ∧ ∀ k, p.prog i rs = .close k → p.prod k = i ∨ p.cons k = i) ∧
    Reach p s ∧ Reach p s' ∧ (s.thr 0).res = [.bool true] ∧ (s'.thr 0).res = [.bool false] := by
  have h1 : (exec hasty (start Nat) (sched hasty 1 100 (start Nat))).map (fun s => (s.thr 0).res) = some [.bool true] := by
    decide +kernel
  have h2 : (exec hasty (start Nat) (sched hasty 2 100 (start Nat))).map (fun s => (s.thr 0).res) = some [.bool false] := by
    decide +kernel
  simp only [Option.map_eq_some_iff] at h1 h2
  obtain ⟨s, h1, e1⟩ := h1
  obtain ⟨s', h2, e2⟩ := h2
  refine ⟨hasty, s, s', ?_, ⟨_, h1⟩, ⟨_, h2⟩, e1, e2⟩
  intro i rs
  simp only [hasty]
  split <;> simp

end Verif.Net
