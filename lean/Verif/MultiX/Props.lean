import Verif.MultiX.Lose

/-!
Programs that use exchange channels behave as if every call took effect at once (C127): for all numbers of threads and channels, all
programs, all patterns of use, all schedules with spurious wakeups and stale reads, and elements whose constructors and moves may throw.
-/
namespace Verif.MultiX

open Verif.Exchange
open Verif.Channel (Op Res Ev Act)
open Verif.Multi (Thr set MAct set_self set_other set_same)

variable {α : Type}

/-- **C127** Beside every execution runs one in which every call takes effect at once: each action is such a call, or none. At all
times the results are the same, except that a call that has not yet returned may have had its effect. So every call takes effect
once, between its beginning and its return, with the result that it returns, on the value as it is then. An exception of a move
constructor at the very end of `pop` is the result of an effect that took place before: the calls beside the execution know it
from the beginning. -/
theorem multix_simulation {p : Prog α} {acts : List MAct} {s : Sys α} (h : exec p (start p) acts = some s) :
    ∃ A : Nat → ASys α, A 0 = astart ∧ (∀ j, j < acts.length → A (j + 1) = A j ∨ AStep p (A j) (A (j + 1))) ∧
      ∀ j, j ≤ acts.length → ∃ t, exec p (start p) (acts.take j) = some t ∧
        (∀ k, (A j).slot k = (t.chan k).slot ∧ (A j).closed k = (t.chan k).closed) ∧
        ∀ i, ((t.thr i).inside = false → (A j).res i = (t.thr i).res) ∧
          ((A j).res i = (t.thr i).res ∨ ∃ r, (A j).res i = (t.thr i).res ++ [r]) := by
  obtain ⟨A, h1, -, h3⟩ := back_exec (inv_start p) h
  refine ⟨A, ?_, h1, fun j hj => ?_⟩
  · obtain ⟨t, ov, e, -, hA⟩ := h3 0 (by omega)
    simp only [List.take_zero, exec] at e; injection e with e; subst e
    rw [hA]
    have hz : ∀ i, pend p (start p) i = [] := fun i => by simp [pend, start]
    simp only [absO, hz]
    simp [over, start, astart, init]
  · obtain ⟨t, ov, e, -, hA⟩ := h3 j hj
    rw [hA]
    refine ⟨t, e, fun k => ⟨rfl, rfl⟩, fun i => ?_⟩
    simp only [absO, pend]
    refine ⟨fun hi => by simp [hi, over], ?_⟩
    have hover : ∀ l : List (Res α), (l = [] ∨ ∃ r, l = [r]) → (t.thr i).res ++ over (ov i) l = (t.thr i).res ∨
        ∃ r, (t.thr i).res ++ over (ov i) l = (t.thr i).res ++ [r] := by
      rintro l (rfl | ⟨r, rfl⟩)
      · left; simp [over]
      · right; cases ov i
        · exact ⟨r, rfl⟩
        · exact ⟨.threw, rfl⟩
    refine hover _ ?_
    split
    · rename_i k op _ _
      cases (((t.chan k).pcs[i]?).map ph) with
      | none => left; simp [pendR]
      | some x => cases x with
        | none => left; simp [pendR]
        | some y => obtain ⟨op', r⟩ := y; cases r with
          | none => left; simp [pendR]
          | some r => right; exact ⟨r, by simp [pendR]⟩
    · exact .inl rfl

theorem areach_of_chain {p : Prog α} {A : Nat → ASys α} (h0 : A 0 = astart) {n : Nat}
    (hs : ∀ j, j < n → A (j + 1) = A j ∨ AStep p (A j) (A (j + 1))) : ∀ j, j ≤ n → AReach p (A j)
  | 0, _ => by rw [h0]; exact .start
  | j + 1, hj => by
    have ih := areach_of_chain h0 hs j (by omega)
    rcases hs j (by omega) with e | e
    · rw [e]; exact ih
    · exact .step ih e

theorem abs_areach {p : Prog α} {s : Sys α} (h : Reach p s) : AReach p (abs p s) := by
  obtain ⟨acts, h⟩ := h
  obtain ⟨A, h1, h2, h3⟩ := back_exec (inv_start p) h
  have h0 : A 0 = astart := by
    obtain ⟨t, ov, e, -, hA⟩ := h3 0 (by omega)
    simp only [List.take_zero, exec] at e; injection e with e; subst e
    rw [hA]
    have hz : ∀ i, pend p (start p) i = [] := fun i => by simp [pend, start]
    simp only [absO, hz]
    simp [over, start, astart, init]
  rw [← h2]
  exact areach_of_chain h0 h1 _ (Nat.le_refl _)

/-- **C127** The threads can get exactly those results that they can get if every call takes effect at once. -/
theorem multix_outcomes {p : Prog α} (R : Nat → List (Res α)) :
    (∃ s, Reach p s ∧ ∀ i, s.thr i = ⟨R i, false⟩) ↔ ∃ q c, AReach p ⟨q, c, R⟩ := by
  constructor
  · rintro ⟨s, h, ht⟩
    have ha := abs_areach h
    have : abs p s = ⟨(abs p s).slot, (abs p s).closed, R⟩ := by
      have : (abs p s).res = R := by funext i; simp [abs, pend, ht]
      rw [← this]
    rw [this] at ha
    exact ⟨_, _, ha⟩
  · rintro ⟨q, c, ha⟩
    obtain ⟨s, hc⟩ := calm_reach ha
    exact ⟨s, hc.reach, hc.thr⟩

/-- **C127** The executions can come to a state in which nothing can go on, with some results, exactly if they can if every call
takes effect at once: the detailed channels add no deadlocks. This also holds if constructors and moves throw. Then a consumer can
sleep although there is a value (`exchange_no_lost_wakeup_refuted`), but only after a removal that has thrown, and it might as well
have lost the value: the threads cannot tell. -/
theorem multix_deadlocks {p : Prog α} (R : Nat → List (Res α)) :
    (∃ s, Reach p s ∧ Stuck p s ∧ ∀ i, (s.thr i).res = R i) ↔ ∃ q c, AReach p ⟨q, c, R⟩ ∧ AStuck p ⟨q, c, R⟩ := by
  constructor
  · rintro ⟨s, hr, hs, ht⟩
    have ha := lose_reach hr (L := fun k => taint (s.chan k).hist) (fun _ h => h)
    obtain ⟨h1, h2⟩ := stuck_lose (inv_reach hr) hs
    generalize absL p s (fun _ => false) (fun k => taint (s.chan k).hist) = A at ha h1 h2
    obtain ⟨q, c, R'⟩ := A
    have : R' = R := by funext i; rw [← ht i]; exact h1 i
    subst this
    exact ⟨q, c, ha, h2⟩
  · rintro ⟨q, c, ha, hs⟩
    obtain ⟨s, hd⟩ := doze_all ha hs p.n (Nat.le_refl _)
    exact ⟨s, hd.reach, doze_stuck hs hd, fun i => by rw [hd.thr i]⟩

/-- **C127** So what holds of the results whenever calls take effect at once, holds of the results in all executions: also while
calls are still running. -/
theorem multix_safety {p : Prog α} {P : (Nat → List (Res α)) → Prop}
    (hP : ∀ A, AReach p A → ∀ R, (∀ i, R i = A.res i ∨ ∃ r, A.res i = R i ++ [r]) → P R) {s : Sys α} (h : Reach p s) :
    P fun i => (s.thr i).res := by
  obtain ⟨acts, h⟩ := h
  obtain ⟨A, h0, h1, h2⟩ := multix_simulation h
  obtain ⟨t, e, -, h3⟩ := h2 acts.length (Nat.le_refl _)
  rw [List.take_length, h] at e; injection e with e; subst e
  refine hP _ (areach_of_chain h0 h1 _ (Nat.le_refl _)) _ (fun i => ?_)
  rcases (h3 i).2 with e | ⟨r, e⟩
  · exact .inl e.symm
  · exact .inr ⟨r, e⟩

/-! ### Examples -/

/-- Threads 0 and 1 push into channel 0, thread 2 pops twice from it (example for exchange_channel.hpp:79-136). -/
def race : Prog Nat where
  n := 3
  cfg _ := {}
  code i rs := match i, rs with
    | 0, [] => some (0, .push 10)
    | 1, [] => some (0, .push 11)
    | 2, [] => some (0, .pop)
    | 2, [_] => some (0, .pop)
    | _, _ => none

/-- The results when thread 1 is first. -/
def raceRes : Nat → List (Res Nat) :=
  set (set (set (set (fun _ => []) 1 [.bool true]) 2 [.val (some 11)]) 0 [.bool true]) 2 [.val (some 11), .val (some 10)]

theorem race_areach : ∃ q c, AReach race ⟨q, c, raceRes⟩ := by
  refine ⟨_, _, .step (.step (.step (.step .start
    (.call (i := 1) (k := 0) (op := .push 11) (by decide) rfl (.inl rfl)))
    (.call (i := 2) (k := 0) (op := .pop) (by decide) rfl (.inl rfl)))
    (.call (i := 0) (k := 0) (op := .push 10) (by decide) rfl (.inl rfl)))
    (.call (i := 2) (k := 0) (op := .pop) (by decide) rfl (.inl rfl))⟩

/-- The results when both pushes are before the first pop: the second replaces the first, and one pop waits for ever. -/
def dropRes : Nat → List (Res Nat) :=
  set (set (set (fun _ => []) 1 [.bool true]) 0 [.bool true]) 2 [.val (some 10)]

/-- Thread 2 is stuck then, on the detailed channels as well: its second pop waits for the value that was replaced. -/
example : ∃ s, Reach race s ∧ Stuck race s ∧ ∀ i, (s.thr i).res = dropRes i := by
  refine (multix_deadlocks dropRes).2 ⟨_, _, .step (.step (.step .start
    (.call (i := 1) (k := 0) (op := .push 11) (by decide) rfl (.inl rfl)))
    (.call (i := 0) (k := 0) (op := .push 10) (by decide) rfl (.inl rfl)))
    (.call (i := 2) (k := 0) (op := .pop) (by decide) rfl (.inl rfl)), fun B hB => ?_⟩
  cases hB with
  | @call i k op r q' c' hi hcode he =>
    match i, hi with
    | 0, _ => cases hcode
    | 1, _ => cases hcode
    | 2, _ =>
      injection hcode with hcode; injection hcode with h1 h2; subst h1; subst h2
      rcases he with he | ⟨h, -⟩ | ⟨h, -⟩
      · cases he
      · cases h
      · cases h

/-- These results can also be had on the detailed channels. -/
example : ∃ s, Reach race s ∧ ∀ i, s.thr i = ⟨raceRes i, false⟩ := (multix_outcomes raceRes).2 race_areach

/-- Nothing is left to do then. -/
example : ∃ s, Reach race s ∧ Stuck race s ∧ ∀ i, (s.thr i).res = raceRes i := by
  refine (multix_deadlocks raceRes).2 ?_
  obtain ⟨q, c, h⟩ := race_areach
  refine ⟨q, c, h, fun B hB => ?_⟩
  cases hB with
  | @call i k op r q' c' hi hcode he =>
    match i, hi with
    | 0, _ => cases hcode
    | 1, _ => cases hcode
    | 2, _ => cases hcode

/-- Two calls that overlap, with the simulation beside them. -/
example : ∃ A : Nat → ASys Nat, A 0 = astart ∧ ∀ j, j < 3 → A (j + 1) = A j ∨ AStep race (A j) (A (j + 1)) := by
  have h : (exec race (start race) [.begin 2, .begin 1, .run 1 none]).isSome = true := by decide
  obtain ⟨s, hs⟩ := Option.isSome_iff_exists.1 h
  obtain ⟨A, h0, h1, -⟩ := multix_simulation hs
  exact ⟨A, h0, h1⟩

/-- Thread 0 calls once, in all executions: known from the calls that take effect at once. -/
example {s : Sys Nat} (h : Reach race s) : (s.thr 0).res.length ≤ 1 := by
  refine multix_safety (P := fun R => (R 0).length ≤ 1) (fun A hA R hR => ?_) h
  have : (A.res 0).length ≤ 1 := by
    clear hR
    induction hA with
    | start => simp [astart]
    | @step A B _ hs ih =>
      cases hs with
      | @call i k op r q' c' hi hcode he =>
        by_cases e : 0 = i
        · subst e
          cases hz : A.res 0 with
          | nil => simp [Verif.Multi.set, hz]
          | cons x l => rw [hz] at hcode; cases hcode
        · simpa [Verif.Multi.set, e] using ih
  rcases hR 0 with e | ⟨r, e⟩
  · rw [e]; exact this
  · rw [e] at this; simp at this; rw [this]; simp

/-- Threads 0 and 1 pop, thread 2 pushes, and moves may throw (example for exchange_channel.hpp:79-136). -/
def sticky : Prog Nat where
  n := 3
  cfg _ := { moveThrow := true }
  code i rs := match i, rs with
    | 0, [] => some (0, .pop)
    | 1, [] => some (0, .pop)
    | 2, [] => some (0, .push 1)
    | _, _ => none

/-- Both consumers sleep, thread 0 gets the wakeup of the push, and its pop throws (example for exchange_channel.hpp:79-136). -/
def stickySched : List MAct :=
  [.begin 0, .run 0 none, .run 0 none, .begin 1, .run 1 none, .run 1 none,
   .begin 2, .run 2 none, .run 2 none, .run 2 none, .run 2 none, .run 2 (some 0), .run 2 none,
   .run 0 none, .run 0 none, .throw 0, .run 0 none, .run 0 none]

/-- Thread 1 sleeps although there is a value. -/
theorem sticky_run : (exec sticky (start sticky) stickySched).map (fun s => ([s.thr 0, s.thr 1, s.thr 2], (s.chan 0).pcs, (s.chan 0).slot)) =
    some ([⟨[.threw], false⟩, ⟨[], true⟩, ⟨[.bool true], false⟩], [.idle, .pSleep, .idle], some 1) := by decide +kernel

/-- The results of the threads then are results of calls that take effect at once: the pop that threw has lost the value. -/
example : ∃ q c, AReach sticky ⟨q, c, set (set (fun _ => []) 2 [.bool true]) 0 [.threw]⟩ ∧
    AStuck sticky ⟨q, c, set (set (fun _ => []) 2 [.bool true]) 0 [.threw]⟩ := by
  refine (multix_deadlocks _).1 ?_
  have h := sticky_run
  simp only [Option.map_eq_some_iff] at h
  obtain ⟨s, h1, h2⟩ := h
  simp only [Prod.mk.injEq, List.cons.injEq, and_true] at h2
  obtain ⟨⟨t0, t1, t2⟩, hp, -⟩ := h2
  have hout : ∀ i, 2 < i → ∀ rs, sticky.code i rs = none := by
    intro i hi rs
    simp only [sticky]; split <;> first | omega | rfl
  have hend : ∀ i, 2 < i → (s.thr i).inside = false ∧ (s.thr i).res = [] := by
    intro i hi
    have hin : (s.thr i).inside = false := by
      cases hin : (s.thr i).inside with
      | false => rfl
      | true =>
        obtain ⟨k, op, _, _, hc, _⟩ := (inv_reach (p := sticky) ⟨_, h1⟩).here i hin
        rw [hout i hi] at hc; cases hc
    refine ⟨hin, multix_safety (p := sticky) (P := fun R => R i = []) (fun A hA R hR => ?_) ⟨_, h1⟩⟩
    have : A.res i = [] := by
      clear hR
      induction hA with
      | start => rfl
      | @step A B _ hst ih =>
        cases hst with
        | @call j k op r q' c' hj hcode he =>
          have : i ≠ j := by have : j < 3 := hj; omega
          simpa [Verif.Multi.set, this] using ih
    rcases hR i with e | ⟨r, e⟩
    · rw [e]; exact this
    · rw [this] at e; simp at e
  refine ⟨s, ⟨_, h1⟩, fun i w => ?_, fun i => ?_⟩
  · match i with
    | 0 => simp [step, Sys.begin, Sys.run, t0, sticky]
    | 1 => simp [step, Sys.begin, Sys.run, t1, sticky, next, hp, stepAt]
    | 2 => simp [step, Sys.begin, Sys.run, t2, sticky]
    | i + 3 => simp [step, Sys.begin, Sys.run, (hend (i + 3) (by omega)).1, hout (i + 3) (by omega)]
  · match i with
    | 0 => rw [t0]; rfl
    | 1 => rw [t1]; rfl
    | 2 => rw [t2]; rfl
    | i + 3 => rw [(hend (i + 3) (by omega)).2]; rfl

end Verif.MultiX
