import Verif.Mixed.Stuck
import Verif.Mixed.Doze

/-!
Programs that use channels and exchange channels together behave as if every call took effect at once (C128).
-/
namespace Verif.Mixed

open Verif.Channel (Op Res Act)
open Verif.Multi (Thr set MAct set_self set_other set_same pendR over)

variable {α : Type}

theorem start_absO (p : Prog α) (ov : Nat → Bool) : absO p (start p) ov = astart p := by
  have hz : ∀ i, pend p (start p) i = [] := fun i => by simp [pend, start]
  simp only [absO, hz]
  simp only [astart, over, start]
  have h1 : ∀ cfg, (fresh α p.n cfg).val = OVal.empty α cfg := fun cfg => by cases cfg <;> rfl
  have h2 : ∀ cfg, (fresh α p.n cfg).closed = false := fun cfg => by cases cfg <;> rfl
  simp [h1, h2]

/-- **C128** Beside every execution runs one in which every call takes effect at once: each action is such a call, or none. At all
times the results are the same, except that a call that has not yet returned may have had its effect. So every call takes effect
once, between its beginning and its return, with the result that it returns, on the object as it is then. An exception of a move
constructor at the very end of `pop` is the result of an effect that took place before: the calls beside the execution know it
from the beginning. -/
theorem mixed_simulation {p : Prog α} {acts : List MAct} {s : Sys α} (h : exec p (start p) acts = some s) :
    ∃ A : Nat → ASys α, A 0 = astart p ∧ (∀ j, j < acts.length → A (j + 1) = A j ∨ AStep p (A j) (A (j + 1))) ∧
      ∀ j, j ≤ acts.length → ∃ t, exec p (start p) (acts.take j) = some t ∧
        (∀ k, (A j).val k = (t.obj k).val ∧ (A j).closed k = (t.obj k).closed) ∧
        ∀ i, ((t.thr i).inside = false → (A j).res i = (t.thr i).res) ∧
          ((A j).res i = (t.thr i).res ∨ ∃ r, (A j).res i = (t.thr i).res ++ [r]) := by
  obtain ⟨A, h1, -, h3⟩ := back_exec (inv_start p) h
  refine ⟨A, ?_, h1, fun j hj => ?_⟩
  · obtain ⟨t, ov, e, -, hA⟩ := h3 0 (by omega)
    simp only [List.take_zero, exec] at e; injection e with e; subst e
    rw [hA]
    exact start_absO p ov
  · obtain ⟨t, ov, e, -, hA⟩ := h3 j hj
    rw [hA]
    refine ⟨t, e, fun k => ⟨rfl, rfl⟩, fun i => ?_⟩
    simp only [absO, pend]
    refine ⟨fun hi => by simp [hi, over], ?_⟩
    have hover : ∀ l : List (Res α), (l = [] ∨ ∃ r, l = [r]) → (t.thr i).res ++ over (ov i) l = (t.thr i).res ∨
        ∃ r, (t.thr i).res ++ over (ov i) l = (t.thr i).res ++ [r] := by
      rintro l (rfl | ⟨r, rfl⟩)
      · left; simp [over]
      · right; cases ov i
        · exact ⟨r, rfl⟩
        · exact ⟨.threw, rfl⟩
    refine hover _ ?_
    split
    · rename_i k op _ _
      cases phase (t.obj k) i with
      | none => left; simp [pendR]
      | some x => cases x with
        | none => left; simp [pendR]
        | some y => obtain ⟨op', r⟩ := y; cases r with
          | none => left; simp [pendR]
          | some r => right; exact ⟨r, by simp [pendR]⟩
    · exact .inl rfl

theorem areach_of_chain {p : Prog α} {A : Nat → ASys α} (h0 : A 0 = astart p) {n : Nat}
    (hs : ∀ j, j < n → A (j + 1) = A j ∨ AStep p (A j) (A (j + 1))) : ∀ j, j ≤ n → AReach p (A j)
  | 0, _ => by rw [h0]; exact .start
  | j + 1, hj => by
    have ih := areach_of_chain h0 hs j (by omega)
    rcases hs j (by omega) with e | e
    · rw [e]; exact ih
    · exact .step ih e

theorem abs_areach {p : Prog α} {s : Sys α} (h : Reach p s) : AReach p (abs p s) := by
  obtain ⟨acts, h⟩ := h
  obtain ⟨A, h1, h2, h3⟩ := back_exec (inv_start p) h
  have h0 : A 0 = astart p := by
    obtain ⟨t, ov, e, -, hA⟩ := h3 0 (by omega)
    simp only [List.take_zero, exec] at e; injection e with e; subst e
    rw [hA]
    exact start_absO p ov
  rw [← h2]
  exact areach_of_chain h0 h1 _ (Nat.le_refl _)

/-- **C128** The threads can get exactly those results that they can get if every call takes effect at once. -/
theorem mixed_outcomes {p : Prog α} (R : Nat → List (Res α)) :
    (∃ s, Reach p s ∧ ∀ i, s.thr i = ⟨R i, false⟩) ↔ ∃ q c, AReach p ⟨q, c, R⟩ := by
  constructor
  · rintro ⟨s, h, ht⟩
    have ha := abs_areach h
    have : abs p s = ⟨(abs p s).val, (abs p s).closed, R⟩ := by
      have : (abs p s).res = R := by funext i; simp [abs, pend, ht]
      rw [← this]
    rw [this] at ha
    exact ⟨_, _, ha⟩
  · rintro ⟨q, c, ha⟩
    obtain ⟨s, hc⟩ := calm_reach ha
    exact ⟨s, hc.reach, hc.thr⟩

/-- **C128** The executions can come to a state in which nothing can go on, with some results, exactly if they can if every call
takes effect at once: the detailed objects add no deadlocks, also not together. Elements of exchange channels may throw, those of
channels do not; for channels this is needed (`multi_deadlocks_throw_refuted`, `multi_deadlocks_move_refuted`). -/
theorem mixed_deadlocks {p : Prog α} (hc : ∀ k, (p.cfg k).calm) (R : Nat → List (Res α)) :
    (∃ s, Reach p s ∧ Stuck p s ∧ ∀ i, (s.thr i).res = R i) ↔ ∃ q c, AReach p ⟨q, c, R⟩ ∧ AStuck p ⟨q, c, R⟩ := by
  constructor
  · rintro ⟨s, hr, hs, ht⟩
    have ha := lose_reach (start_absO p) hr (L := fun k => (s.obj k).left) (fun _ h => h)
    obtain ⟨h1, h2⟩ := stuck_abs hc (inv_reach hr) hs
    generalize absL p s (fun _ => false) (fun k => (s.obj k).left) = A at ha h1 h2
    obtain ⟨q, c, R'⟩ := A
    have : R' = R := by funext i; rw [← ht i]; exact h1 i
    subst this
    exact ⟨q, c, ha, h2⟩
  · rintro ⟨q, c, ha, hs⟩
    obtain ⟨s, hd⟩ := doze_all ha hs p.n (Nat.le_refl _)
    exact ⟨s, hd.reach, doze_stuck hd, hd.res⟩

/-- **C128** So what holds of the results whenever calls take effect at once, holds of the results in all executions: also while
calls are still running. -/
theorem mixed_safety {p : Prog α} {P : (Nat → List (Res α)) → Prop}
    (hP : ∀ A, AReach p A → ∀ R, (∀ i, R i = A.res i ∨ ∃ r, A.res i = R i ++ [r]) → P R) {s : Sys α} (h : Reach p s) :
    P fun i => (s.thr i).res := by
  obtain ⟨acts, h⟩ := h
  obtain ⟨A, h0, h1, h2⟩ := mixed_simulation h
  obtain ⟨t, e, -, h3⟩ := h2 acts.length (Nat.le_refl _)
  rw [List.take_length, h] at e; injection e with e; subst e
  refine hP _ (areach_of_chain h0 h1 _ (Nat.le_refl _)) _ (fun i => ?_)
  rcases (h3 i).2 with e | ⟨r, e⟩
  · exact .inl e.symm
  · exact .inr ⟨r, e⟩

/-! ### Examples -/

/-- Thread 0 sends two jobs over channel 0, thread 1 reports each job that it gets in exchange channel 1, thread 2 takes one report,
whose move may throw (example for channel.hpp:85-194, exchange_channel.hpp:79-149). -/
def report : Prog Nat where
  n := 3
  cfg k := if k = 0 then .chan { cap := 1 } else .exch { moveThrow := true }
  code i rs := match i, rs with
    | 0, [] => some (0, .push 10)
    | 0, [_] => some (0, .push 11)
    | 1, [] => some (0, .pop)
    | 1, [.val (some x)] => some (1, .push (x + 100))
    | 1, [_, _] => some (0, .pop)
    | 1, [_, _, .val (some x)] => some (1, .push (x + 100))
    | 2, [] => some (1, .pop)
    | _, _ => none

/-- The results when thread 2 is late: it gets only the last report. -/
def reportRes : Nat → List (Res Nat) :=
  set (set (set (set (set (set (set (fun _ => []) 0 [.bool true]) 1 [.val (some 10)]) 0 [.bool true, .bool true])
    1 [.val (some 10), .bool true]) 1 [.val (some 10), .bool true, .val (some 11)])
    1 [.val (some 10), .bool true, .val (some 11), .bool true]) 2 [.val (some 111)]

theorem report_areach : ∃ q c, AReach report ⟨q, c, reportRes⟩ := by
  refine ⟨_, _, .step (.step (.step (.step (.step (.step (.step .start
    (.call (i := 0) (k := 0) (op := .push 10) (r := .bool true) (q' := .queue [10]) (c' := false) (by decide) rfl (.inl rfl)))
    (.call (i := 1) (k := 0) (op := .pop) (r := .val (some 10)) (q' := .queue []) (c' := false) (by decide) rfl (.inl rfl)))
    (.call (i := 0) (k := 0) (op := .push 11) (r := .bool true) (q' := .queue [11]) (c' := false) (by decide) rfl (.inl rfl)))
    (.call (i := 1) (k := 1) (op := .push 110) (r := .bool true) (q' := .slot (some 110)) (c' := false) (by decide) rfl (.inl rfl)))
    (.call (i := 1) (k := 0) (op := .pop) (r := .val (some 11)) (q' := .queue []) (c' := false) (by decide) rfl (.inl rfl)))
    (.call (i := 1) (k := 1) (op := .push 111) (r := .bool true) (q' := .slot (some 111)) (c' := false) (by decide) rfl (.inl rfl)))
    (.call (i := 2) (k := 1) (op := .pop) (r := .val (some 111)) (q' := .slot none) (c' := false) (by decide) rfl (.inl rfl))⟩

/-- These results can also be had on the detailed objects. -/
example : ∃ s, Reach report s ∧ ∀ i, s.thr i = ⟨reportRes i, false⟩ := (mixed_outcomes reportRes).2 report_areach

theorem report_calm (k : Nat) : (report.cfg k).calm := by
  simp only [report]; split
  · exact ⟨rfl, rfl⟩
  · trivial

/-- Nothing is left to do then. -/
example : ∃ s, Reach report s ∧ Stuck report s ∧ ∀ i, (s.thr i).res = reportRes i := by
  refine (mixed_deadlocks report_calm reportRes).2 ?_
  obtain ⟨q, c, h⟩ := report_areach
  refine ⟨q, c, h, fun B hB => ?_⟩
  cases hB with
  | @call i k op r q' c' hi hcode he =>
    match i, hi with
    | 0, _ => cases hcode
    | 1, _ => cases hcode
    | 2, _ => cases hcode

/-- Two calls that overlap, with the simulation beside them. -/
example : ∃ A : Nat → ASys Nat, A 0 = astart report ∧ ∀ j, j < 4 → A (j + 1) = A j ∨ AStep report (A j) (A (j + 1)) := by
  have h : (exec report (start report) [.begin 2, .begin 0, .run 0 none, .run 2 none]).isSome = true := by decide
  obtain ⟨s, hs⟩ := Option.isSome_iff_exists.1 h
  obtain ⟨A, h0, h1, -⟩ := mixed_simulation hs
  exact ⟨A, h0, h1⟩

/-- Thread 2 takes one report, in all executions: known from the calls that take effect at once. -/
example {s : Sys Nat} (h : Reach report s) : (s.thr 2).res.length ≤ 1 := by
  refine mixed_safety (P := fun R => (R 2).length ≤ 1) (fun A hA R hR => ?_) h
  have : (A.res 2).length ≤ 1 := by
    clear hR
    induction hA with
    | start => simp [astart]
    | @step A B _ hs ih =>
      cases hs with
      | @call i k op r q' c' hi hcode he =>
        by_cases e : 2 = i
        · subst e
          cases hz : A.res 2 with
          | nil => simp [Verif.Multi.set]
          | cons x l => rw [hz] at hcode; cases hcode
        · simpa [Verif.Multi.set, e] using ih
  rcases hR 2 with e | ⟨r, e⟩
  · rw [e]; exact this
  · rw [e] at this; simp at this; rw [this]; simp

end Verif.Mixed
