import Verif.Multi.Props

/-!
Elements that throw (C126): the equivalence of deadlocks in `multi_deadlocks` needs that neither their constructors nor their moves do.
-/
namespace Verif.Multi

open Verif.Channel

/-- Threads 0, 1 and 2 push into channel 0 of capacity 1, thread 3 pops from it twice; constructors may throw (example for
channel.hpp:85-105, 179-194). -/
def lossy : Prog Nat where
  n := 4
  cfg _ := { cap := 1, ctorThrow := true }
  code i rs := match i, rs with
    | 0, [] => some (0, .push 0)
    | 1, [] => some (0, .push 1)
    | 2, [] => some (0, .push 2)
    | 3, [] => some (0, .pop)
    | 3, [_] => some (0, .pop)
    | _, _ => none

/-- `k` steps of thread `i` (for examples; channel.hpp:58-212). -/
def walk (i k : Nat) : List MAct := List.replicate k (.run i none)

/-- Thread 0 fills the channel, threads 1 and 2 fall asleep, thread 3 pops and wakes thread 1, whose constructor throws; thread 3
falls asleep on the empty channel, and thread 2 sleeps although there is room (channel.hpp:92,100,192). -/
def lossySched : List MAct :=
  [.begin 0] ++ walk 0 7 ++ [.begin 1] ++ walk 1 3 ++ [.begin 2] ++ walk 2 3 ++
  [.begin 3] ++ walk 3 4 ++ [.run 3 (some 1)] ++ walk 3 2 ++ walk 1 2 ++ [.throw 1] ++ walk 1 2 ++ [.begin 3] ++ walk 3 2

/-- The results then. -/
def lossyRes : Nat → List (Res Nat)
  | 0 => [.bool true]
  | 1 => [.threw]
  | 3 => [.val (some 0)]
  | _ => []

theorem lossy_run : (exec lossy (start lossy) lossySched).map (fun s => ([s.thr 0, s.thr 1, s.thr 2, s.thr 3], (s.chan 0).pcs)) =
    some ([⟨[.bool true], false⟩, ⟨[.threw], false⟩, ⟨[], true⟩, ⟨[.val (some 0)], true⟩], [.idle, .idle, .eSleep 2, .pSleep]) := by
  decide +kernel

/-- How many elements the channel has. -/
def lossyLevel (A : ASys Nat) : Prop :=
  (A.q 0).length + (A.res 3).countP (fun r => match r with | .val (some _) => true | _ => false) =
    (A.res 0).countP (· == .bool true) + (A.res 1).countP (· == .bool true) + (A.res 2).countP (· == .bool true) ∧
  A.closed 0 = false ∧ ∀ i, 3 < i → A.res i = []

theorem lossy_level {A : ASys Nat} (h : AReach lossy A) : lossyLevel A := by
  induction h with
  | start => simp [lossyLevel, astart]
  | @step A B _ hs ih =>
    obtain ⟨ih, ihc, ihr⟩ := ih
    have hpush : ∀ i v r q' c', (i = 0 ∨ i = 1 ∨ i = 2) → Effect (lossy.cfg 0) (A.q 0) (A.closed 0) (.push v) r q' c' →
        lossyLevel ⟨set A.q 0 q', set A.closed 0 c', set A.res i (A.res i ++ [r])⟩ := by
      intro i v r q' c' hi he
      have key : c' = false ∧ ((r = .bool true ∧ q'.length = (A.q 0).length + 1) ∨ (r = .threw ∧ q' = A.q 0)) := by
        rcases he with he | ⟨-, rfl, rfl, rfl, -⟩ | ⟨-, -, -, hop, -⟩
        · simp only [would, ihc] at he
          simp at he
          obtain ⟨-, rfl, rfl, rfl⟩ := he
          exact ⟨rfl, .inl ⟨rfl, by simp⟩⟩
        · exact ⟨ihc, .inr ⟨rfl, rfl⟩⟩
        · simp at hop
      obtain ⟨rfl, key⟩ := key
      refine ⟨?_, by simp [set], fun j hj => ?_⟩
      · rcases hi with rfl | rfl | rfl <;> rcases key with ⟨rfl, hl⟩ | ⟨rfl, rfl⟩ <;>
          simp [set, List.countP_append] <;> omega
      · have : j ≠ i := by omega
        simp [set, this, ihr j hj]
    have hpop : ∀ r q' c', Effect (lossy.cfg 0) (A.q 0) (A.closed 0) .pop r q' c' →
        lossyLevel ⟨set A.q 0 q', set A.closed 0 c', set A.res 3 (A.res 3 ++ [r])⟩ := by
      intro r q' c' he
      rcases he with he | ⟨-, -, -, -, v, hv, -⟩ | ⟨hm, -⟩
      · cases hq : A.q 0 with
        | nil => rw [hq, ihc] at he; simp [would] at he
        | cons x q =>
          rw [hq, ihc] at he; simp [would] at he
          obtain ⟨rfl, rfl, rfl⟩ := he
          rw [hq] at ih; simp at ih
          refine ⟨?_, by simp [set], fun j hj => ?_⟩
          · simp [set, List.countP_append]; omega
          · have : j ≠ 3 := by omega
            simp [set, this, ihr j hj]
      · simp at hv
      · cases hm
    cases hs with
    | @call i k op r q' c' hi hcode he =>
      simp only [lossy] at hcode
      split at hcode <;> simp at hcode <;> obtain ⟨rfl, rfl⟩ := hcode
      · exact hpush 0 _ r q' c' (.inl rfl) he
      · exact hpush 1 _ r q' c' (.inr (.inl rfl)) he
      · exact hpush 2 _ r q' c' (.inr (.inr rfl)) he
      · exact hpop r q' c' he
      · exact hpop r q' c' he

/-- **C126, why `multi_deadlocks` needs constructors that do not throw**: a constructor that throws can use up a wakeup. Here
nothing can go on although thread 2 waits to push into an empty channel, and no execution with calls that take effect at once ends
like this. -/
theorem multi_deadlocks_throw_refuted : (∀ k, (lossy.cfg k).moveThrow = false) ∧
    (∃ s, Reach lossy s ∧ Stuck lossy s ∧ ∀ i, (s.thr i).res = lossyRes i) ∧
    ¬ ∃ q c, AReach lossy ⟨q, c, lossyRes⟩ ∧ AStuck lossy ⟨q, c, lossyRes⟩ := by
  refine ⟨fun _ => rfl, ?_, ?_⟩
  · have h := lossy_run
    simp only [Option.map_eq_some_iff] at h
    obtain ⟨s, h1, h2⟩ := h
    simp only [Prod.mk.injEq, List.cons.injEq, and_true] at h2
    obtain ⟨⟨t0, t1, t2, t3⟩, hp⟩ := h2
    have hi := inv_reach (p := lossy) ⟨_, h1⟩
    have hout : ∀ i, 3 < i → ∀ rs, lossy.code i rs = none := by
      intro i hi rs
      simp only [lossy]; split <;> first | omega | rfl
    have hend : ∀ i, 3 < i → s.thr i = ⟨[], false⟩ := by
      intro i hi4
      have ha := abs_areach (p := lossy) ⟨_, h1⟩
      have hr := (lossy_level ha).2.2 i hi4
      simp only [abs, List.append_eq_nil_iff] at hr
      cases hin : (s.thr i).inside with
      | true => obtain ⟨k, op, _, _, hc, _⟩ := hi.here i hin; rw [hout i hi4] at hc; cases hc
      | false => rw [← hr.1, ← hin]
    refine ⟨s, ⟨_, h1⟩, fun i w => ?_, fun i => ?_⟩
    · match i with
      | 0 => simp [step, Sys.begin, Sys.run, t0, lossy]
      | 1 => simp [step, Sys.begin, Sys.run, t1, lossy]
      | 2 => simp [step, Sys.begin, Sys.run, t2, lossy, next, hp, stepAt]
      | 3 => simp [step, Sys.begin, Sys.run, t3, lossy, next, hp, stepAt]
      | i + 4 => simp [step, Sys.begin, Sys.run, hend (i + 4) (by omega), hout (i + 4) (by omega)]
    · match i with
      | 0 => rw [t0]; rfl
      | 1 => rw [t1]; rfl
      | 2 => rw [t2]; rfl
      | 3 => rw [t3]; rfl
      | i + 4 => rw [hend (i + 4) (by omega)]; rfl
  · rintro ⟨q, c, ha, hs⟩
    obtain ⟨h1, h2, -⟩ := lossy_level ha
    simp [lossyRes] at h1 h2
    refine hs _ (.call (i := 2) (k := 0) (op := .push 2) (r := .bool true) (q' := [2]) (c' := false) (by decide) rfl (.inl ?_))
    simp only [would, h1, h2]
    rfl

/-! ### Throwing moves -/

/-- Threads 0 and 1 pop, thread 2 pushes; thread 0 then tries to push (example for channel.hpp:85-194). -/
def sticky : Prog Nat where
  n := 3
  cfg _ := { cap := 1, moveThrow := true }
  code i rs := match i, rs with
    | 0, [] => some (0, .pop)
    | 0, [_] => some (0, .tryPush 9)
    | 1, [] => some (0, .pop)
    | 2, [] => some (0, .push 1)
    | _, _ => none

/-- Both consumers sleep, thread 0 gets the wakeup of the push, and its pop throws (example for channel.hpp:85-194). -/
def stickySched : List MAct :=
  [.begin 0, .run 0 none, .run 0 none, .begin 1, .run 1 none, .run 1 none,
   .begin 2, .run 2 none, .run 2 none, .run 2 none, .run 2 none, .run 2 none, .run 2 (some 0), .run 2 none,
   .run 0 none, .run 0 none, .throw 0, .run 0 none, .run 0 none,
   .begin 0, .run 0 none, .run 0 none, .run 0 none, .run 0 none, .run 0 none]

theorem sticky_run : (exec sticky (start sticky) stickySched).map (fun s => ([s.thr 0, s.thr 1, s.thr 2], (s.chan 0).pcs)) =
    some ([⟨[.threw, .bool false], false⟩, ⟨[], true⟩, ⟨[.bool true], false⟩], [.idle, .pSleep, .idle]) := by decide +kernel

/-- The results then. -/
def stickyRes : Nat → List (Res Nat) := set (set (fun _ => []) 0 [.threw, .bool false]) 2 [.bool true]

theorem effect_closed {cfg : Cfg} {q q' : List α} {c c' : Bool} {op : Op α} {r : Res α} (hop : op ≠ .close)
    (h : Effect cfg q c op r q' c') : c' = c := by
  rcases h with h | ⟨-, -, -, h, -⟩ | ⟨-, -, h, -⟩
  · cases op with
    | push v => simp only [would] at h; split at h <;> [skip; split at h] <;> simp at h <;> exact h.2.2.symm
    | tryPush v => simp only [would] at h; split at h <;> simp at h <;> exact h.2.2.symm
    | pop =>
      cases q with
      | nil => simp only [would] at h; split at h <;> simp at h; exact h.2.2.symm
      | cons x q => simp [would] at h; exact h.2.2.symm
    | tryPop => cases q <;> simp [would] at h <;> exact h.2.2.symm
    | close => exact absurd rfl hop
    | isClosed => simp [would] at h; exact h.2.2.symm
  · exact h
  · exact h

theorem sticky_full {A : ASys Nat} (h : AReach sticky A) :
    A.closed 0 = false ∧ (A.res 0 = [.threw, .bool false] → A.res 1 = [] → A.q 0 ≠ []) ∧ ∀ i, 2 < i → A.res i = [] := by
  induction h with
  | start => simp [astart]
  | @step A B _ hs ih =>
    obtain ⟨ihc, ih, ihr⟩ := ih
    cases hs with
    | @call i k op r q' c' hi hcode he =>
      have hcc : k = 0 ∧ op ≠ .close := by
        simp only [sticky] at hcode
        split at hcode <;> simp at hcode <;> obtain ⟨rfl, rfl⟩ := hcode <;> simp
      obtain ⟨rfl, hop⟩ := hcc
      have hc := effect_closed hop he
      rw [ihc] at hc; subst hc
      refine ⟨by simp [set], ?_, fun j hj => ?_⟩
      · simp only [sticky] at hcode
        split at hcode <;> simp at hcode <;> subst hcode
        · rename_i h0; simp [set, h0]
        · rename_i r0 h0
          simp [set, h0]
          rintro rfl rfl -
          rcases he with he | ⟨hc, -⟩ | ⟨-, -, -, hop, -⟩
          · simp only [would, ihc] at he
            split at he <;> simp at he
            rename_i hf
            subst he
            rcases hf with hf | hf
            · cases hf
            · intro e; rw [e] at hf; simp [sticky] at hf
          · cases hc
          · simp at hop
        · simp [set]
        · simp [set]
          intro h0 h1
          rcases he with he | ⟨hc, -⟩ | ⟨-, -, -, hop, -⟩
          · simp only [would, ihc] at he
            split at he
            · rename_i hf; cases hf
            · split at he <;> simp at he
              rw [← he.2]; simp
          · cases hc
          · simp at hop
      · have hji : j ≠ i := by have : i < 3 := hi; omega
        simp only [set_other _ _ hji]; exact ihr j hj

/-- **C126, why `multi_deadlocks` needs moves that do not throw**: a move that throws can use up a wakeup. Here nothing can go on
although thread 1 waits to pop from a channel that has an element, and no execution with calls that take effect at once ends like
this. -/
theorem multi_deadlocks_move_refuted : (∀ k, (sticky.cfg k).ctorThrow = false) ∧
    (∃ s, Reach sticky s ∧ Stuck sticky s ∧ ∀ i, (s.thr i).res = stickyRes i) ∧
    ¬ ∃ q c, AReach sticky ⟨q, c, stickyRes⟩ ∧ AStuck sticky ⟨q, c, stickyRes⟩ := by
  refine ⟨fun _ => rfl, ?_, ?_⟩
  · have h := sticky_run
    simp only [Option.map_eq_some_iff] at h
    obtain ⟨s, h1, h2⟩ := h
    simp only [Prod.mk.injEq, List.cons.injEq, and_true] at h2
    obtain ⟨⟨t0, t1, t2⟩, hp⟩ := h2
    have hi := inv_reach (p := sticky) ⟨_, h1⟩
    have hout : ∀ i, 2 < i → ∀ rs, sticky.code i rs = none := by
      intro i hi rs
      simp only [sticky]; split <;> first | omega | rfl
    have hend : ∀ i, 2 < i → s.thr i = ⟨[], false⟩ := by
      intro i hi4
      have hr := (sticky_full (abs_areach (p := sticky) ⟨_, h1⟩)).2.2 i hi4
      simp only [abs, List.append_eq_nil_iff] at hr
      cases hin : (s.thr i).inside with
      | true => obtain ⟨k, op, _, _, hc, _⟩ := hi.here i hin; rw [hout i hi4] at hc; cases hc
      | false => rw [← hr.1, ← hin]
    refine ⟨s, ⟨_, h1⟩, fun i w => ?_, fun i => ?_⟩
    · match i with
      | 0 => simp [step, Sys.begin, Sys.run, t0, sticky]
      | 1 => simp [step, Sys.begin, Sys.run, t1, sticky, next, hp, stepAt]
      | 2 => simp [step, Sys.begin, Sys.run, t2, sticky]
      | i + 3 => simp [step, Sys.begin, Sys.run, hend (i + 3) (by omega), hout (i + 3) (by omega)]
    · match i with
      | 0 => rw [t0]; rfl
      | 1 => rw [t1]; rfl
      | 2 => rw [t2]; rfl
      | i + 3 => rw [hend (i + 3) (by omega)]; rfl
  · rintro ⟨q, c, ha, hs⟩
    obtain ⟨-, h1, -⟩ := sticky_full ha
    have hq : q 0 ≠ [] := h1 rfl rfl
    cases hq0 : q 0 with
    | nil => exact hq hq0
    | cons x l =>
      refine hs _ (.call (i := 1) (k := 0) (op := .pop) (r := .val (some x)) (q' := l) (c' := c 0) (by decide) rfl (.inl ?_))
      simp only [would, hq0]

/-- On the detailed channels the pop of thread 0 can also throw after the element is gone (`multi_outcomes` with throwing moves). -/
example : ∃ s, Reach sticky s ∧ ∀ i, s.thr i = ⟨set (set (set (fun _ => []) 2 [.bool true]) 0 [.threw]) 0 [.threw, .bool true] i, false⟩ :=
  (multi_outcomes _).2 ⟨_, _, .step (.step (.step .start
    (.call (i := 2) (k := 0) (op := .push 1) (by decide) rfl (.inl rfl)))
    (.call (i := 0) (k := 0) (op := .pop) (by decide) rfl (.inr (.inr ⟨rfl, rfl, rfl, .inl rfl, 1, [], rfl, .inr rfl⟩))))
    (.call (i := 0) (k := 0) (op := .tryPush 9) (by decide) rfl (.inl rfl))⟩

end Verif.Multi
