import Verif.Critical.Sim

/-!
Property C113: threads that work on values behind `mutex` and `shared_mutex` objects through guards on the stack.

A plan gives the initial values, the number of threads and the transactions of each thread; `exec` interleaves the threads
in any way. `serial` is the specification: transactions one after the other, each executed alone.
-/
namespace Verif.Critical

open Verif.Guards (Kind Owns valueOf)
open Verif.Pipeline (upd)

variable {α : Type}

/-! ### Specification -/

/-- Before anything was done; `M0` gives the initial values. -/
def Ser.init (p : Plan α) (M0 : Nat → α) : Ser α := ⟨M0, fun _ => [], p.work⟩

/-- The transactions of the given threads, executed one after the other in this order, explain what can be observed: what
every thread between two transactions has read and has yet to do, and the value of every mutex that is not locked
exclusively. -/
def Explains (p : Plan α) (M0 : Nat → α) (s : Sys α) (order : List Nat) : Prop :=
  (∀ i, (s.thr i).now = [] → (s.thr i).seen = (serial (Ser.init p M0) order).seen i ∧
    (s.thr i).later = (serial (Ser.init p M0) order).todo i) ∧
  ∀ m, m < p.values.length → (∀ g, ¬ Owns s.mem g .excl m) →
    valueOf s.mem m = some ((serial (Ser.init p M0) order).M m)

/-- All programs respect scopes and the number of mutex objects. -/
def Scoped (p : Plan α) : Prop := ∀ i, ∀ t ∈ p.work i, wellScoped p.values.length [] t = true

/-- No transaction locks anything after its first guard has ended. -/
def TwoPhase (p : Plan α) : Prop := ∀ i, ∀ t ∈ p.work i, twoPhase false t = true

/-- Every transaction locks in increasing order. -/
def Ordered (p : Plan α) : Prop := ∀ i, ∀ t ∈ p.work i, ordered [] t = true

theorem good_explains {p : Plan α} {M0} {s : Sys α} {order : List Nat} {C} (b : Base p C s)
    (sm : Sim (serial (Ser.init p M0) order) C s.thr) : Explains p M0 s order := by
  constructor
  · intro i hnow
    have h0 : (s.thr i).held = [] := by
      have := b.scope i
      rw [hnow] at this
      simpa [wellScoped, kinds] using this
    rcases sm.each i with hg | hg
    · obtain ⟨_, _, _, h, _⟩ := hg
      rcases h with h | h
      · exact absurd hnow h
      · exact absurd h0 h
    · obtain ⟨a, _, c, _⟩ := hg
      rw [hnow] at c
      exact ⟨by rw [c]; rfl, a.symm⟩
  · intro m hm hn
    rw [b.vals m hm, sm.free m]
    intro i h hh hk em
    refine hn h.g ?_
    have := b.own i h hh
    rw [hk, em] at this
    exact this

theorem good_step_order {p : Plan α} {M0} {s s' : Sys α} {a : Act} {order : List Nat} {C} (b : Base p C s)
    (sm : Sim (serial (Ser.init p M0) order) C s.thr) (h : step p s a = some s') :
    ∃ C' more, Base p C' s' ∧ Sim (serial (Ser.init p M0) (order ++ more)) C' s'.thr := by
  cases a with
  | begin i =>
    simp only [step] at h
    split at h
    · split at h
      · rename_i t ts hnow hl
        injection h with h; subst h
        obtain ⟨h0, hb⟩ := b.begin hnow hl
        rcases sim_begin sm h0 hnow hl with q | q
        · exact ⟨C, [], hb, by simpa using q⟩
        · exact ⟨C, [i], hb, by rw [serial_snoc]; exact q⟩
      · cases h
    · cases h
  | run i =>
    simp only [step] at h
    split at h
    · obtain ⟨C', t, he, ht, hb⟩ := exec1_eff b h
      rcases sim_eff sm b.excl b.nodup b.scope he with q | q
      · exact ⟨C', [], hb, by simpa [ht] using q⟩
      · exact ⟨C', [i], hb, by rw [serial_snoc]; exact ht ▸ q⟩
    · cases h

theorem explain_run {p : Plan α} {M0 : Nat → α} : ∀ (acts : List Act) {s : Sys α} {order : List Nat} {C}, Base p C s →
    Sim (serial (Ser.init p M0) order) C s.thr → ∃ commits : List (List Nat), commits.length = acts.length ∧
      ∀ k s', exec p s (acts.take k) = some s' → Explains p M0 s' (order ++ (commits.take k).flatten)
  | [], s, order, C, b, sm => by
    refine ⟨[], rfl, fun k s' h => ?_⟩
    simp [exec] at h
    subst h
    simpa using good_explains b sm
  | a :: as, s, order, C, b, sm => by
    cases hx : step p s a with
    | none =>
      refine ⟨[] :: List.replicate as.length [], by simp, fun k s' h => ?_⟩
      cases k with
      | zero => simp [exec] at h; subst h; simpa using good_explains b sm
      | succ k => simp [exec, hx] at h
    | some s1 =>
      obtain ⟨C', more, b', sm'⟩ := good_step_order b sm hx
      obtain ⟨commits, hl, hc⟩ := explain_run as b' sm'
      refine ⟨more :: commits, by simp [hl], fun k s' h => ?_⟩
      cases k with
      | zero => simp [exec] at h; subst h; simpa using good_explains b sm
      | succ k =>
        simp only [List.take_succ_cons, exec, hx, Option.bind_some] at h
        have := hc k s' h
        simpa [List.append_assoc] using this

/-! ### Atomicity -/

/-- A transfer from account 0 to account 1 of the amount behind the third mutex, which is only read; its guard ends first. -/
def transfer : List (Cmd Int) :=
  [.lock 0, .lock 1, .lockShared 2, .read 0, .drop, .read 1, .read 0,
    .write 1 (fun seen => match seen.reverse with | _ :: a :: fee :: _ => a - fee | _ => 0),
    .write 0 (fun seen => match seen.reverse with | b :: _ :: fee :: _ => b + fee | _ => 0), .drop, .drop]

/-- Two threads, one with a single transfer and one with two. -/
def bank : Plan Int := ⟨[10, 20, 3], 2, fun i => match i with | 0 => [transfer] | 1 => [transfer, transfer] | _ => []⟩

theorem bank_values (m : Nat) (hm : m < bank.values.length) :
    bank.values[m]? = some ((fun m => [10, 20, 3].getD m 0) m) := by
  match m, hm with
  | 0, _ => rfl
  | 1, _ => rfl
  | 2, _ => rfl

theorem bank_mem {i t} (h : t ∈ bank.work i) : t = transfer := by
  match i with
  | 0 => simpa [bank] using h
  | 1 => simpa [bank] using h
  | i + 2 => simp [bank] at h

/-- **C113 (atomicity).** Whatever the schedule, blocks with guards that lock nothing after their first guard has ended have
the effects of executing them one after the other. The order is fixed while the program runs: what the first `k` steps
have committed stays first, so a block that has ended before another one began also precedes it in the order. -/
theorem critical_serializable {p : Plan α} {M0 : Nat → α}
    (hM : ∀ m, m < p.values.length → p.values[m]? = some (M0 m)) (hs : Scoped p) (ht : TwoPhase p) (acts : List Act) :
    ∃ commits : List (List Nat), commits.length = acts.length ∧
      ∀ k s, exec p (start p) (acts.take k) = some s → Explains p M0 s (commits.take k).flatten := by
  obtain ⟨commits, hl, hc⟩ := explain_run acts (base_start hM hs) (order := []) (sim_start ht)
  exact ⟨commits, hl, fun k s h => by simpa using hc k s h⟩

example : (∀ m, m < bank.values.length → bank.values[m]? = some ((fun m => [10, 20, 3].getD m 0) m)) ∧ Scoped bank ∧
    TwoPhase bank ∧ (exec bank (start bank) [.begin 0, .begin 1, .run 0, .run 0, .run 0, .run 0]).isSome = true :=
  ⟨bank_values, fun i t h => by rw [bank_mem h]; rfl, fun i t h => by rw [bank_mem h]; rfl,
    by decide +kernel⟩

/-- The transfers executed one after the other: 9 have been moved. -/
example : ((serial (Ser.init bank fun m => [10, 20, 3].getD m 0) [1, 0, 1]).M 0,
    (serial (Ser.init bank fun m => [10, 20, 3].getD m 0) [1, 0, 1]).M 1) = (1, 29) := by decide +kernel

/-- **C113 (invariants).** A property of the values that every block preserves when it is executed alone holds whenever no
block is being executed, whatever the schedule. -/
theorem critical_invariant {p : Plan α} {M0 : Nat → α}
    (hM : ∀ m, m < p.values.length → p.values[m]? = some (M0 m)) (hs : Scoped p) (ht : TwoPhase p)
    (I : (Nat → α) → Prop) (h0 : I M0)
    (hI : ∀ i, ∀ t ∈ p.work i, ∀ M seen, I M → I (runTx M seen [] t).1) {s : Sys α} (hr : Reach p s)
    (hq : ∀ i, (s.thr i).now = []) :
    ∃ M, I M ∧ ∀ m, m < p.values.length → valueOf s.mem m = some (M m) := by
  obtain ⟨acts, ha⟩ := hr
  have hg : Good p M0 s := exec_induct (fun _ _ _ g h => good_step g h) acts _ _
    ⟨M0, [], base_start hM hs, sim_start ht⟩ ha
  obtain ⟨C, order, b, sm⟩ := hg
  refine ⟨(serial (Ser.init p M0) order).M, ?_, fun m hm => (good_explains b sm).2 m hm fun g ho => ?_⟩
  · suffices ∀ (order : List Nat) (G : Ser α), I G.M → (∀ i, ∀ t ∈ G.todo i, t ∈ p.work i) → I (serial G order).M from
      this order _ h0 fun i t h => h
    intro order
    induction order with
    | nil => intro G h _; exact h
    | cons i is ih =>
      intro G h hsub
      show I (serial (G.next i) is).M
      apply ih
      · unfold Ser.next
        split
        · exact h
        · rename_i t ts e
          exact hI i t (hsub i t (by rw [e]; exact List.mem_cons_self)) _ _ h
      · intro j t htj
        unfold Ser.next at htj
        split at htj
        · exact hsub j t htj
        · rename_i t' ts e
          by_cases ej : j = i
          · subst ej
            simp only [upd_eq] at htj
            exact hsub j t (by rw [e]; exact List.mem_cons_of_mem _ htj)
          · simp only [upd_ne ej] at htj
            exact hsub j t htj
  · obtain ⟨i, hi⟩ := b.all g .excl m ho
    have := b.scope i
    rw [hq i] at this
    simp [wellScoped, kinds] at this
    rw [this] at hi
    simp at hi

/-- Money is neither made nor lost. -/
example {s : Sys Int} (hr : Reach bank s) (hq : ∀ i, (s.thr i).now = []) :
    ∃ M : Nat → Int, M 0 + M 1 = 30 ∧ ∀ m, m < 3 → valueOf s.mem m = some (M m) :=
  critical_invariant (M0 := fun m => [10, 20, 3].getD m 0) bank_values
    (fun i t h => by rw [bank_mem h]; rfl) (fun i t h => by rw [bank_mem h]; rfl) (fun M => M 0 + M 1 = 30) rfl
    (fun i t h M seen hM => by
      rw [bank_mem h]
      simp only [transfer, runTx, List.getElem?_cons_zero, List.getElem?_cons_succ, List.tail_cons, List.reverse_append,
        List.reverse_cons, List.reverse_nil, List.nil_append, List.cons_append, upd_eq]
      simp [upd]
      omega) hr hq

/-- Such a state is reached. -/
example : (exec bank (start bank) (.begin 0 :: .begin 1 :: List.replicate 11 (.run 1) ++ List.replicate 11 (.run 0) ++
    .begin 1 :: List.replicate 11 (.run 1))).any (fun s => (s.thr 0).now.isEmpty && (s.thr 1).now.isEmpty &&
      decide (valueOf s.mem 0 = some 1) && decide (valueOf s.mem 1 = some 29)) = true := by decide +kernel

/-! ### Progress -/

/-- How many steps a thread has yet to make. -/
def Thr.left (t : Thr α) : Nat := t.now.length + (t.later.map fun c => c.length + 1).sum

/-- How many steps all threads have yet to make. -/
def left (p : Plan α) (thr : Nat → Thr α) : Nat := ((List.range p.threads).map fun i => (thr i).left).sum

theorem sum_upd {β : Type} (f : β → Nat) (thr : Nat → β) (i : Nat) (t : β) : ∀ n, i < n →
    ((List.range n).map fun j => f (upd thr i t j)).sum + f (thr i) = ((List.range n).map fun j => f (thr j)).sum + f t
  | 0, h => by omega
  | n + 1, h => by
    simp only [List.range_succ, List.map_append, List.sum_append, List.map_cons, List.map_nil, List.sum_cons, List.sum_nil]
    by_cases e : i = n
    · subst e
      rw [upd_eq]
      have : ((List.range i).map fun j => f (upd thr i t j)) = (List.range i).map fun j => f (thr j) := by
        apply List.map_congr_left
        intro j hj
        rw [upd_ne (by simp at hj; omega)]
      rw [this]; omega
    · have := sum_upd f thr i t n (by omega)
      rw [upd_ne (Ne.symm e)]
      omega

theorem left_upd {p : Plan α} {thr : Nat → Thr α} {i : Nat} {t : Thr α} (hi : i < p.threads)
    (h : t.left + 1 = (thr i).left) : left p (upd thr i t) + 1 = left p thr := by
  have := sum_upd Thr.left thr i t p.threads hi
  simp only [left]
  omega

theorem exec1_thr {s s' : Sys α} {i : Nat} (h : exec1 s i = some s') :
    ∃ t x, s'.thr = upd s.thr i t ∧ (s.thr i).now = x :: t.now ∧ t.later = (s.thr i).later := by
  unfold exec1 at h
  dsimp only at h
  split at h
  · cases h
  · rename_i m c hnow
    simp only [Option.map_eq_some_iff] at h
    obtain ⟨r, _, rfl⟩ := h
    exact ⟨_, _, rfl, hnow, rfl⟩
  · rename_i m c hnow
    simp only [Option.map_eq_some_iff] at h
    obtain ⟨r, _, rfl⟩ := h
    exact ⟨_, _, rfl, hnow, rfl⟩
  · rename_i d c hnow
    split at h
    · cases h
    · split at h
      · injection h with h; subst h; exact ⟨_, _, rfl, hnow, rfl⟩
      · cases h
  · rename_i d f c hnow
    split at h
    · cases h
    · simp only [Option.map_eq_some_iff] at h
      obtain ⟨r, _, rfl⟩ := h
      exact ⟨_, _, rfl, hnow, rfl⟩
  · rename_i c hnow
    split at h
    · cases h
    · simp only [Option.map_eq_some_iff] at h
      obtain ⟨r, _, rfl⟩ := h
      exact ⟨_, _, rfl, hnow, rfl⟩

theorem left_step {p : Plan α} {s s' : Sys α} {a : Act} (h : step p s a = some s') :
    left p s'.thr + 1 = left p s.thr := by
  cases a with
  | begin i =>
    simp only [step] at h
    split at h
    · rename_i hi
      split at h
      · rename_i t ts hnow hl
        injection h with h; subst h
        refine left_upd hi ?_
        simp only [Thr.left, hnow, hl, List.length_nil, List.map_cons, List.sum_cons]
        omega
      · cases h
    · cases h
  | run i =>
    simp only [step] at h
    split at h
    · rename_i hi
      obtain ⟨t, x, e, hnow, hl⟩ := exec1_thr h
      rw [e]
      refine left_upd hi ?_
      simp only [Thr.left, hnow, hl, List.length_cons]
      omega
    · cases h

/-- **C113 (termination).** Every execution ends after at most as many steps as there are commands and blocks; the number of
steps so far and those left always add up to it. -/
theorem critical_bounded {p : Plan α} : ∀ {acts : List Act} {s : Sys α}, exec p (start p) acts = some s →
    acts.length + left p s.thr = ((List.range p.threads).map fun i => ((p.work i).map fun c => c.length + 1).sum).sum := by
  suffices ∀ (acts : List Act) (a s : Sys α), exec p a acts = some s → acts.length + left p s.thr = left p a.thr by
    intro acts s h
    rw [this acts _ s h]
    simp [left, start, Thr.left]
  intro acts
  induction acts with
  | nil => intro a s h; simp [exec] at h; subst h; simp
  | cons x xs ih =>
    intro a s h
    simp only [exec] at h
    cases hx : step p a x with
    | none => simp [hx] at h
    | some b =>
      simp only [hx, Option.bind_some] at h
      have := ih b s h
      have := left_step hx
      simp only [List.length_cons]; omega

example : (exec bank (start bank) [.begin 0, .begin 1, .run 1, .run 1]).any (fun s => decide (left bank s.thr = 32)) = true := by
  decide +kernel

/-- Threads lock in order, and only threads of the plan do anything. -/
structure Ord (p : Plan α) (thr : Nat → Thr α) : Prop where
  now : ∀ i, ordered (names (thr i).held) (thr i).now = true
  later : ∀ i t, t ∈ (thr i).later → ordered [] t = true
  none : ∀ i, p.threads ≤ i → (thr i).now = []

theorem ord_eff {p : Plan α} {thr : Nat → Thr α} (o : Ord p thr) {C C'} {i : Nat} {t : Thr α} (hi : i < p.threads)
    (h : Eff C thr i C' t) : Ord p (upd thr i t) := by
  have hl : t.later = (thr i).later := by cases h <;> rfl
  refine ⟨others (P := fun j t => ordered (names t.held) t.now = true) ?_ fun j _ => o.now j,
    others (P := fun j t => ∀ u, u ∈ t.later → ordered [] u = true) (fun u hu => o.later i u (hl ▸ hu)) fun j _ => o.later j,
    fun j hj => by rw [upd_ne (by omega)]; exact o.none j hj⟩
  have hn := o.now i
  cases h with
  | lock m c g hnow free => rw [hnow] at hn; simp only [ordered, Bool.and_eq_true] at hn; exact hn.2
  | lockShared m c g hnow free => rw [hnow] at hn; simp only [ordered, Bool.and_eq_true] at hn; exact hn.2
  | read d c x hnow hx => rw [hnow] at hn; exact hn
  | write d f c x hnow hx hk => rw [hnow] at hn; exact hn
  | drop c x hs hnow hx => rw [hnow, hx] at hn; exact hn

/-- Who holds what, and the order of locking. -/
def Safe (p : Plan α) (s : Sys α) : Prop := (∃ C, Base p C s) ∧ Ord p s.thr

theorem safe_step {p : Plan α} {s s' : Sys α} {a : Act} (g : Safe p s) (h : step p s a = some s') : Safe p s' := by
  obtain ⟨⟨C, b⟩, o⟩ := g
  refine ⟨base_step b h, ?_⟩
  cases a with
  | begin i =>
    simp only [step] at h
    split at h
    · rename_i hi
      split at h
      · rename_i t ts hnow hl
        injection h with h; subst h
        have h0 := (b.begin hnow hl).1
        refine ⟨others (P := fun j t => ordered (names t.held) t.now = true) ?_ fun j _ => o.now j,
          others (P := fun j t => ∀ u, u ∈ t.later → ordered [] u = true)
            (fun u hu => o.later i u (by rw [hl]; exact List.mem_cons_of_mem _ hu)) fun j _ => o.later j,
          fun j hj => by simp only; rw [upd_ne (by omega)]; exact o.none j hj⟩
        simp only [h0]
        exact o.later i t (by rw [hl]; exact List.mem_cons_self)
      · cases h
    · cases h
  | run i =>
    simp only [step] at h
    split at h
    · rename_i hi
      obtain ⟨C', t, he, ht, _⟩ := exec1_eff b h
      rw [ht]
      exact ord_eff o hi he
    · cases h

/-- A thread that cannot execute its next command waits for a mutex that a thread holds. -/
theorem blocked {p : Plan α} {C} {s : Sys α} (b : Base p C s) {i : Nat} (hnow : (s.thr i).now ≠ [])
    (h : exec1 s i = none) :
    ∃ m c j x, ((s.thr i).now = .lock m :: c ∨ (s.thr i).now = .lockShared m :: c) ∧ x ∈ (s.thr j).held ∧ x.m = m ∧
      m < p.values.length := by
  have hsc := b.scope i
  unfold exec1 at h
  dsimp only at h
  split at h
  · rename_i e; exact absurd e hnow
  · rename_i m c e
    rw [e] at hsc
    simp only [wellScoped, Bool.and_eq_true, decide_eq_true_eq] at hsc
    have hm := hsc.1.1
    simp only [Option.map_eq_none_iff] at h
    have := (not_congr (Guards.lock_iff_free b.reach (lt_of_vals (b.vals m hm)))).1 (by rintro ⟨r, hr⟩; rw [h] at hr; cases hr)
    simp only [Classical.not_forall, Classical.not_not] at this
    obtain ⟨g, k, ho⟩ := this
    obtain ⟨j, hj⟩ := b.all g k m ho
    exact ⟨m, c, j, _, .inl e, hj, rfl, hm⟩
  · rename_i m c e
    rw [e] at hsc
    simp only [wellScoped, Bool.and_eq_true, decide_eq_true_eq] at hsc
    have hm := hsc.1.1
    simp only [Option.map_eq_none_iff] at h
    have := (not_congr (Guards.lock_shared_iff b.reach (lt_of_vals (b.vals m hm)))).1
      (by rintro ⟨r, hr⟩; rw [h] at hr; cases hr)
    simp only [Classical.not_forall, Classical.not_not] at this
    obtain ⟨g, ho⟩ := this
    obtain ⟨j, hj⟩ := b.all g _ m ho
    exact ⟨m, c, j, _, .inr e, hj, rfl, hm⟩
  · rename_i d c e
    rw [e] at hsc
    simp only [wellScoped, Bool.and_eq_true, decide_eq_true_eq, kinds, List.length_map] at hsc
    rw [List.getElem?_eq_getElem hsc.1] at h
    simp only at h
    obtain ⟨v, hv, hst⟩ := (Guards.access_effect b.reach (b.own i _ (List.getElem_mem hsc.1))).1
    rw [hst] at h
    cases h
  · rename_i d f c e
    rw [e] at hsc
    simp only [wellScoped, Bool.and_eq_true] at hsc
    cases hx : (s.thr i).held[d]? with
    | none => have := hsc.1; simp [kinds, hx] at this
    | some x =>
      have hk : x.kind = .excl := by
        have := hsc.1
        simpa [kinds, hx] using this
      rw [hx] at h
      simp only at h
      have ho := b.own i x (List.mem_of_getElem? hx)
      rw [hk] at ho
      obtain ⟨mem, hst, _⟩ := (Guards.access_effect b.reach ho).2.1 rfl (f (s.thr i).seen)
      rw [hst] at h
      cases h
  · rename_i c e
    rw [e] at hsc
    simp only [wellScoped, Bool.and_eq_true] at hsc
    cases hx : (s.thr i).held with
    | nil => have := hsc.1; simp [kinds, hx] at this
    | cons x hs =>
      rw [hx] at h
      obtain ⟨g, hg, _⟩ := b.own i x (by rw [hx]; exact List.mem_cons_self)
      simp [Guards.step, hg] at h

theorem no_deadlock_safe {p : Plan α} {s : Sys α} (g : Safe p s) (hst : Stuck p s) :
    ∀ i, i < p.threads → (s.thr i).done := by
  obtain ⟨⟨C, b⟩, o⟩ := g
  -- whoever has a command waits for a mutex, and whoever holds that one waits for a later one
  have wait : ∀ k m i, p.values.length - k ≤ m → i < p.threads →
      ∀ c, (s.thr i).now ≠ .lock m :: c ∧ (s.thr i).now ≠ .lockShared m :: c := by
    intro k
    induction k with
    | zero =>
      intro m i hm hi c
      have hsc := b.scope i
      constructor <;> intro e <;> rw [e] at hsc <;> simp [wellScoped] at hsc <;> omega
    | succ k ih =>
      intro m i hm hi c
      suffices ∀ c, ((s.thr i).now = .lock m :: c ∨ (s.thr i).now = .lockShared m :: c) → False from
        ⟨fun e => this c (.inl e), fun e => this c (.inr e)⟩
      intro c e
      have hrun := (hst i).2
      simp only [step, if_pos hi] at hrun
      obtain ⟨m', c', j, x, e', hx, hxm, hm'⟩ := blocked b (by rcases e with e | e <;> rw [e] <;> simp) hrun
      have hmm : m' = m := by
        rcases e with e | e <;> rcases e' with e' | e' <;> rw [e] at e' <;> simp at e' <;> exact e'.1.symm
      subst hmm
      have hjn : (s.thr j).now ≠ [] := fun hn => by
        have := b.scope j
        rw [hn] at this
        simp [wellScoped, kinds] at this
        rw [this] at hx
        simp at hx
      have hj : j < p.threads := Nat.lt_of_not_le fun hle => hjn (o.none j hle)
      have hrunj := (hst j).2
      simp only [step, if_pos hj] at hrunj
      obtain ⟨m2, c2, _, _, e2, _, _, _⟩ := blocked b hjn hrunj
      have hon := o.now j
      have hlt : m' < m2 := by
        have hmem : m' ∈ names (s.thr j).held := List.mem_map.2 ⟨x, hx, hxm⟩
        rcases e2 with e2 | e2 <;> rw [e2] at hon <;> simp only [ordered, Bool.and_eq_true, List.all_eq_true,
          decide_eq_true_eq] at hon <;> exact hon.1 m' hmem
      have := ih m2 j (by omega) hj c2
      rcases e2 with e2 | e2
      · exact this.1 e2
      · exact this.2 e2
  intro i hi
  have hn : (s.thr i).now = [] := by
    apply Classical.byContradiction
    intro hn
    have hrun := (hst i).2
    simp only [step, if_pos hi] at hrun
    obtain ⟨m, c, _, _, e, _, _, _⟩ := blocked b hn hrun
    have := wait p.values.length m i (by omega) hi c
    rcases e with e | e
    · exact this.1 e
    · exact this.2 e
  refine ⟨hn, ?_⟩
  have hb := (hst i).1
  simp only [step, if_pos hi, hn] at hb
  cases hl : (s.thr i).later with
  | nil => rfl
  | cons t ts => rw [hl] at hb; simp at hb

theorem safe_start [Nonempty α] {p : Plan α} (hs : Scoped p) (ho : Ordered p) : Safe p (start p) := by
  refine ⟨?_, fun i => rfl, fun i t ht => ho i t ht, fun i _ => rfl⟩
  obtain ⟨v⟩ := ‹Nonempty α›
  refine ⟨fun m => p.values.getD m v, base_start (fun m hm => ?_) hs⟩
  simp [hm]

/-- **C113 (no deadlock).** If all threads lock in the same order, then in no reachable state all threads are blocked while
one of them has work left, whatever was locked shared or exclusively and however blocks nest. -/
theorem critical_no_deadlock [Nonempty α] {p : Plan α} (hs : Scoped p) (ho : Ordered p) {s : Sys α} (hr : Reach p s)
    (hst : Stuck p s) : ∀ i, i < p.threads → (s.thr i).done := by
  obtain ⟨acts, ha⟩ := hr
  exact no_deadlock_safe (exec_induct (fun _ _ _ g h => safe_step g h) acts _ _ (safe_start hs ho) ha) hst

/-- All of this holds for transfers; thread 0 is blocked here while thread 1 is not. -/
example : Scoped bank ∧ Ordered bank ∧ (exec bank (start bank) [.begin 0, .begin 1, .run 1]).any (fun s =>
    (step bank s (.run 0)).isNone && (step bank s (.run 1)).isSome) = true :=
  ⟨fun i t h => by rw [bank_mem h]; rfl, fun i t h => by rw [bank_mem h]; rfl, by decide +kernel⟩

/-- **C113 (completion).** From every reachable state all threads can be scheduled to their end, and every schedule that
always lets some thread make a step gets there. -/
theorem critical_completes [Nonempty α] {p : Plan α} (hs : Scoped p) (ho : Ordered p) {s : Sys α} (hr : Reach p s) :
    ∃ acts s', exec p s acts = some s' ∧ Stuck p s' ∧ ∀ i, i < p.threads → (s'.thr i).done := by
  obtain ⟨acts, ha⟩ := hr
  have hg : Safe p s := exec_induct (fun _ _ _ g h => safe_step g h) acts _ _ (safe_start hs ho) ha
  suffices ∀ n (s : Sys α), left p s.thr = n → Safe p s → ∃ acts s', exec p s acts = some s' ∧ Stuck p s' ∧ Safe p s' by
    obtain ⟨acts, s', h1, h2, h3⟩ := this _ s rfl hg
    exact ⟨acts, s', h1, h2, no_deadlock_safe h3 h2⟩
  intro n
  induction n with
  | zero =>
    intro s hn hsafe
    refine ⟨[], s, rfl, fun i => ⟨?_, ?_⟩, hsafe⟩
    · cases h : step p s (.begin i) with
      | none => rfl
      | some s' => have := left_step h; omega
    · cases h : step p s (.run i) with
      | none => rfl
      | some s' => have := left_step h; omega
  | succ n ih =>
    intro s hn hsafe
    by_cases hst : Stuck p s
    · exact ⟨[], s, rfl, hst, hsafe⟩
    · have : ∃ a s', step p s a = some s' := by
        apply Classical.byContradiction
        intro hno
        refine hst fun i => ⟨?_, ?_⟩
        · cases h : step p s (.begin i) with
          | none => rfl
          | some s' => exact absurd ⟨_, _, h⟩ hno
        · cases h : step p s (.run i) with
          | none => rfl
          | some s' => exact absurd ⟨_, _, h⟩ hno
      obtain ⟨a, s1, h1⟩ := this
      obtain ⟨acts, s', h2, h3, h4⟩ := ih s1 (by have := left_step h1; omega) (safe_step hsafe h1)
      exact ⟨a :: acts, s', by simp [exec, h1, h2], h3, h4⟩

example : Reach bank (start bank) ∧ Scoped bank ∧ Ordered bank :=
  ⟨⟨[], rfl⟩, fun i t h => by rw [bank_mem h]; rfl, fun i t h => by rw [bank_mem h]; rfl⟩

/-! ### Counters -/

/-- `++*x.lock()` (a full expression: the guard ends with it). -/
def increment : List (Cmd Nat) := [.lock 0, .read 0, .write 0 (fun seen => seen.getLast?.getD 0 + 1), .drop]

/-- Some threads, each incrementing the same number `k i` times. -/
def counting (v : Nat) (threads : Nat) (k : Nat → Nat) : Plan Nat where
  values := [v]
  threads := threads
  work i := if i < threads then List.replicate (k i) increment else []

theorem counting_mem {v threads k i t} (h : t ∈ (counting v threads k).work i) : t = increment := by
  simp only [counting] at h
  split at h
  · exact (List.mem_replicate.1 h).2
  · simp at h

theorem runTx_increment (M : Nat → Nat) (seen : List Nat) :
    runTx M seen [] increment = (upd M 0 (M 0 + 1), seen ++ [M 0]) := by
  simp [increment, runTx]

/-- **C113 (no lost update).** When all threads that increment a number behind a mutex have ended, it has been incremented
exactly as often as they did it, whatever the schedule. -/
theorem critical_counter {v threads : Nat} {k : Nat → Nat} {s : Sys Nat} (hr : Reach (counting v threads k) s)
    (hd : ∀ i, i < threads → (s.thr i).done) :
    valueOf s.mem 0 = some (v + ((List.range threads).map k).sum) := by
  obtain ⟨acts, ha⟩ := hr
  have hM : ∀ m, m < (counting v threads k).values.length → (counting v threads k).values[m]? = some ((fun _ => v) m) := by
    intro m hm
    simp [counting] at hm ⊢
    subst hm; rfl
  have hs : Scoped (counting v threads k) := fun i t ht => by rw [counting_mem ht]; rfl
  have htp : TwoPhase (counting v threads k) := fun i t ht => by rw [counting_mem ht]; rfl
  have ho : Ordered (counting v threads k) := fun i t ht => by rw [counting_mem ht]; rfl
  have hsafe : Safe (counting v threads k) s := exec_induct (fun _ _ _ g h => safe_step g h) acts _ _ (safe_start hs ho) ha
  have hg : Good (counting v threads k) (fun _ => v) s := exec_induct (fun _ _ _ g h => good_step g h) acts _ _
    ⟨_, [], base_start hM hs, sim_start htp⟩ ha
  obtain ⟨C, order, b, sm⟩ := hg
  have hq : ∀ i, (s.thr i).now = [] := fun i => by
    by_cases hi : i < threads
    · exact (hd i hi).1
    · exact hsafe.2.none i (by simpa [counting] using hi)
  have ex := good_explains (M0 := fun _ => v) b sm
  rw [ex.2 0 (by simp [counting]) fun g hown => by
    obtain ⟨i, hi⟩ := b.all g .excl 0 hown
    have := b.scope i
    rw [hq i] at this
    simp [wellScoped, kinds] at this
    rw [this] at hi
    simp at hi]
  -- in the serial execution, the number and what is left to do add up to a constant
  have key : ∀ (order : List Nat) (G : Ser Nat), (∀ i, ∀ t ∈ G.todo i, t = increment) →
      (∀ i, threads ≤ i → G.todo i = []) →
      (serial G order).M 0 + ((List.range threads).map fun i => ((serial G order).todo i).length).sum =
        G.M 0 + ((List.range threads).map fun i => (G.todo i).length).sum := by
    intro order
    induction order with
    | nil => intro G _ _; rfl
    | cons i is ih =>
      intro G h1 h2
      show (serial (G.next i) is).M 0 + ((List.range threads).map fun j => ((serial (G.next i) is).todo j).length).sum = _
      cases ht : G.todo i with
      | nil =>
        have : G.next i = G := by simp [Ser.next, ht]
        rw [this]; exact ih G h1 h2
      | cons t ts =>
        have hi : i < threads := Nat.lt_of_not_le fun hle => by rw [h2 i hle] at ht; cases ht
        have hte : t = increment := h1 i t (by rw [ht]; exact List.mem_cons_self)
        have nx : G.next i = ⟨upd G.M 0 (G.M 0 + 1), upd G.seen i (G.seen i ++ [G.M 0]), upd G.todo i ts⟩ := by
          simp only [Ser.next, ht, hte, runTx_increment]
        rw [ih (G.next i) ?_ ?_]
        · have := sum_upd List.length G.todo i ts threads hi
          rw [ht] at this
          simp only [List.length_cons] at this
          rw [nx]
          simp only [upd_eq]
          omega
        · rw [nx]
          exact fun j u hu => by
            by_cases e : j = i
            · subst e; simp only [upd_eq] at hu; exact h1 j u (by rw [ht]; exact List.mem_cons_of_mem _ hu)
            · simp only [upd_ne e] at hu; exact h1 j u hu
        · rw [nx]
          exact fun j hj => by simp only; rw [upd_ne (by omega)]; exact h2 j hj
  have := key order (Ser.init (counting v threads k) fun _ => v) (fun i t ht => counting_mem (v := v) ht)
    (fun i hi => by simp [Ser.init, counting, Nat.not_lt.2 hi])
  have z : ((List.range threads).map fun i => ((serial (Ser.init (counting v threads k) fun _ => v) order).todo i).length) =
      (List.range threads).map fun _ => 0 := by
    apply List.map_congr_left
    intro i hi
    rw [← (ex.1 i (hq i)).2, (hd i (List.mem_range.1 hi)).2]
    rfl
  rw [z] at this
  have z2 : ((List.range threads).map fun i => ((Ser.init (counting v threads k) fun _ => v).todo i).length) =
      (List.range threads).map k := by
    apply List.map_congr_left
    intro i hi
    simp [Ser.init, counting, List.mem_range.1 hi]
  rw [z2] at this
  simp only [List.map_const', List.sum_replicate_nat, Nat.mul_zero, Nat.add_zero] at this
  rw [this]
  rfl

/-- Two threads, one blocked at first by the other; 5 + 2 + 1 at the end. -/
example : (exec (counting 5 2 fun i => 2 - i) (start (counting 5 2 fun i => 2 - i)) [.begin 0, .begin 1, .run 1, .run 1,
    .run 1, .run 1, .run 0, .run 0, .run 0, .run 0, .begin 0, .run 0, .run 0, .run 0, .run 0]).any (fun s =>
      (s.thr 0).now.isEmpty && (s.thr 0).later.isEmpty && (s.thr 1).now.isEmpty && (s.thr 1).later.isEmpty &&
      decide (valueOf s.mem 0 = some 8)) = true := by decide +kernel

/-! ### What happens otherwise -/

/-- A number read under one guard and written under another. -/
def increment2 : List (Cmd Nat) :=
  [.lock 0, .read 0, .drop, .lock 0, .write 0 (fun seen => seen.getLast?.getD 0 + 1), .drop]

/-- **C113.** Without two phases an update can be lost: both threads have incremented the number, it is 1. -/
theorem critical_two_phase_needed : ∃ (p : Plan Nat) (s : Sys Nat), Scoped p ∧ Reach p s ∧
    (∀ i, p.work i = if i < 2 then [increment2] else []) ∧ p.values = [0] ∧ p.threads = 2 ∧
    (∀ i, i < 2 → (s.thr i).done) ∧ valueOf s.mem 0 = some 1 := by
  let p : Plan Nat := ⟨[0], 2, fun i => if i < 2 then [increment2] else []⟩
  let acts : List Act := [.begin 0, .begin 1, .run 0, .run 0, .run 0, .run 1, .run 1, .run 1, .run 1, .run 1, .run 1,
    .run 0, .run 0, .run 0]
  have hx : (exec p (start p) acts).any (fun s => (s.thr 0).now.isEmpty && (s.thr 0).later.isEmpty &&
      (s.thr 1).now.isEmpty && (s.thr 1).later.isEmpty && decide (valueOf s.mem 0 = some 1)) = true := by decide +kernel
  cases he : exec p (start p) acts with
  | none => rw [he] at hx; cases hx
  | some s =>
    rw [he] at hx
    simp only [Option.any_some, Bool.and_eq_true, List.isEmpty_iff, decide_eq_true_eq] at hx
    obtain ⟨⟨⟨⟨a, b⟩, c⟩, d⟩, e⟩ := hx
    refine ⟨p, s, fun i t ht => ?_, ⟨acts, he⟩, fun i => rfl, rfl, rfl, ?_, e⟩
    · simp only [p] at ht
      split at ht
      · rw [List.mem_singleton.1 ht]; decide +kernel
      · simp at ht
    · intro i hi
      match i, hi with
      | 0, _ => exact ⟨a, b⟩
      | 1, _ => exact ⟨c, d⟩

/-- Locks `a`, then `b`. -/
def both (a b : Nat) : List (Cmd Nat) := [.lock a, .lock b, .drop, .drop]

/-- **C113.** Two threads that lock in different orders can block each other for ever. -/
theorem critical_order_needed : ∃ (p : Plan Nat) (s : Sys Nat), Scoped p ∧ TwoPhase p ∧ Reach p s ∧ Stuck p s ∧
    ¬ (s.thr 0).done ∧ ¬ (s.thr 1).done ∧ p.work 0 = [both 0 1] ∧ p.work 1 = [both 1 0] := by
  let p : Plan Nat := ⟨[0, 0], 2, fun i => match i with | 0 => [both 0 1] | 1 => [both 1 0] | _ => []⟩
  let acts : List Act := [.begin 0, .begin 1, .run 0, .run 1]
  have hx : (exec p (start p) acts).any (fun s => !(s.thr 0).now.isEmpty && !(s.thr 1).now.isEmpty &&
      (step p s (.begin 0)).isNone && (step p s (.begin 1)).isNone &&
      (step p s (.run 0)).isNone && (step p s (.run 1)).isNone) = true := by decide +kernel
  cases he : exec p (start p) acts with
  | none => rw [he] at hx; cases hx
  | some s =>
    rw [he] at hx
    simp only [Option.any_some, Bool.and_eq_true, Bool.not_eq_true', Option.isNone_iff_eq_none] at hx
    obtain ⟨⟨⟨⟨⟨a, b⟩, c⟩, d⟩, e⟩, f⟩ := hx
    refine ⟨p, s, fun i t ht => ?_, fun i t ht => ?_, ⟨acts, he⟩, fun i => ?_, ?_, ?_, rfl, rfl⟩
    · match i with
      | 0 => rw [List.mem_singleton.1 ht]; decide +kernel
      | 1 => rw [List.mem_singleton.1 ht]; decide +kernel
      | i + 2 => simp [p] at ht
    · match i with
      | 0 => rw [List.mem_singleton.1 ht]; decide +kernel
      | 1 => rw [List.mem_singleton.1 ht]; decide +kernel
      | i + 2 => simp [p] at ht
    · match i with
      | 0 => exact ⟨c, e⟩
      | 1 => exact ⟨d, f⟩
      | i + 2 =>
        have : ¬ i + 2 < p.threads := by simp [p]
        exact ⟨by simp only [step, if_neg this], by simp only [step, if_neg this]⟩
    · intro h; rw [h.1] at a; cases a
    · intro h; rw [h.1] at b; cases b

end Verif.Critical
