import Verif.Channel.LiveStep

/-! Periodic executions, for the counterexamples of `LiveProps.lean`: a prefix followed by a loop that is repeated for ever. -/
namespace Verif.Channel

variable {α : Type} {cfg : Cfg} {n : Nat}

/-- A state without the ghost history (channel.hpp:31-37). -/
def core (s : St α) : St α := { s with hist := [] }

theorem core_eq {s x : St α} (h : core s = core x) :
    s.q = x.q ∧ s.closed = x.closed ∧ s.owner = x.owner ∧ s.pcs = x.pcs := by
  simp only [core, St.mk.injEq, and_true] at h
  exact h

theorem notifyOne_core (sl : PC α → Option (PC α)) (s : St α) (w : Option Nat) :
    (notifyOne sl s w).map core = (notifyOne sl (core s) w).map core := by
  unfold notifyOne core
  cases w with
  | none => dsimp only; split <;> rfl
  | some i =>
    dsimp only
    cases s.pcs[i]? with
    | none => rfl
    | some p => dsimp only; cases sl p <;> rfl

theorem stepAt_core (s : St α) (t : Nat) (w : Option Nat) (pc : PC α) :
    (stepAt cfg s t w pc).map core = (stepAt cfg (core s) t w pc).map core := by
  cases pc
  case sNotify op =>
    simp only [stepAt, Option.map_map]
    have := notifyOne_core wakeE s w
    cases h1 : notifyOne wakeE s w <;> cases h2 : notifyOne wakeE (core s) w <;> rw [h1, h2] at this <;> simp at this ⊢
    obtain ⟨a, b, c, d⟩ := core_eq this
    simp [core, St.goto, a, b, c, d]
  case rNotify op x =>
    simp only [stepAt, Option.map_map]
    have := notifyOne_core wakeF s w
    cases h1 : notifyOne wakeF s w <;> cases h2 : notifyOne wakeF (core s) w <;> rw [h1, h2] at this <;> simp at this ⊢
    obtain ⟨a, b, c, d⟩ := core_eq this
    simp [core, St.goto, a, b, c, d]
  all_goals
    obtain ⟨q, c, o, pcs, h⟩ := s
    rw [show core (⟨q, c, o, pcs, h⟩ : St α) = ⟨q, c, o, pcs, []⟩ from rfl]
    simp only [stepAt, acquire, release, St.goto, St.log, notifyAll]
  all_goals first
    | rfl
    | (cases o <;> rfl)
    | (cases q <;> rfl)
    | (split <;> rfl)

theorem throwAt_core (s : St α) (t : Nat) (pc : PC α) :
    (throwAt cfg s t pc).map core = (throwAt cfg (core s) t pc).map core := by
  obtain ⟨q, c, o, pcs, h⟩ := s
  rw [show core (⟨q, c, o, pcs, h⟩ : St α) = ⟨q, c, o, pcs, []⟩ from rfl]
  cases pc <;> simp only [throwAt, St.goto, St.log] <;> first | rfl | (split <;> rfl)

/-- The history does not influence what happens. -/
theorem next_core (s : St α) (a : Act α) : (next cfg s a).map core = (next cfg (core s) a).map core := by
  cases a with
  | call t op =>
    simp only [next, core]
    cases s.pcs[t]? with
    | none => rfl
    | some p => cases p <;> rfl
  | spurious t =>
    simp only [next, core]
    cases s.pcs[t]? with
    | none => rfl
    | some p => cases p <;> rfl
  | stale t =>
    simp only [next, core]
    cases s.pcs[t]? with
    | none => rfl
    | some p => cases p <;> rfl
  | step t w =>
    simp only [next]
    rw [show (core s).pcs = s.pcs from rfl]
    cases s.pcs[t]? with
    | none => rfl
    | some p => exact stepAt_core s t w p
  | throw t =>
    simp only [next]
    rw [show (core s).pcs = s.pcs from rfl]
    cases s.pcs[t]? with
    | none => rfl
    | some p => exact throwAt_core s t p

theorem next_of_core {s x y : St α} {a : Act α} (hc : core s = core x) (h : next cfg x a = some y) :
    ∃ s', next cfg s a = some s' ∧ core s' = core y := by
  have h1 := next_core (cfg := cfg) s a
  have h2 := next_core (cfg := cfg) x a
  rw [hc, ← h2, h] at h1
  cases h3 : next cfg s a with
  | none => rw [h3] at h1; simp at h1
  | some s' => rw [h3] at h1; simp at h1; exact ⟨s', rfl, h1⟩

/-- The action at instant `i`: first the prefix, then the loop again and again (schedules of channel.hpp:58-212). -/
def lassoAct (P C : List (Act α)) (i : Nat) : Option (Act α) :=
  if i < P.length then P[i]? else C[(i - P.length) % C.length]?

/-- The states of the periodic execution (executions of channel.hpp:58-212). -/
def lassoSt (cfg : Cfg) (n : Nat) (P C : List (Act α)) : Nat → St α
  | 0 => init α n
  | i + 1 => match lassoAct P C i with
    | none => lassoSt cfg n P C i
    | some a => (next cfg (lassoSt cfg n P C i) a).getD (lassoSt cfg n P C i)

theorem run_take_succ {s x : St α} {l : List (Act α)} {k : Nat} {a : Act α} (h : run cfg s (l.take k) = some x)
    (ha : l[k]? = some a) : run cfg s (l.take (k + 1)) = next cfg x a := by
  induction l generalizing s k with
  | nil => simp at ha
  | cons b l ih =>
    cases k with
    | zero =>
      simp at ha; subst ha
      simp [run] at h; subst h
      simp only [List.take_succ_cons, List.take_zero, run]
      cases next cfg s b <;> rfl
    | succ k =>
      simp only [List.take_succ_cons, run, Option.bind_eq_some_iff] at h
      obtain ⟨s1, h1, h2⟩ := h
      simp only [List.getElem?_cons_succ] at ha
      rw [List.take_succ_cons, run, h1]
      exact ih h2 ha

theorem run_take_some {s x : St α} {l : List (Act α)} (h : run cfg s l = some x) (k : Nat) :
    ∃ y, run cfg s (l.take k) = some y := by
  induction l generalizing s k with
  | nil => simp [run]
  | cons b l ih =>
    simp only [run, Option.bind_eq_some_iff] at h
    obtain ⟨s1, h1, h2⟩ := h
    cases k with
    | zero => simp [run]
    | succ k =>
      obtain ⟨y, hy⟩ := ih h2 k
      exact ⟨y, by rw [List.take_succ_cons, run, h1]; exact hy⟩

section
variable {P C : List (Act α)} {s0 s1 : St α}

theorem lasso_prefix (hP : run cfg (init α n) P = some s0) : ∀ i, i ≤ P.length →
    run cfg (init α n) (P.take i) = some (lassoSt cfg n P C i)
  | 0, _ => by simp [run, lassoSt]
  | i + 1, hi => by
    have ih := lasso_prefix hP i (by omega)
    have ha : P[i]? = some P[i] := List.getElem?_eq_getElem (by omega)
    have h1 := run_take_succ ih ha
    obtain ⟨y, hy⟩ := run_take_some hP (i + 1)
    rw [hy] at h1
    rw [hy, lassoSt, lassoAct, if_pos (by omega), ha]
    dsimp only
    rw [← h1]; rfl

theorem lasso_loop (hP : run cfg (init α n) P = some s0) (hC : run cfg s0 C = some s1) (hs : core s1 = core s0)
    (hpos : 0 < C.length) (m : Nat) :
    ∃ x, run cfg s0 (C.take (m % C.length)) = some x ∧ core (lassoSt cfg n P C (P.length + m)) = core x := by
  induction m with
  | zero =>
    refine ⟨s0, by simp [run], ?_⟩
    have := lasso_prefix (C := C) hP P.length (Nat.le_refl _)
    rw [List.take_length, hP] at this
    injection this with this
    rw [Nat.add_zero, ← this]
  | succ m ih =>
    obtain ⟨x, h1, h2⟩ := ih
    have hr : m % C.length < C.length := Nat.mod_lt _ hpos
    have ha : C[m % C.length]? = some C[m % C.length] := List.getElem?_eq_getElem hr
    have h3 := run_take_succ h1 ha
    obtain ⟨y, hy⟩ := run_take_some hC (m % C.length + 1)
    rw [hy] at h3
    obtain ⟨s', h4, h5⟩ := next_of_core h2 h3.symm
    have h6 : lassoSt cfg n P C (P.length + (m + 1)) = s' := by
      rw [← Nat.add_assoc, lassoSt, lassoAct, if_neg (by omega), Nat.add_sub_cancel_left, ha]
      dsimp only
      rw [h4]; rfl
    rw [h6, h5]
    by_cases hm : m % C.length + 1 = C.length
    · rw [hm, List.take_length, hC] at hy
      injection hy with hy; subst hy
      have : (m + 1) % C.length = 0 := by
        have h7 := Nat.div_add_mod m C.length
        rw [show m + 1 = C.length * (m / C.length + 1) by rw [Nat.mul_add]; omega]
        exact Nat.mul_mod_right _ _
      exact ⟨s0, by rw [this]; simp [run], hs⟩
    · have : (m + 1) % C.length = m % C.length + 1 := by
        have h7 := Nat.div_add_mod m C.length
        rw [show m + 1 = m % C.length + 1 + C.length * (m / C.length) by omega, Nat.add_mul_mod_self_left]
        exact Nat.mod_eq_of_lt (by omega)
      exact ⟨y, by rw [this]; exact hy, rfl⟩

/-- The periodic execution (executions of channel.hpp:58-212). -/
def lasso (hP : run cfg (init α n) P = some s0) (hC : run cfg s0 C = some s1) (hs : core s1 = core s0)
    (hpos : 0 < C.length) : Exec cfg α n where
  st := lassoSt cfg n P C
  act := lassoAct P C
  start := rfl
  ok := by
    intro i
    right
    by_cases hi : i < P.length
    · have ha : P[i]? = some P[i] := List.getElem?_eq_getElem hi
      have ih := lasso_prefix (C := C) hP i (by omega)
      have h1 := run_take_succ ih ha
      obtain ⟨y, hy⟩ := run_take_some hP (i + 1)
      have h2 := lasso_prefix (C := C) hP (i + 1) (by omega)
      exact ⟨P[i], by rw [lassoAct, if_pos hi, ha], by rw [← h1, h2]⟩
    · obtain ⟨m, rfl⟩ : ∃ m, i = P.length + m := ⟨i - P.length, by omega⟩
      obtain ⟨x, h1, h2⟩ := lasso_loop hP hC hs hpos m
      have hr : m % C.length < C.length := Nat.mod_lt _ hpos
      have ha : C[m % C.length]? = some C[m % C.length] := List.getElem?_eq_getElem hr
      have h3 := run_take_succ h1 ha
      obtain ⟨y, hy⟩ := run_take_some hC (m % C.length + 1)
      rw [hy] at h3
      obtain ⟨s', h4, h5⟩ := next_of_core h2 h3.symm
      refine ⟨C[m % C.length], by rw [lassoAct, if_neg hi, Nat.add_sub_cancel_left, ha], ?_⟩
      rw [lassoSt, lassoAct, if_neg hi, Nat.add_sub_cancel_left, ha]
      dsimp only
      rw [h4]; rfl

/-- Every position of the loop comes again and again. -/
theorem lasso_again (hP : run cfg (init α n) P = some s0) (hC : run cfg s0 C = some s1) (hs : core s1 = core s0)
    (hpos : 0 < C.length) {r : Nat} (hr : r < C.length) {a : Act α} (ha : C[r]? = some a) {x : St α}
    (hx : run cfg s0 (C.take r) = some x) (N : Nat) :
    ∃ i, N ≤ i ∧ P.length ≤ i ∧ (lasso hP hC hs hpos).act i = some a ∧ core ((lasso hP hC hs hpos).st i) = core x := by
  have hm : (C.length * N + r) % C.length = r := by
    rw [Nat.mul_add_mod]; exact Nat.mod_eq_of_lt hr
  refine ⟨P.length + (C.length * N + r), ?_, by omega, ?_, ?_⟩
  · have : N ≤ C.length * N := Nat.le_mul_of_pos_left N hpos
    omega
  · show lassoAct P C _ = _
    rw [lassoAct, if_neg (by omega), Nat.add_sub_cancel_left, hm, ha]
  · obtain ⟨y, h1, h2⟩ := lasso_loop hP hC hs hpos (C.length * N + r)
    rw [hm, hx] at h1
    injection h1 with h1; subst h1
    exact h2

/-- What holds at all positions of the loop holds from the end of the prefix on. -/
theorem lasso_always (hP : run cfg (init α n) P = some s0) (hC : run cfg s0 C = some s1) (hs : core s1 = core s0)
    (hpos : 0 < C.length) {Q : St α → Prop} (hQ : ∀ r < C.length, ∀ x, run cfg s0 (C.take r) = some x → Q (core x))
    {i : Nat} (hi : P.length ≤ i) : Q (core ((lasso hP hC hs hpos).st i)) := by
  obtain ⟨m, rfl⟩ : ∃ m, i = P.length + m := ⟨i - P.length, by omega⟩
  obtain ⟨y, h1, h2⟩ := lasso_loop hP hC hs hpos m
  show Q (core (lassoSt cfg n P C (P.length + m)))
  rw [h2]
  exact hQ _ (Nat.mod_lt _ hpos) y h1

end

end Verif.Channel
