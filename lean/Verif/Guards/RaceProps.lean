import Verif.Guards.RaceModel
import Verif.Guards.Props

/-!
Property C81: accesses to the value of a `mutex` or `shared_mutex` through guards that own it are free of data races.

`w.log` lists all operations of the program in the order in which they take effect; `i ∈ e.know` says that operation `i` happens before the operation of entry
`e`.
-/
namespace Verif.Guards

open Verif.Channel (lt_of_getElem?)

variable {α : Type}

/-- The program does not use one guard object from several threads without synchronization: of two operations on the same guard the first one
happens before the second one. -/
def GuardsOrdered (log : List (Ent α)) : Prop :=
  ∀ (i j : Nat) (ei ej : Ent α) (g : Nat), i < j → log[i]? = some ei → log[j]? = some ej → g ∈ ei.touches → g ∈ ej.touches → i ∈ ej.know

/-! ### Lemmas -/

/-- The operation acquires `m` in mode `k`. -/
def Acquires (o : Op α) (r : Res α) (k : Kind) (m : Nat) : Prop :=
  match o, r with
  | .lock m', _ => k = .excl ∧ m = m'
  | .tryLock m' _, .bool true => k = .excl ∧ m = m'
  | .lockShared m', _ => k = .shrd ∧ m = m'
  | .tryLockShared m' _, .bool true => k = .shrd ∧ m = m'
  | _, _ => False

theorem step_lock_lt {s : St α} {m r} (h : step s (.lock m) = some r) : m < s.locks.length := by
  simp only [step] at h
  split at h
  · cases h
  · exact lt_of_getElem? (by assumption)

theorem step_lockShared_lt {s : St α} {m r} (h : step s (.lockShared m) = some r) : m < s.locks.length := by
  simp only [step] at h
  split at h
  · cases h
  · exact lt_of_getElem? (by assumption)

theorem step_tryLock_lt {s : St α} {m sp r} (h : step s (.tryLock m sp) = some r) : m < s.locks.length := by
  simp only [step] at h
  split at h
  · cases h
  · exact lt_of_getElem? (by assumption)

theorem step_tryLockShared_lt {s : St α} {m sp r} (h : step s (.tryLockShared m sp) = some r) : m < s.locks.length := by
  simp only [step] at h
  split at h
  · cases h
  · exact lt_of_getElem? (by assumption)

/-- A successful attempt is a `lock`. -/
theorem tryLock_true {vs : List α} {s s' : St α} (hr : Reachable vs s) {m sp} (h : step s (.tryLock m sp) = some (s', .bool true)) :
    step s (.lock m) = some (s', .unit) := by
  obtain ⟨s1, b, h1, _, _, h2⟩ := try_lock_spec hr (step_tryLock_lt h) sp
  rw [h1] at h; injection h with h; injection h with h h'; injection h' with h'; subst h h'; exact h2 rfl

theorem tryLockShared_true {vs : List α} {s s' : St α} (hr : Reachable vs s) {m sp}
    (h : step s (.tryLockShared m sp) = some (s', .bool true)) : step s (.lockShared m) = some (s', .unit) := by
  obtain ⟨s1, b, h1, _, _, h2⟩ := try_lock_shared_spec hr (step_tryLockShared_lt h) sp
  rw [h1] at h; injection h with h; injection h with h h'; injection h' with h'; subst h h'; exact h2 rfl

theorem tryLock_res {vs : List α} {s s' : St α} {r} (hr : Reachable vs s) {m sp} (h : step s (.tryLock m sp) = some (s', r)) :
    r = .bool true ∨ (r = .bool false ∧ s' = s) := by
  obtain ⟨s1, b, h1, _, h2, _⟩ := try_lock_spec hr (step_tryLock_lt h) sp
  rw [h1] at h; injection h with h; injection h with h h'; subst h h'
  cases b
  · exact .inr ⟨rfl, h2 rfl⟩
  · exact .inl rfl

theorem tryLockShared_res {vs : List α} {s s' : St α} {r} (hr : Reachable vs s) {m sp}
    (h : step s (.tryLockShared m sp) = some (s', r)) : r = .bool true ∨ (r = .bool false ∧ s' = s) := by
  obtain ⟨s1, b, h1, _, h2, _⟩ := try_lock_shared_spec hr (step_tryLockShared_lt h) sp
  rw [h1] at h; injection h with h; injection h with h h'; subst h h'
  cases b
  · exact .inr ⟨rfl, h2 rfl⟩
  · exact .inl rfl

/-- Self move assignment. -/
theorem move_self_owns {vs : List α} {s s' : St α} (hr : Reachable vs s) {d : Nat} {r : Res α}
    (h : step s (.moveAssign d d) = some (s', r)) :
    (∀ k m, ¬ Owns s' d k m) ∧ ∀ j k m, j ≠ d → (Owns s' j k m ↔ Owns s j k m) := by
  have hi := inv_reach hr
  simp only [step] at h
  split at h
  · rename_i gd gs hd hs
    split at h
    · have hlt := lt_of_getElem? hd
      rw [unlock_guards hi hd, List.getElem?_set_self hlt] at h
      dsimp only at h
      injection h with h; injection h with h h2; subst h
      rw [List.set_set, List.set_set]
      constructor
      · intro k m; rw [owns_set hlt]; simp
      · intro j k m hj; rw [owns_set hlt]; simp [hj]
    · cases h
  · cases h

/-- Where ownership after an operation comes from. -/
theorem owns_fwd {vs : List α} {s s' : St α} (hr : Reachable vs s) {o : Op α} {r : Res α} (h : step s o = some (s', r)) {i k m}
    (ho : Owns s' i k m) :
    Owns s i k m ∨ (∃ i0, Owns s i0 k m ∧ i0 ∈ touched s o r ∧ i ∈ touched s o r) ∨ (i ∈ touched s o r ∧ Acquires o r k m) := by
  cases o with
  | lock m' =>
    rcases ((lock_effect h i k m).1.1 ho) with h1 | ⟨rfl, rfl, rfl⟩
    · exact .inl h1
    · exact .inr (.inr ⟨by simp [touched], rfl, rfl⟩)
  | tryLock m' sp =>
    rcases tryLock_res hr h with rfl | ⟨rfl, rfl⟩
    · rcases ((lock_effect (tryLock_true hr h) i k m).1.1 ho) with h1 | ⟨rfl, rfl, rfl⟩
      · exact .inl h1
      · exact .inr (.inr ⟨by simp [touched], rfl, rfl⟩)
    · exact .inl ho
  | lockShared m' =>
    rcases ((lock_shared_effect h i k m).1.1 ho) with h1 | ⟨rfl, rfl, rfl⟩
    · exact .inl h1
    · exact .inr (.inr ⟨by simp [touched], rfl, rfl⟩)
  | tryLockShared m' sp =>
    rcases tryLockShared_res hr h with rfl | ⟨rfl, rfl⟩
    · rcases ((lock_shared_effect (tryLockShared_true hr h) i k m).1.1 ho) with h1 | ⟨rfl, rfl, rfl⟩
      · exact .inl h1
      · exact .inr (.inr ⟨by simp [touched], rfl, rfl⟩)
    · exact .inl ho
  | moveCtor i' =>
    obtain ⟨h1, h2, h3, _⟩ := move_ctor_effect h
    by_cases e1 : i = i'
    · subst e1; exact absurd ho (h2 k m)
    · by_cases e2 : i = s.guards.length
      · subst e2; exact .inr (.inl ⟨i', (h1 k m).1 ho, by simp [touched], by simp [touched]⟩)
      · exact .inl ((h3 i k m e1 e2).1 ho)
  | moveAssign d i' =>
    by_cases hd : d = i'
    · subst hd
      obtain ⟨h1, h2⟩ := move_self_owns hr h
      by_cases e : i = d
      · subst e; exact absurd ho (h1 k m)
      · exact .inl ((h2 i k m e).1 ho)
    · obtain ⟨h1, h2, h3, _⟩ := move_assign_effect hr hd h
      by_cases e1 : i = d
      · subst e1; exact .inr (.inl ⟨i', (h1 k m).1 ho, by simp [touched], by simp [touched]⟩)
      · by_cases e2 : i = i'
        · subst e2; exact absurd ho (h2 k m)
        · exact .inl ((h3 i k m e1 e2).1 ho)
  | destroy i' =>
    obtain ⟨h1, h2, _⟩ := destroy_effect hr h
    by_cases e : i = i'
    · subst e; exact absurd ho (h1 k m)
    · exact .inl ((h2 i k m e).1 ho)
  | read i' =>
    simp only [step] at h
    split at h
    · split at h <;> simp at h
      rw [← h.1] at ho; exact .inl ho
    · cases h
  | write i' v =>
    simp only [step] at h
    split at h
    · split at h <;> simp at h
      rw [← h.1] at ho; exact .inl ho
    · cases h

theorem released_of {s : St α} {o : Op α} {i k m} (hr : releaser o = some i) (h : Owns s i k m) : released s o = some (k, m) := by
  obtain ⟨g, hg, hk, ho⟩ := h
  simp [released, hr, hg, hk, ho]

/-- What becomes of ownership in an operation. -/
theorem owns_bwd {vs : List α} {s s' : St α} (hr : Reachable vs s) {o : Op α} {r : Res α} (h : step s o = some (s', r)) {i k m}
    (ho : Owns s i k m) :
    Owns s' i k m ∨ (∃ i1, Owns s' i1 k m ∧ i ∈ touched s o r ∧ i1 ∈ touched s o r) ∨
      (i ∈ touched s o r ∧ releaser o = some i ∧ released s o = some (k, m)) := by
  cases o with
  | lock m' => exact .inl ((lock_effect h i k m).1.2 (.inl ho))
  | tryLock m' sp =>
    rcases tryLock_res hr h with rfl | ⟨rfl, rfl⟩
    · exact .inl ((lock_effect (tryLock_true hr h) i k m).1.2 (.inl ho))
    · exact .inl ho
  | lockShared m' => exact .inl ((lock_shared_effect h i k m).1.2 (.inl ho))
  | tryLockShared m' sp =>
    rcases tryLockShared_res hr h with rfl | ⟨rfl, rfl⟩
    · exact .inl ((lock_shared_effect (tryLockShared_true hr h) i k m).1.2 (.inl ho))
    · exact .inl ho
  | moveCtor i' =>
    obtain ⟨h1, h2, h3, _⟩ := move_ctor_effect h
    by_cases e1 : i = i'
    · subst e1; exact .inr (.inl ⟨s.guards.length, (h1 k m).2 ho, by simp [touched], by simp [touched]⟩)
    · have e2 : i ≠ s.guards.length := by obtain ⟨g, hg, _⟩ := ho; have := lt_of_getElem? hg; omega
      exact .inl ((h3 i k m e1 e2).2 ho)
  | moveAssign d i' =>
    by_cases e : i = d
    · subst e; exact .inr (.inr ⟨by simp [touched], rfl, released_of rfl ho⟩)
    · by_cases hd : d = i'
      · subst hd; exact .inl (((move_self_owns hr h).2 i k m e).2 ho)
      · obtain ⟨h1, h2, h3, _⟩ := move_assign_effect hr hd h
        by_cases e2 : i = i'
        · subst e2; exact .inr (.inl ⟨d, (h1 k m).2 ho, by simp [touched], by simp [touched]⟩)
        · exact .inl ((h3 i k m e e2).2 ho)
  | destroy i' =>
    by_cases e : i = i'
    · subst e; exact .inr (.inr ⟨by simp [touched], rfl, released_of rfl ho⟩)
    · exact .inl (((destroy_effect hr h).2.1 i k m e).2 ho)
  | read i' =>
    simp only [step] at h
    split at h
    · split at h <;> simp at h
      rw [h.1] at ho; exact .inl ho
    · cases h
  | write i' v =>
    simp only [step] at h
    split at h
    · split at h <;> simp at h
      rw [← h.1]; exact .inl ho
    · cases h

/-- What is known about the owners when a mutex is acquired. -/
theorem acquires_free {vs : List α} {s s' : St α} (hr : Reachable vs s) {o : Op α} {r : Res α} (h : step s o = some (s', r)) {k m}
    (ha : Acquires o r k m) : (∀ i, ¬ Owns s i .excl m) ∧ (k = .excl → ∀ i k', ¬ Owns s i k' m) := by
  unfold Acquires at ha
  split at ha
  · obtain ⟨rfl, rfl⟩ := ha
    have := (lock_iff_free hr (step_lock_lt h)).1 ⟨_, h⟩
    exact ⟨fun i => this i _, fun _ => this⟩
  · obtain ⟨rfl, rfl⟩ := ha
    have := (lock_iff_free hr (step_tryLock_lt h)).1 ⟨_, tryLock_true hr h⟩
    exact ⟨fun i => this i _, fun _ => this⟩
  · obtain ⟨rfl, rfl⟩ := ha
    exact ⟨(lock_shared_iff hr (step_lockShared_lt h)).1 ⟨_, h⟩, fun h => by cases h⟩
  · obtain ⟨rfl, rfl⟩ := ha
    exact ⟨(lock_shared_iff hr (step_tryLockShared_lt h)).1 ⟨_, tryLockShared_true hr h⟩, fun h => by cases h⟩
  · exact ha.elim

theorem learns_excl {w : W α} {o : Op α} {r : Res α} {m} (ha : Acquires o r .excl m) : w.learns o r = w.rel m ++ w.relS m := by
  unfold Acquires at ha
  split at ha <;> simp_all [W.learns]

theorem learns_shrd {w : W α} {o : Op α} {r : Res α} {m} (ha : Acquires o r .shrd m) : w.learns o r = w.rel m := by
  unfold Acquires at ha
  split at ha <;> simp_all [W.learns]

/-- An access through an owning guard. -/
theorem accessOf_owns {s : St α} {o : Op α} {m b} (h : accessOf s o = some (m, b)) :
    ∃ i k, Owns s i k m ∧ (∀ r, touched s o r = [i]) := by
  cases o <;> simp only [accessOf] at h <;> try cases h
  all_goals
    split at h
    · rename_i g hg
      split at h
      · rename_i ho
        injection h with h; injection h with h h'; subst h
        exact ⟨_, g.kind, ⟨g, hg, rfl, ho⟩, fun r => rfl⟩
      · cases h
    · cases h

theorem accessOf_write {s s' : St α} {o : Op α} {r} (hs : step s o = some (s', r)) {m} (h : accessOf s o = some (m, true)) :
    ∃ i, Owns s i .excl m ∧ (∀ r, touched s o r = [i]) := by
  cases o <;> simp only [accessOf] at h <;> try cases h
  · split at h
    · split at h <;> simp at h
    · cases h
  · split at h
    · rename_i g hg
      split at h
      · rename_i ho
        injection h with h; injection h with h h'; subst h
        simp only [step, hg] at hs
        split at hs
        · rename_i hk _; exact ⟨_, ⟨g, hg, hk, ho⟩, fun r => rfl⟩
        · cases hs
      · cases h
    · cases h

theorem accessOf_same {s s' : St α} {o : Op α} {r} (hs : step s o = some (s', r)) {m b} (h : accessOf s o = some (m, b)) {i k m'} :
    Owns s' i k m' ↔ Owns s i k m' := by
  cases o <;> simp only [accessOf] at h <;> try cases h
  all_goals
    simp only [step] at hs
    split at hs
    · split at hs <;> simp at hs
      obtain ⟨rfl, _⟩ := hs; exact Iff.rfl
    · cases hs

theorem accessOf_released {s : St α} {o : Op α} {m b} (h : accessOf s o = some (m, b)) : released s o = none := by
  cases o <;> simp [accessOf] at h <;> rfl

/-! ### The invariant -/

/-- A set of log entries that with an entry contains those that happen before it. -/
def Closed (log : List (Ent α)) (l : List Nat) : Prop :=
  ∀ j ∈ l, ∃ e, log[j]? = some e ∧ ∀ k ∈ e.know, k ∈ l

/-- Entry `k` is, or happens before, an operation on guard `i`. -/
def Upto (log : List (Ent α)) (i k : Nat) : Prop :=
  ∃ j e, log[j]? = some e ∧ i ∈ e.touches ∧ (k = j ∨ k ∈ e.know)

/-- Entry `k` is an access to the value of `m`. -/
def IsAcc (log : List (Ent α)) (k m : Nat) (b : Bool) : Prop := ∃ e, log[k]? = some e ∧ e.access = some (m, b)

structure RInv (vs : List α) (w : W α) : Prop where
  reach : Reachable vs w.st
  view : ∀ t, Closed w.log (w.view t)
  rel : ∀ m, Closed w.log (w.rel m)
  relS : ∀ m, Closed w.log (w.relS m)
  know : ∀ (j : Nat) (e : Ent α), w.log[j]? = some e → Closed w.log e.know
  excl : ∀ i m, Owns w.st i .excl m → ∀ k b, IsAcc w.log k m b → Upto w.log i k
  shrd : ∀ i m, Owns w.st i .shrd m → ∀ k, IsAcc w.log k m true → Upto w.log i k
  writes : ∀ m k, IsAcc w.log k m true → k ∈ w.rel m ∨ ∃ i, Owns w.st i .excl m
  reads : ∀ m k, IsAcc w.log k m false → k ∈ w.rel m ∨ k ∈ w.relS m ∨ ∃ i kd, Owns w.st i kd m ∧ Upto w.log i k
  races : ∀ (i j m : Nat) (bi bj : Bool) (ej : Ent α), i < j → IsAcc w.log i m bi → w.log[j]? = some ej → ej.access = some (m, bj) →
    (bi = true ∨ bj = true) → i ∈ ej.know

theorem getElem?_snoc_some {β : Type} {l : List β} {x y : β} {j : Nat} (h : (l ++ [x])[j]? = some y) :
    l[j]? = some y ∨ (j = l.length ∧ y = x) := by
  rw [List.getElem?_append] at h
  split at h
  · exact .inl h
  · rw [List.getElem?_singleton] at h
    split at h
    · injection h with h; exact .inr ⟨by omega, h.symm⟩
    · cases h

theorem getElem?_snoc_old {β : Type} {l : List β} {x y : β} {j : Nat} (h : l[j]? = some y) : (l ++ [x])[j]? = some y := by
  rw [List.getElem?_append_left (lt_of_getElem? h)]; exact h

theorem Closed.snoc {log : List (Ent α)} {l : List Nat} {e} (h : Closed log l) : Closed (log ++ [e]) l := by
  intro j hj
  obtain ⟨e', h1, h2⟩ := h j hj
  exact ⟨e', getElem?_snoc_old h1, h2⟩

theorem Closed.append {log : List (Ent α)} {l l' : List Nat} (h : Closed log l) (h' : Closed log l') : Closed log (l ++ l') := by
  intro j hj
  rcases List.mem_append.1 hj with hj | hj
  · obtain ⟨e, h1, h2⟩ := h j hj; exact ⟨e, h1, fun k hk => List.mem_append_left _ (h2 k hk)⟩
  · obtain ⟨e, h1, h2⟩ := h' j hj; exact ⟨e, h1, fun k hk => List.mem_append_right _ (h2 k hk)⟩

theorem Closed.nil {log : List (Ent α)} : Closed log [] := fun _ h => by cases h

theorem Closed.self {log : List (Ent α)} {e : Ent α} (h : Closed log e.know) : Closed (log ++ [e]) (log.length :: e.know) := by
  intro j hj
  rcases List.mem_cons.1 hj with rfl | hj
  · exact ⟨e, by simp, fun k hk => List.mem_cons_of_mem _ hk⟩
  · obtain ⟨e', h1, h2⟩ := h j hj
    exact ⟨e', getElem?_snoc_old h1, fun k hk => List.mem_cons_of_mem _ (h2 k hk)⟩

theorem Upto.snoc {log : List (Ent α)} {i k e} (h : Upto log i k) : Upto (log ++ [e]) i k := by
  obtain ⟨j, e', h1, h2⟩ := h
  exact ⟨j, e', getElem?_snoc_old h1, h2⟩

theorem Upto.new {log : List (Ent α)} {i k} {e : Ent α} (hi : i ∈ e.touches) (hk : k = log.length ∨ k ∈ e.know) : Upto (log ++ [e]) i k :=
  ⟨log.length, e, by simp, hi, hk⟩

theorem IsAcc.snoc {log : List (Ent α)} {k m b e} (h : IsAcc (log ++ [e]) k m b) :
    IsAcc log k m b ∨ (k = log.length ∧ e.access = some (m, b)) := by
  obtain ⟨e', h1, h2⟩ := h
  rcases getElem?_snoc_some h1 with h1 | ⟨h3, rfl⟩
  · exact .inl ⟨e', h1, h2⟩
  · exact .inr ⟨h3, h2⟩

theorem IsAcc.lt {log : List (Ent α)} {k m b} (h : IsAcc log k m b) : k < log.length := by
  obtain ⟨e, h, _⟩ := h; exact lt_of_getElem? h

/-- An operation on a guard knows what happened up to the earlier ones. -/
theorem Upto.known {log : List (Ent α)} {i k} {e : Ent α} (hc : Closed log e.know) (hd : GuardsOrdered (log ++ [e]))
    (hi : i ∈ e.touches) (h : Upto log i k) : k ∈ e.know := by
  obtain ⟨j, e', h1, h2, h3⟩ := h
  have hj : j ∈ e.know := hd j log.length e' e i (lt_of_getElem? h1) (getElem?_snoc_old h1) (by simp) h2 hi
  rcases h3 with rfl | h3
  · exact hj
  · obtain ⟨e'', h4, h5⟩ := hc j hj
    rw [h1] at h4; injection h4 with h4; subst h4
    exact h5 k h3

theorem learns_closed {w : W α} (h1 : ∀ m, Closed w.log (w.rel m)) (h2 : ∀ m, Closed w.log (w.relS m)) (o : Op α) (r : Res α) :
    Closed w.log (w.learns o r) := by
  unfold W.learns
  split
  · exact (h1 _).append (h2 _)
  · exact (h1 _).append (h2 _)
  · exact h1 _
  · exact h1 _
  · exact Closed.nil

theorem RInv.step_op {vs : List α} {w w' : W α} (hi : RInv vs w) {t o} (h : wstep w (.op t o) = some w') (hd : GuardsOrdered w'.log) :
    RInv vs w' := by
  simp only [wstep, Option.bind_eq_some_iff] at h
  obtain ⟨⟨s', r⟩, hs, h⟩ := h
  injection h with h
  have hreach : Reachable vs s' := reach_step hi.reach hs
  generalize he : (⟨t, o, r, touched w.st o r, w.view t ++ w.learns o r, accessOf w.st o,
        (released w.st o).bind fun km => (releaser o).map fun i => (km.1, km.2, w.acq i)⟩ : Ent α) = e at h
  have e1 : e.touches = touched w.st o r := by rw [← he]
  have e2 : e.know = w.view t ++ w.learns o r := by rw [← he]
  have e3 : e.access = accessOf w.st o := by rw [← he]
  have hlog : w'.log = w.log ++ [e] := by rw [← h]
  have hst : w'.st = s' := by rw [← h]
  have hview : ∀ t', w'.view t' = if t' = t then w.log.length :: e.know else w.view t' := by rw [← h, e2]; intro t'; rfl
  have hrel : ∀ m, w'.rel m = w.rel m ∨ (released w.st o = some (.excl, m) ∧ w'.rel m = (w.log.length :: e.know) ++ w.rel m) := by
    intro m
    rw [← h, e2]
    dsimp only
    split
    · rename_i hr; exact .inr ⟨hr, rfl⟩
    · exact .inl rfl
  have hrelS : ∀ m, w'.relS m = w.relS m ∨ (released w.st o = some (.shrd, m) ∧ w'.relS m = (w.log.length :: e.know) ++ w.relS m) := by
    intro m
    rw [← h, e2]
    dsimp only
    split
    · rename_i hr; exact .inr ⟨hr, rfl⟩
    · exact .inl rfl
  have hrelX : ∀ m, released w.st o = some (.excl, m) → w'.rel m = (w.log.length :: e.know) ++ w.rel m := by
    intro m hr; rw [← h, e2]; exact if_pos hr
  have hrelSX : ∀ m, released w.st o = some (.shrd, m) → w'.relS m = (w.log.length :: e.know) ++ w.relS m := by
    intro m hr; rw [← h, e2]; exact if_pos hr
  have hrelmono : ∀ m k, k ∈ w.rel m → k ∈ w'.rel m := by
    intro m k hk; rcases hrel m with h | ⟨_, h⟩ <;> rw [h]
    · exact hk
    · exact List.mem_append_right _ hk
  have hrelSmono : ∀ m k, k ∈ w.relS m → k ∈ w'.relS m := by
    intro m k hk; rcases hrelS m with h | ⟨_, h⟩ <;> rw [h]
    · exact hk
    · exact List.mem_append_right _ hk
  clear h he
  have hc : Closed w.log e.know := by rw [e2]; exact (hi.view t).append (learns_closed hi.rel hi.relS o r)
  have hself : Closed (w.log ++ [e]) (w.log.length :: e.know) := hc.self
  rw [hlog] at hd
  have known : ∀ i k, i ∈ touched w.st o r → Upto w.log i k → k ∈ e.know := fun i k h1 h2 => h2.known hc hd (e1 ▸ h1)
  have hlearn : ∀ k, k ∈ w.learns o r → k ∈ e.know := fun k hk => by rw [e2]; exact List.mem_append_right _ hk
  -- when a mutex is acquired exclusively, all accesses are known; when it is acquired shared, all writes
  have acqX : ∀ m, Acquires o r .excl m → ∀ k b, IsAcc w.log k m b → k ∈ e.know := by
    intro m ha k b hk
    have hf := (acquires_free hi.reach hs ha).2 rfl
    apply hlearn
    rw [learns_excl ha]
    cases b with
    | true =>
      rcases hi.writes m k hk with h | ⟨i, h⟩
      · exact List.mem_append_left _ h
      · exact absurd h (hf i _)
    | false =>
      rcases hi.reads m k hk with h | h | ⟨i, kd, h, _⟩
      · exact List.mem_append_left _ h
      · exact List.mem_append_right _ h
      · exact absurd h (hf i kd)
  have acqS : ∀ m, Acquires o r .shrd m → ∀ k, IsAcc w.log k m true → k ∈ e.know := by
    intro m ha k hk
    have hf := (acquires_free hi.reach hs ha).1
    apply hlearn
    rw [learns_shrd ha]
    rcases hi.writes m k hk with h | ⟨i, h⟩
    · exact h
    · exact absurd h (hf i)
  have oldX : ∀ i m, Owns s' i .excl m → ∀ k b, IsAcc w.log k m b → Upto (w.log ++ [e]) i k := by
    intro i m ho k b hk
    rcases owns_fwd hi.reach hs ho with h1 | ⟨i0, h1, h2, h3⟩ | ⟨h1, h2⟩
    · exact (hi.excl i m h1 k b hk).snoc
    · exact Upto.new (e1 ▸ h3) (.inr (known i0 k h2 (hi.excl i0 m h1 k b hk)))
    · exact Upto.new (e1 ▸ h1) (.inr (acqX m h2 k b hk))
  have oldS : ∀ i m, Owns s' i .shrd m → ∀ k, IsAcc w.log k m true → Upto (w.log ++ [e]) i k := by
    intro i m ho k hk
    rcases owns_fwd hi.reach hs ho with h1 | ⟨i0, h1, h2, h3⟩ | ⟨h1, h2⟩
    · exact (hi.shrd i m h1 k hk).snoc
    · exact Upto.new (e1 ▸ h3) (.inr (known i0 k h2 (hi.shrd i0 m h1 k hk)))
    · exact Upto.new (e1 ▸ h1) (.inr (acqS m h2 k hk))
  constructor
  · rw [hst]; exact hreach
  · intro t'; rw [hlog, hview]; split
    · exact hself
    · exact (hi.view t').snoc
  · intro m; rw [hlog]
    rcases hrel m with h | ⟨_, h⟩ <;> rw [h]
    · exact (hi.rel m).snoc
    · exact hself.append (hi.rel m).snoc
  · intro m; rw [hlog]
    rcases hrelS m with h | ⟨_, h⟩ <;> rw [h]
    · exact (hi.relS m).snoc
    · exact hself.append (hi.relS m).snoc
  · intro j e' hj
    rw [hlog] at hj ⊢
    rcases getElem?_snoc_some hj with hj | ⟨_, rfl⟩
    · exact (hi.know j e' hj).snoc
    · exact hc.snoc
  · intro i m ho k b hk
    rw [hst] at ho; rw [hlog] at hk ⊢
    rcases hk.snoc with hk | ⟨rfl, ha⟩
    · exact oldX i m ho k b hk
    · rw [e3] at ha
      obtain ⟨i', kd, h1, h2⟩ := accessOf_owns ha
      have ho' := (accessOf_same hs ha).1 ho
      have := (guard_exclusive hi.reach ho' h1).1
      subst this
      exact Upto.new (by rw [e1, h2]; simp) (.inl rfl)
  · intro i m ho k hk
    rw [hst] at ho; rw [hlog] at hk ⊢
    rcases hk.snoc with hk | ⟨rfl, ha⟩
    · exact oldS i m ho k hk
    · rw [e3] at ha
      obtain ⟨i', h1, _⟩ := accessOf_write hs ha
      have ho' := (accessOf_same hs ha).1 ho
      have := (guard_exclusive hi.reach h1 ho').2
      cases this
  · intro m k hk
    rw [hst]; rw [hlog] at hk
    rcases hk.snoc with hk | ⟨rfl, ha⟩
    · rcases hi.writes m k hk with h | ⟨i, h⟩
      · exact .inl (hrelmono m k h)
      · rcases owns_bwd hi.reach hs h with h1 | ⟨i1, h1, _⟩ | ⟨h1, _, h2⟩
        · exact .inr ⟨i, h1⟩
        · exact .inr ⟨i1, h1⟩
        · left; rw [hrelX m h2]
          exact List.mem_append_left _ (List.mem_cons_of_mem _ (known i k h1 (hi.excl i m h k true hk)))
    · rw [e3] at ha
      obtain ⟨i', h1, _⟩ := accessOf_write hs ha
      exact .inr ⟨i', (accessOf_same hs ha).2 h1⟩
  · intro m k hk
    rw [hst, hlog]; rw [hlog] at hk
    rcases hk.snoc with hk | ⟨rfl, ha⟩
    · rcases hi.reads m k hk with h | h | ⟨i, kd, h, hu⟩
      · exact .inl (hrelmono m k h)
      · exact .inr (.inl (hrelSmono m k h))
      · rcases owns_bwd hi.reach hs h with h1 | ⟨i1, h1, h2, h3⟩ | ⟨h1, _, h2⟩
        · exact .inr (.inr ⟨i, kd, h1, hu.snoc⟩)
        · exact .inr (.inr ⟨i1, kd, h1, Upto.new (e1 ▸ h3) (.inr (known i k h2 hu))⟩)
        · cases kd with
          | excl =>
            left; rw [hrelX m h2]
            exact List.mem_append_left _ (List.mem_cons_of_mem _ (known i k h1 hu))
          | shrd =>
            right; left; rw [hrelSX m h2]
            exact List.mem_append_left _ (List.mem_cons_of_mem _ (known i k h1 hu))
    · rw [e3] at ha
      obtain ⟨i', kd, h1, h2⟩ := accessOf_owns ha
      exact .inr (.inr ⟨i', kd, (accessOf_same hs ha).2 h1, Upto.new (by rw [e1, h2]; simp) (.inl rfl)⟩)
  · intro i j m bi bj ej hij hacc hj haj hb
    rw [hlog] at hacc hj
    rcases getElem?_snoc_some hj with hj | ⟨rfl, rfl⟩
    · have hlt := lt_of_getElem? hj
      rcases hacc.snoc with hacc | ⟨rfl, _⟩
      · exact hi.races i j m bi bj ej hij hacc hj haj hb
      · omega
    · rcases hacc.snoc with hacc | ⟨rfl, _⟩
      · rw [e3] at haj
        obtain ⟨i', kd, h1, h2⟩ := accessOf_owns haj
        have hm : i' ∈ touched w.st o r := by rw [h2]; simp
        cases kd with
        | excl => exact known i' i hm (hi.excl i' m h1 i bi hacc)
        | shrd =>
          have hbj : bj = false := by
            cases bj with
            | false => rfl
            | true =>
              obtain ⟨i2, h3, _⟩ := accessOf_write hs haj
              have := (guard_exclusive hi.reach h3 h1).2
              cases this
          rcases hb with rfl | hb
          · exact known i' i hm (hi.shrd i' m h1 i hacc)
          · rw [hbj] at hb; cases hb
      · omega

theorem RInv.step_sync {vs : List α} {w w' : W α} (hi : RInv vs w) {a b} (h : wstep w (.sync a b) = some w') : RInv vs w' := by
  simp only [wstep] at h
  injection h with h
  subst h
  refine ⟨hi.reach, fun t => ?_, hi.rel, hi.relS, hi.know, hi.excl, hi.shrd, hi.writes, hi.reads, hi.races⟩
  show Closed w.log (upd w.view b _ t)
  unfold upd; split
  · exact (hi.view a).append (hi.view b)
  · exact hi.view t

theorem RInv.init (vs : List α) : RInv vs (winit vs) := by
  have no : ∀ k m b, ¬ IsAcc (winit vs).log k m b := by rintro k m b ⟨e, h, _⟩; simp [winit] at h
  have noe : ∀ (j : Nat) (e : Ent α), ¬ (winit vs).log[j]? = some e := by intro j e h; simp [winit] at h
  exact ⟨⟨[], rfl⟩, fun _ => Closed.nil, fun _ => Closed.nil, fun _ => Closed.nil, fun j e h => absurd h (noe j e),
    fun i m _ k b h => absurd h (no k m b), fun i m _ k h => absurd h (no k m _), fun m k h => absurd h (no k m _),
    fun m k h => absurd h (no k m _), fun i j m bi bj ej _ h => absurd h (no i m bi)⟩

theorem wstep_log {w w' : W α} {a} (h : wstep w a = some w') : w'.log = w.log ∨ ∃ e, w'.log = w.log ++ [e] := by
  cases a with
  | sync a b => simp only [wstep] at h; injection h with h; subst h; exact .inl rfl
  | op t o =>
    simp only [wstep, Option.bind_eq_some_iff] at h
    obtain ⟨r, _, h⟩ := h
    injection h with h; subst h; exact .inr ⟨_, rfl⟩

theorem wrun_log {as : List (WAct α)} {w w' : W α} (h : wrun w as = some w') : ∃ l, w'.log = w.log ++ l := by
  induction as generalizing w with
  | nil => simp [wrun] at h; subst h; exact ⟨[], by simp⟩
  | cons a as ih =>
    simp only [wrun, Option.bind_eq_some_iff] at h
    obtain ⟨w1, h1, h2⟩ := h
    obtain ⟨l, hl⟩ := ih h2
    rcases wstep_log h1 with h | ⟨e, h⟩
    · exact ⟨l, by rw [hl, h]⟩
    · exact ⟨e :: l, by rw [hl, h]; simp⟩

theorem GuardsOrdered.prefix {l l' : List (Ent α)} (h : GuardsOrdered (l ++ l')) : GuardsOrdered l := by
  intro i j ei ej g hij hi hj h1 h2
  refine h i j ei ej g hij ?_ ?_ h1 h2
  · rw [List.getElem?_append_left (lt_of_getElem? hi)]; exact hi
  · rw [List.getElem?_append_left (lt_of_getElem? hj)]; exact hj

theorem RInv.run {vs : List α} {as : List (WAct α)} {w w' : W α} (hi : RInv vs w) (h : wrun w as = some w') (hd : GuardsOrdered w'.log) :
    RInv vs w' := by
  induction as generalizing w with
  | nil => simp [wrun] at h; subst h; exact hi
  | cons a as ih =>
    simp only [wrun, Option.bind_eq_some_iff] at h
    obtain ⟨w1, h1, h2⟩ := h
    refine ih ?_ h2
    obtain ⟨l, hl⟩ := wrun_log h2
    rw [hl] at hd
    cases a with
    | sync a b => exact hi.step_sync h1
    | op t o => exact hi.step_op h1 hd.prefix

/-! ### The property -/

/-- **C81.** If no guard object is used by several threads without synchronization, then of any two accesses to the value of one mutex through guards that
own it, at least one of them a write, the first one happens before the second one: there is no data race on the value. -/
theorem guards_race_free_partial {vs : List α} {as : List (WAct α)} {w : W α} (h : wrun (winit vs) as = some w) (hd : GuardsOrdered w.log)
    {i j m : Nat} {ei ej : Ent α} {bi bj : Bool} (hij : i < j) (hi : w.log[i]? = some ei) (hj : w.log[j]? = some ej)
    (ai : ei.access = some (m, bi)) (aj : ej.access = some (m, bj)) (hw : bi = true ∨ bj = true) : i ∈ ej.know :=
  ((RInv.init vs).run h hd).races i j m bi bj ej hij ⟨ei, hi, ai⟩ hj aj hw

/-- Thread 0 locks and writes, thread 1 locks after the release, writes and unlocks, thread 2 and thread 3 read at the same time. -/
def demoR : List (WAct Nat) :=
  [.op 0 (.lock 0), .op 0 (.write 0 7), .op 0 (.destroy 0), .op 1 (.tryLock 0 false), .op 1 (.write 1 8), .op 1 (.destroy 1),
   .op 2 (.lockShared 0), .op 3 (.lockShared 0), .op 2 (.read 2), .op 3 (.read 3)]

/-- Decides `GuardsOrdered`. -/
theorem guardsOrdered_of {log : List (Ent α)}
    (h : ∀ p ∈ log.zipIdx, ∀ q ∈ log.zipIdx, p.2 < q.2 → ∀ g ∈ p.1.touches, g ∈ q.1.touches → p.2 ∈ q.1.know) : GuardsOrdered log :=
  fun i j ei ej g hij hi hj h1 h2 =>
    h (ei, i) (List.mem_zipIdx_iff_getElem?.2 hi) (ej, j) (List.mem_zipIdx_iff_getElem?.2 hj) hij g h1 h2

example : ∃ w, wrun (winit [5]) demoR = some w ∧ GuardsOrdered w.log ∧
    (w.log.map fun e => (e.access, e.know, e.res)) =
      [(none, [], .unit), (some (0, true), [0], .unit), (none, [1, 0], .unit), (none, [2, 1, 0], .bool true), (some (0, true), [3, 2, 1, 0], .unit),
       (none, [4, 3, 2, 1, 0], .unit), (none, [5, 4, 3, 2, 1, 0, 2, 1, 0], .unit), (none, [5, 4, 3, 2, 1, 0, 2, 1, 0], .unit),
       (some (0, false), [6, 5, 4, 3, 2, 1, 0, 2, 1, 0], .val 8), (some (0, false), [7, 5, 4, 3, 2, 1, 0, 2, 1, 0], .val 8)] := by
  refine ⟨((wrun (winit [5]) demoR).get rfl), rfl, guardsOrdered_of (by decide), by decide⟩

/-- **C81, refuted in full generality.** A guard that was moved from still gives access to the value: thread 0 moves its guard to a new one, which thread 1 uses
after it has synchronized with thread 0, and both write. No guard object is used without synchronization, but the writes are not ordered. -/
theorem guards_race_free_refuted :
    ∃ (w : W Nat) (ei ej : Ent Nat),
      wrun (winit [5]) [.op 0 (.lock 0), .op 0 (.moveCtor 0), .sync 0 1, .op 1 (.write 1 8), .op 0 (.write 0 9)] = some w ∧
      GuardsOrdered w.log ∧ w.log[2]? = some ei ∧ w.log[3]? = some ej ∧
      ei.op = .write 1 8 ∧ ej.op = .write 0 9 ∧ valueOf w.st 0 = some 9 ∧ 2 ∉ ej.know ∧ 3 ∉ ei.know := by
  refine ⟨(wrun (winit [5]) [.op 0 (.lock 0), .op 0 (.moveCtor 0), .sync 0 1, .op 1 (.write 1 8), .op 0 (.write 0 9)]).get rfl,
    ⟨1, .write 1 8, .unit, [1], [1, 0], some (0, true), none⟩, ⟨0, .write 0 9, .unit, [0], [1, 0], none, none⟩,
    rfl, guardsOrdered_of (by decide), rfl, rfl, rfl, rfl, rfl, by decide, by decide⟩

/-! ### What does not depend on the use of the guards -/

structure KInv (vs : List α) (w : W α) : Prop where
  reach : Reachable vs w.st
  view : ∀ t, Closed w.log (w.view t)
  rel : ∀ m, Closed w.log (w.rel m)
  relS : ∀ m, Closed w.log (w.relS m)
  know : ∀ (j : Nat) (e : Ent α), w.log[j]? = some e → Closed w.log e.know
  own : ∀ (j : Nat) (e : Ent α), w.log[j]? = some e → j ∈ w.view e.thread
  relX : ∀ (j : Nat) (e : Ent α) m t, w.log[j]? = some e → e.releases = some (.excl, m, t) → j ∈ w.rel m
  relSX : ∀ (j : Nat) (e : Ent α) m t, w.log[j]? = some e → e.releases = some (.shrd, m, t) → j ∈ w.relS m
  order : ∀ (i j : Nat) (ei ej : Ent α), i < j → w.log[i]? = some ei → w.log[j]? = some ej → ei.thread = ej.thread → i ∈ ej.know
  sync : ∀ (i j : Nat) (ei ej : Ent α) k m t k', i < j → w.log[i]? = some ei → w.log[j]? = some ej → ei.releases = some (k, m, t) →
    Acquires ej.op ej.res k' m → (k = .excl ∨ k' = .excl) → i ∈ ej.know

theorem KInv.step {vs : List α} {w w' : W α} (hi : KInv vs w) {a} (h : wstep w a = some w') : KInv vs w' := by
  cases a with
  | sync a b =>
    simp only [wstep] at h
    injection h with h
    subst h
    refine ⟨hi.reach, fun t => ?_, hi.rel, hi.relS, hi.know, fun j e hj => ?_, hi.relX, hi.relSX, hi.order, hi.sync⟩
    · show Closed w.log (upd w.view b _ t)
      unfold upd; split
      · exact (hi.view a).append (hi.view b)
      · exact hi.view t
    · show j ∈ upd w.view b _ e.thread
      unfold upd; split
      · rename_i hb; rw [← hb]; exact List.mem_append_right _ (hi.own j e hj)
      · exact hi.own j e hj
  | op t o =>
    simp only [wstep, Option.bind_eq_some_iff] at h
    obtain ⟨⟨s', r⟩, hs, h⟩ := h
    injection h with h
    have hreach : Reachable vs s' := reach_step hi.reach hs
    have hcl : Closed w.log (w.view t ++ w.learns o r) := (hi.view t).append (learns_closed hi.rel hi.relS o r)
    have hrs : ∀ k m t', ((released w.st o).bind fun km => (releaser o).map fun i => (km.1, km.2, w.acq i)) = some (k, m, t') →
        released w.st o = some (k, m) := by
      intro k m t' h
      cases h1 : released w.st o with
      | none => rw [h1] at h; cases h
      | some km =>
        rw [h1] at h
        simp only [Option.bind_some, Option.map_eq_some_iff] at h
        obtain ⟨i, _, h⟩ := h
        injection h with h h'; injection h' with h' _
        subst h h'; rfl
    subst h
    dsimp only
    constructor
    · exact hreach
    · intro t'; show Closed _ (upd w.view t _ t')
      unfold upd; split
      · exact Closed.self (e := ⟨t, o, r, _, w.view t ++ w.learns o r, _, _⟩) hcl
      · exact (hi.view t').snoc
    · intro m; dsimp only; split
      · exact (Closed.self (e := ⟨t, o, r, _, w.view t ++ w.learns o r, _, _⟩) hcl).append (hi.rel m).snoc
      · exact (hi.rel m).snoc
    · intro m; dsimp only; split
      · exact (Closed.self (e := ⟨t, o, r, _, w.view t ++ w.learns o r, _, _⟩) hcl).append (hi.relS m).snoc
      · exact (hi.relS m).snoc
    · intro j e hj
      rcases getElem?_snoc_some hj with hj | ⟨_, rfl⟩
      · exact (hi.know j e hj).snoc
      · exact hcl.snoc
    · intro j e hj
      show j ∈ upd w.view t _ e.thread
      unfold upd
      rcases getElem?_snoc_some hj with hj | ⟨rfl, rfl⟩
      · split
        · rename_i ht
          have := hi.own j e hj
          rw [ht] at this
          exact List.mem_cons_of_mem _ (List.mem_append_left _ this)
        · exact hi.own j e hj
      · dsimp only; rw [if_pos rfl]; exact List.mem_cons_self
    · intro j e m t' hj hr
      dsimp only at hj ⊢
      rcases getElem?_snoc_some hj with hj | ⟨rfl, rfl⟩
      · split
        · exact List.mem_append_right _ (hi.relX j e m t' hj hr)
        · exact hi.relX j e m t' hj hr
      · rw [if_pos (hrs _ _ _ hr)]; simp
    · intro j e m t' hj hr
      dsimp only at hj ⊢
      rcases getElem?_snoc_some hj with hj | ⟨rfl, rfl⟩
      · split
        · exact List.mem_append_right _ (hi.relSX j e m t' hj hr)
        · exact hi.relSX j e m t' hj hr
      · rw [if_pos (hrs _ _ _ hr)]; simp
    · intro i j ei ej hij h1 h2 ht
      rcases getElem?_snoc_some h2 with h2 | ⟨rfl, rfl⟩
      · rcases getElem?_snoc_some h1 with h1 | ⟨rfl, rfl⟩
        · exact hi.order i j ei ej hij h1 h2 ht
        · have := lt_of_getElem? h2; omega
      · rcases getElem?_snoc_some h1 with h1 | ⟨rfl, rfl⟩
        · have := hi.own i ei h1
          rw [ht] at this
          exact List.mem_append_left _ this
        · omega
    · intro i j ei ej k m t' k' hij h1 h2 hr ha hk
      rcases getElem?_snoc_some h2 with h2 | ⟨rfl, rfl⟩
      · rcases getElem?_snoc_some h1 with h1 | ⟨rfl, rfl⟩
        · exact hi.sync i j ei ej k m t' k' hij h1 h2 hr ha hk
        · have := lt_of_getElem? h2; omega
      · rcases getElem?_snoc_some h1 with h1 | ⟨rfl, rfl⟩
        · apply List.mem_append_right
          dsimp only at ha
          cases k' with
          | excl =>
            rw [learns_excl ha]
            cases k with
            | excl => exact List.mem_append_left _ (hi.relX i ei m t' h1 hr)
            | shrd => exact List.mem_append_right _ (hi.relSX i ei m t' h1 hr)
          | shrd =>
            rw [learns_shrd ha]
            rcases hk with rfl | hk
            · exact hi.relX i ei m t' h1 hr
            · cases hk
        · omega

theorem KInv.init (vs : List α) : KInv vs (winit vs) := by
  have noe : ∀ (j : Nat) (e : Ent α), ¬ (winit vs).log[j]? = some e := by intro j e h; simp [winit] at h
  exact ⟨⟨[], rfl⟩, fun _ => Closed.nil, fun _ => Closed.nil, fun _ => Closed.nil, fun j e h => absurd h (noe j e),
    fun j e h => absurd h (noe j e), fun j e _ _ h => absurd h (noe j e), fun j e _ _ h => absurd h (noe j e),
    fun i j ei ej _ h => absurd h (noe i ei), fun i j ei ej _ _ _ _ _ h => absurd h (noe i ei)⟩

theorem KInv.run {vs : List α} {as : List (WAct α)} {w w' : W α} (hi : KInv vs w) (h : wrun w as = some w') : KInv vs w' := by
  induction as generalizing w with
  | nil => simp [wrun] at h; subst h; exact hi
  | cons a as ih =>
    simp only [wrun, Option.bind_eq_some_iff] at h
    obtain ⟨w1, h1, h2⟩ := h
    exact ih (hi.step h1) h2

/-- **C81 (order).** Happens-before contains the order of the operations of a thread and is transitive; an operation only knows earlier ones. -/
theorem hb_order {vs : List α} {as : List (WAct α)} {w : W α} (h : wrun (winit vs) as = some w) {j : Nat} {ej : Ent α}
    (hj : w.log[j]? = some ej) :
    (∀ i ei, i < j → w.log[i]? = some ei → ei.thread = ej.thread → i ∈ ej.know) ∧
    (∀ i ei, i ∈ ej.know → w.log[i]? = some ei → ∀ k ∈ ei.know, k ∈ ej.know) := by
  have hi := (KInv.init vs).run h
  refine ⟨fun i ei hij h1 ht => hi.order i j ei ej hij h1 hj ht, fun i ei h1 h2 k hk => ?_⟩
  obtain ⟨e, h3, h4⟩ := hi.know j ej hj i h1
  rw [h2] at h3; injection h3 with h3; subst h3
  exact h4 k hk

example {w : W Nat} (h : wrun (winit [5]) demoR = some w) {e : Ent Nat} (he : w.log[3]? = some e) :
    ∀ i ei, i < 3 → w.log[i]? = some ei → ei.thread = e.thread → i ∈ e.know := (hb_order h he).1

/-- **C81 (publication).** What a thread did before a guard released a mutex happens before everything after a later acquisition of that mutex,
if one of the two is exclusive. This holds without any condition on the use of guards. -/
theorem release_acquire {vs : List α} {as : List (WAct α)} {w : W α} (h : wrun (winit vs) as = some w) {i j m t : Nat} {k k' : Kind}
    {ei ej : Ent α} (hij : i < j) (hi : w.log[i]? = some ei) (hj : w.log[j]? = some ej) (hr : ei.releases = some (k, m, t))
    (ha : Acquires ej.op ej.res k' m) (hk : k = .excl ∨ k' = .excl) :
    i ∈ ej.know ∧ (∀ x ∈ ei.know, x ∈ ej.know) ∧ ∀ x ex, w.log[x]? = some ex → ex.thread = ei.thread → x < i → x ∈ ej.know := by
  have hinv := (KInv.init vs).run h
  have h1 := hinv.sync i j ei ej k m t k' hij hi hj hr ha hk
  have h2 := (hb_order h hj).2 i ei h1 hi
  exact ⟨h1, h2, fun x ex hx ht hxi => h2 x (hinv.order x i ex ei hxi hx hi ht)⟩

/-- Thread 0 unlocks (entry 2 of the log) before thread 2 locks (entry 6). -/
example : ∃ w, wrun (winit [5]) demoR = some w ∧ (w.log.map fun e => (e.releases, e.res))[2]? = some (some (.excl, 0, 0), .unit) ∧
    (w.log.map fun e => decide (2 ∈ e.know))[6]? = some true := ⟨(wrun (winit [5]) demoR).get rfl, rfl, by decide, by decide⟩

/-- Happens-before as the standard defines it for a program whose threads synchronize by the mutexes only: the transitive closure of the order of the operations of each thread
and of the pairs of a release and a later acquisition of the same mutex, at least one of them exclusive. -/
inductive HappensBefore (log : List (Ent α)) : Nat → Nat → Prop where
  | thread {i j : Nat} {ei ej : Ent α} (hij : i < j) (hi : log[i]? = some ei) (hj : log[j]? = some ej) (ht : ei.thread = ej.thread) :
      HappensBefore log i j
  | mutex {i j m t : Nat} {k k' : Kind} {ei ej : Ent α} (hij : i < j) (hi : log[i]? = some ei) (hj : log[j]? = some ej)
      (hr : ei.releases = some (k, m, t)) (ha : Acquires ej.op ej.res k' m) (hk : k = .excl ∨ k' = .excl) : HappensBefore log i j
  | trans {i j k : Nat} (h : HappensBefore log i j) (h' : HappensBefore log j k) : HappensBefore log i k

theorem HappensBefore.snoc {log : List (Ent α)} {e i j} (h : HappensBefore log i j) : HappensBefore (log ++ [e]) i j := by
  induction h with
  | thread hij hi hj ht => exact .thread hij (getElem?_snoc_old hi) (getElem?_snoc_old hj) ht
  | mutex hij hi hj hr ha hk => exact .mutex hij (getElem?_snoc_old hi) (getElem?_snoc_old hj) hr ha hk
  | trans _ _ h1 h2 => exact .trans h1 h2

theorem HappensBefore.get {log : List (Ent α)} {i j} (h : HappensBefore log i j) : ∃ ej, log[j]? = some ej := by
  induction h with
  | thread hij hi hj ht => exact ⟨_, hj⟩
  | mutex hij hi hj hr ha hk => exact ⟨_, hj⟩
  | trans _ _ h1 h2 => exact h2

/-- Entry `k` is `j` or happens before it. -/
def HbEq (log : List (Ent α)) (k j : Nat) : Prop := k = j ∨ HappensBefore log k j

theorem HbEq.snoc {log : List (Ent α)} {e k j} (h : HbEq log k j) : HbEq (log ++ [e]) k j :=
  h.elim .inl fun h => .inr h.snoc

theorem HbEq.trans {log : List (Ent α)} {k j n} (h : HbEq log k j) (h' : HappensBefore log j n) : HappensBefore log k n :=
  h.elim (fun h => h ▸ h') fun h => .trans h h'

structure EInv (w : W α) : Prop where
  view : ∀ t k, k ∈ w.view t → ∃ (j : Nat) (e : Ent α), w.log[j]? = some e ∧ e.thread = t ∧ HbEq w.log k j
  rel : ∀ m k, k ∈ w.rel m → ∃ (j : Nat) (e : Ent α) (t : Nat), w.log[j]? = some e ∧ e.releases = some (.excl, m, t) ∧ HbEq w.log k j
  relS : ∀ m k, k ∈ w.relS m → ∃ (j : Nat) (e : Ent α) (t : Nat), w.log[j]? = some e ∧ e.releases = some (.shrd, m, t) ∧ HbEq w.log k j
  know : ∀ (j : Nat) (e : Ent α), w.log[j]? = some e → ∀ k ∈ e.know, HappensBefore w.log k j

theorem learns_from {w : W α} (hi : EInv w) {o : Op α} {r : Res α} {x} (hx : x ∈ w.learns o r) :
    ∃ (j : Nat) (e : Ent α) (t m : Nat) (k k' : Kind), w.log[j]? = some e ∧ e.releases = some (k, m, t) ∧ Acquires o r k' m ∧
      (k = .excl ∨ k' = .excl) ∧ HbEq w.log x j := by
  unfold W.learns at hx
  split at hx
  · rcases List.mem_append.1 hx with hx | hx
    · obtain ⟨j, e, t, h1, h2, h3⟩ := hi.rel _ _ hx; exact ⟨j, e, t, _, _, .excl, h1, h2, ⟨rfl, rfl⟩, .inl rfl, h3⟩
    · obtain ⟨j, e, t, h1, h2, h3⟩ := hi.relS _ _ hx; exact ⟨j, e, t, _, _, .excl, h1, h2, ⟨rfl, rfl⟩, .inr rfl, h3⟩
  · rcases List.mem_append.1 hx with hx | hx
    · obtain ⟨j, e, t, h1, h2, h3⟩ := hi.rel _ _ hx; exact ⟨j, e, t, _, _, .excl, h1, h2, ⟨rfl, rfl⟩, .inl rfl, h3⟩
    · obtain ⟨j, e, t, h1, h2, h3⟩ := hi.relS _ _ hx; exact ⟨j, e, t, _, _, .excl, h1, h2, ⟨rfl, rfl⟩, .inr rfl, h3⟩
  · obtain ⟨j, e, t, h1, h2, h3⟩ := hi.rel _ _ hx; exact ⟨j, e, t, _, _, .shrd, h1, h2, ⟨rfl, rfl⟩, .inl rfl, h3⟩
  · obtain ⟨j, e, t, h1, h2, h3⟩ := hi.rel _ _ hx; exact ⟨j, e, t, _, _, .shrd, h1, h2, ⟨rfl, rfl⟩, .inl rfl, h3⟩
  · cases hx

theorem EInv.step_op {w w' : W α} (hi : EInv w) {t o} (h : wstep w (.op t o) = some w') : EInv w' := by
  simp only [wstep, Option.bind_eq_some_iff] at h
  obtain ⟨⟨s', r⟩, hs, h⟩ := h
  injection h with h
  generalize he : (⟨t, o, r, touched w.st o r, w.view t ++ w.learns o r, accessOf w.st o,
        (released w.st o).bind fun km => (releaser o).map fun i => (km.1, km.2, w.acq i)⟩ : Ent α) = e at h
  have e1 : e.thread = t := by rw [← he]
  have e2 : e.know = w.view t ++ w.learns o r := by rw [← he]
  have e3 : e.op = o := by rw [← he]
  have e4 : e.res = r := by rw [← he]
  have e5 : e.releases = (released w.st o).bind fun km => (releaser o).map fun i => (km.1, km.2, w.acq i) := by rw [← he]
  have hlog : w'.log = w.log ++ [e] := by rw [← h]
  have hview : ∀ t', w'.view t' = if t' = t then w.log.length :: e.know else w.view t' := by rw [← h, e2]; intro t'; rfl
  have hrel : ∀ m, w'.rel m = if released w.st o = some (.excl, m) then (w.log.length :: e.know) ++ w.rel m else w.rel m := by
    rw [← h, e2]; intro m; rfl
  have hrelS : ∀ m, w'.relS m = if released w.st o = some (.shrd, m) then (w.log.length :: e.know) ++ w.relS m else w.relS m := by
    rw [← h, e2]; intro m; rfl
  clear h he
  have hn : (w.log ++ [e])[w.log.length]? = some e := by simp
  have hknow : ∀ k ∈ e.know, HappensBefore (w.log ++ [e]) k w.log.length := by
    intro k hk
    rw [e2] at hk
    rcases List.mem_append.1 hk with hk | hk
    · obtain ⟨j, e', h1, h2, h3⟩ := hi.view t k hk
      exact h3.snoc.trans (.thread (lt_of_getElem? h1) (getElem?_snoc_old h1) hn (by rw [h2, e1]))
    · obtain ⟨j, e', t', m, k1, k2, h1, h2, h3, h4, h5⟩ := learns_from hi hk
      exact h5.snoc.trans (.mutex (lt_of_getElem? h1) (getElem?_snoc_old h1) hn h2 (by rw [e3, e4]; exact h3) h4)
  have hpub : ∀ k ∈ w.log.length :: e.know, HbEq (w.log ++ [e]) k w.log.length := by
    intro k hk
    rcases List.mem_cons.1 hk with rfl | hk
    · exact .inl rfl
    · exact .inr (hknow k hk)
  have hrs : ∀ k m, released w.st o = some (k, m) → ∃ t', e.releases = some (k, m, t') := by
    intro k m h
    rw [e5, h]
    cases hr : releaser o with
    | none => simp [released, hr] at h
    | some i => exact ⟨_, rfl⟩
  constructor
  · intro t' k hk
    rw [hview] at hk; rw [hlog]
    split at hk
    · rename_i ht
      exact ⟨_, e, hn, by rw [e1, ht], hpub k hk⟩
    · obtain ⟨j, e', h1, h2, h3⟩ := hi.view t' k hk
      exact ⟨j, e', getElem?_snoc_old h1, h2, h3.snoc⟩
  · intro m k hk
    rw [hrel] at hk; rw [hlog]
    have old : k ∈ w.rel m → ∃ (j : Nat) (e' : Ent α) (t : Nat), (w.log ++ [e])[j]? = some e' ∧ e'.releases = some (.excl, m, t) ∧
        HbEq (w.log ++ [e]) k j := by
      intro hk
      obtain ⟨j, e', t', h1, h2, h3⟩ := hi.rel m k hk
      exact ⟨j, e', t', getElem?_snoc_old h1, h2, h3.snoc⟩
    split at hk
    · rename_i hr
      rcases List.mem_append.1 hk with hk | hk
      · obtain ⟨t', h1⟩ := hrs _ _ hr
        exact ⟨_, e, t', hn, h1, hpub k hk⟩
      · exact old hk
    · exact old hk
  · intro m k hk
    rw [hrelS] at hk; rw [hlog]
    have old : k ∈ w.relS m → ∃ (j : Nat) (e' : Ent α) (t : Nat), (w.log ++ [e])[j]? = some e' ∧ e'.releases = some (.shrd, m, t) ∧
        HbEq (w.log ++ [e]) k j := by
      intro hk
      obtain ⟨j, e', t', h1, h2, h3⟩ := hi.relS m k hk
      exact ⟨j, e', t', getElem?_snoc_old h1, h2, h3.snoc⟩
    split at hk
    · rename_i hr
      rcases List.mem_append.1 hk with hk | hk
      · obtain ⟨t', h1⟩ := hrs _ _ hr
        exact ⟨_, e, t', hn, h1, hpub k hk⟩
      · exact old hk
    · exact old hk
  · intro j e' hj k hk
    rw [hlog] at hj ⊢
    rcases getElem?_snoc_some hj with hj | ⟨rfl, rfl⟩
    · exact (hi.know j e' hj k hk).snoc
    · exact hknow k hk

theorem EInv.run {as : List (WAct α)} {w w' : W α} (hi : EInv w) (hn : ∀ a ∈ as, ∃ t o, a = .op t o) (h : wrun w as = some w') : EInv w' := by
  induction as generalizing w with
  | nil => simp [wrun] at h; subst h; exact hi
  | cons a as ih =>
    simp only [wrun, Option.bind_eq_some_iff] at h
    obtain ⟨w1, h1, h2⟩ := h
    obtain ⟨t, o, rfl⟩ := hn a (by simp)
    exact ih (hi.step_op h1) (fun a ha => hn a (by simp [ha])) h2

/-- **C81 (happens-before).** When the threads do not synchronize by other means, what an entry knows is exactly what happens before it by the definition of the
standard. -/
theorem know_iff {vs : List α} {as : List (WAct α)} {w : W α} (hn : ∀ a ∈ as, ∃ t o, a = .op t o) (h : wrun (winit vs) as = some w)
    {i j : Nat} {ej : Ent α} (hj : w.log[j]? = some ej) : i ∈ ej.know ↔ HappensBefore w.log i j := by
  constructor
  · refine fun hi => (EInv.run ⟨?_, ?_, ?_, ?_⟩ hn h).know j ej hj i hi
    · intro t k hk; cases hk
    · intro m k hk; cases hk
    · intro m k hk; cases hk
    · intro j e hj; simp [winit] at hj
  · intro hb
    induction hb generalizing ej with
    | thread hij hi hj' ht =>
      rw [hj'] at hj; injection hj with hj; subst hj
      exact (hb_order h hj').1 _ _ hij hi ht
    | mutex hij hi hj' hr ha hk =>
      rw [hj'] at hj; injection hj with hj; subst hj
      exact (release_acquire h hij hi hj' hr ha hk).1
    | trans h1 h2 ih1 ih2 =>
      obtain ⟨e, he⟩ := h1.get
      exact (hb_order h hj).2 _ e (ih2 hj) he _ (ih1 he)

example : (∀ a ∈ demoR, ∃ t o, a = .op t o) ∧ (∃ w, wrun (winit [5]) demoR = some w ∧ (w.log.map (·.know))[3]? = some [2, 1, 0]) :=
  ⟨by simp [demoR], (wrun (winit [5]) demoR).get rfl, rfl, rfl⟩

/-- No guard object is used by more than one thread. -/
def OneThread (log : List (Ent α)) : Prop :=
  ∀ (i j : Nat) (ei ej : Ent α) (g : Nat), log[i]? = some ei → log[j]? = some ej → g ∈ ei.touches → g ∈ ej.touches → ei.thread = ej.thread

/-- **C81 (guards of one thread).** A program in which every guard object is used by one thread only meets the condition of `guards_race_free_partial`: no
other synchronization is needed. -/
theorem one_thread_ordered {vs : List α} {as : List (WAct α)} {w : W α} (h : wrun (winit vs) as = some w) (ho : OneThread w.log) :
    GuardsOrdered w.log := by
  intro i j ei ej g hij hi hj h1 h2
  exact ((KInv.init vs).run h).order i j ei ej hij hi hj (ho i j ei ej g hi hj h1 h2)

theorem OneThread.prefix {l l' : List (Ent α)} (h : OneThread (l ++ l')) : OneThread l := by
  intro i j ei ej g hi hj h1 h2
  refine h i j ei ej g ?_ ?_ h1 h2
  · rw [List.getElem?_append_left (lt_of_getElem? hi)]; exact hi
  · rw [List.getElem?_append_left (lt_of_getElem? hj)]; exact hj

structure TInv (vs : List α) (w : W α) : Prop where
  reach : Reachable vs w.st
  acq : ∀ i k m, Owns w.st i k m → ∃ (j : Nat) (e : Ent α), w.log[j]? = some e ∧ i ∈ e.touches ∧ e.thread = w.acq i
  same : ∀ (j : Nat) (e : Ent α) k m t, w.log[j]? = some e → e.releases = some (k, m, t) → e.thread = t

theorem TInv.step {vs : List α} {w w' : W α} (hi : TInv vs w) {a} (h : wstep w a = some w') (hd : OneThread w'.log) : TInv vs w' := by
  cases a with
  | sync a b =>
    simp only [wstep] at h
    injection h with h
    subst h
    exact ⟨hi.reach, hi.acq, hi.same⟩
  | op t o =>
    simp only [wstep, Option.bind_eq_some_iff] at h
    obtain ⟨⟨s', r⟩, hs, h⟩ := h
    injection h with h
    have hreach : Reachable vs s' := reach_step hi.reach hs
    generalize he : (⟨t, o, r, touched w.st o r, w.view t ++ w.learns o r, accessOf w.st o,
          (released w.st o).bind fun km => (releaser o).map fun i => (km.1, km.2, w.acq i)⟩ : Ent α) = e at h
    have e1 : e.touches = touched w.st o r := by rw [← he]
    have e2 : e.thread = t := by rw [← he]
    have e3 : e.releases = (released w.st o).bind fun km => (releaser o).map fun i => (km.1, km.2, w.acq i) := by rw [← he]
    have hlog : w'.log = w.log ++ [e] := by rw [← h]
    have hst : w'.st = s' := by rw [← h]
    have hacq : w'.acq = w.acq' t o r := by rw [← h]
    clear h he
    rw [hlog] at hd
    -- an owning guard that is used was acquired by this thread
    have used : ∀ i k m, Owns w.st i k m → i ∈ touched w.st o r → w.acq i = t := by
      intro i k m ho ht
      obtain ⟨j, e', h1, h2, h3⟩ := hi.acq i k m ho
      rw [← h3, ← e2]
      exact hd j w.log.length e' e i (getElem?_snoc_old h1) (by simp) h2 (e1 ▸ ht)
    have newT : ∀ i, i ∈ touched w.st o r → w.acq' t o r i = t →
        ∃ (j : Nat) (e' : Ent α), (w.log ++ [e])[j]? = some e' ∧ i ∈ e'.touches ∧ e'.thread = w.acq' t o r i :=
      fun i h1 h2 => ⟨w.log.length, e, by simp, e1 ▸ h1, by rw [h2, e2]⟩
    have oldT : ∀ i k m, Owns w.st i k m → w.acq' t o r i = w.acq i →
        ∃ (j : Nat) (e' : Ent α), (w.log ++ [e])[j]? = some e' ∧ i ∈ e'.touches ∧ e'.thread = w.acq' t o r i := by
      intro i k m h1 h2
      obtain ⟨j, e', h3, h4, h5⟩ := hi.acq i k m h1
      exact ⟨j, e', getElem?_snoc_old h3, h4, by rw [h2, h5]⟩
    have hne : ∀ i k m, Owns w.st i k m → i ≠ w.st.guards.length := by
      rintro i k m ⟨g, hg, _⟩; have := lt_of_getElem? hg; omega
    constructor
    · rw [hst]; exact hreach
    · intro i k m ho
      rw [hst] at ho; rw [hlog, hacq]
      cases o with
      | lock m' =>
        rcases (lock_effect hs i k m).1.1 ho with h1 | ⟨rfl, _⟩
        · exact oldT i k m h1 (by simp [W.acq', upd, hne i k m h1])
        · exact newT _ (by simp [touched]) (by simp [W.acq', upd])
      | tryLock m' sp =>
        rcases tryLock_res hi.reach hs with rfl | ⟨rfl, rfl⟩
        · rcases (lock_effect (tryLock_true hi.reach hs) i k m).1.1 ho with h1 | ⟨rfl, _⟩
          · exact oldT i k m h1 (by simp [W.acq', upd, hne i k m h1])
          · exact newT _ (by simp [touched]) (by simp [W.acq', upd])
        · exact oldT i k m ho rfl
      | lockShared m' =>
        rcases (lock_shared_effect hs i k m).1.1 ho with h1 | ⟨rfl, _⟩
        · exact oldT i k m h1 (by simp [W.acq', upd, hne i k m h1])
        · exact newT _ (by simp [touched]) (by simp [W.acq', upd])
      | tryLockShared m' sp =>
        rcases tryLockShared_res hi.reach hs with rfl | ⟨rfl, rfl⟩
        · rcases (lock_shared_effect (tryLockShared_true hi.reach hs) i k m).1.1 ho with h1 | ⟨rfl, _⟩
          · exact oldT i k m h1 (by simp [W.acq', upd, hne i k m h1])
          · exact newT _ (by simp [touched]) (by simp [W.acq', upd])
        · exact oldT i k m ho rfl
      | moveCtor i' =>
        obtain ⟨h1, h2, h3, _⟩ := move_ctor_effect hs
        by_cases x1 : i = i'
        · subst x1; exact absurd ho (h2 k m)
        · by_cases x2 : i = w.st.guards.length
          · subst x2
            have := used i' k m ((h1 k m).1 ho) (by simp [touched])
            exact newT _ (by simp [touched]) (by simp [W.acq', upd, this])
          · exact oldT i k m ((h3 i k m x1 x2).1 ho) (by simp [W.acq', upd, x2])
      | moveAssign d i' =>
        by_cases hdi : d = i'
        · subst hdi
          obtain ⟨h1, h2⟩ := move_self_owns hi.reach hs
          by_cases x : i = d
          · subst x; exact absurd ho (h1 k m)
          · exact oldT i k m ((h2 i k m x).1 ho) (by simp [W.acq', upd, x])
        · obtain ⟨h1, h2, h3, _⟩ := move_assign_effect hi.reach hdi hs
          by_cases x1 : i = d
          · subst x1
            have := used i' k m ((h1 k m).1 ho) (by simp [touched])
            exact newT _ (by simp [touched]) (by simp [W.acq', upd, this])
          · by_cases x2 : i = i'
            · subst x2; exact absurd ho (h2 k m)
            · exact oldT i k m ((h3 i k m x1 x2).1 ho) (by simp [W.acq', upd, x1])
      | destroy i' =>
        obtain ⟨h1, h2, _⟩ := destroy_effect hi.reach hs
        by_cases x : i = i'
        · subst x; exact absurd ho (h1 k m)
        · exact oldT i k m ((h2 i k m x).1 ho) rfl
      | read i' =>
        refine oldT i k m ?_ rfl
        rcases owns_fwd hi.reach hs ho with h1 | ⟨i0, h1, h2, h3⟩ | ⟨_, h2⟩
        · exact h1
        · simp [touched] at h2 h3; subst h2 h3; exact h1
        · exact h2.elim
      | write i' v =>
        refine oldT i k m ?_ rfl
        rcases owns_fwd hi.reach hs ho with h1 | ⟨i0, h1, h2, h3⟩ | ⟨_, h2⟩
        · exact h1
        · simp [touched] at h2 h3; subst h2 h3; exact h1
        · exact h2.elim
    · intro j e' k m t' hj hr
      rw [hlog] at hj
      rcases getElem?_snoc_some hj with hj | ⟨_, rfl⟩
      · exact hi.same j e' k m t' hj hr
      · rw [e3] at hr
        cases hri : releaser o with
        | none => rw [hri] at hr; simp at hr
        | some i =>
          have ht : i ∈ touched w.st o r := by
            cases o <;> simp [releaser] at hri <;> subst hri <;> simp [touched]
          simp only [released, hri] at hr
          cases hg : w.st.guards[i]? with
          | none => rw [hg] at hr; simp at hr
          | some x =>
            cases x with
            | none => rw [hg] at hr; simp at hr
            | some g =>
              rw [hg] at hr
              cases hgo : g.owns with
              | none => simp [hgo] at hr
              | some m0 =>
                simp [hgo] at hr
                rw [e2, ← hr.2.2]
                exact (used i g.kind m0 ⟨g, hg, rfl, hgo⟩ ht).symm

theorem TInv.run {vs : List α} {as : List (WAct α)} {w w' : W α} (hi : TInv vs w) (h : wrun w as = some w') (hd : OneThread w'.log) :
    TInv vs w' := by
  induction as generalizing w with
  | nil => simp [wrun] at h; subst h; exact hi
  | cons a as ih =>
    simp only [wrun, Option.bind_eq_some_iff] at h
    obtain ⟨w1, h1, h2⟩ := h
    obtain ⟨l, hl⟩ := wrun_log h2
    exact ih (hi.step h1 (by rw [hl] at hd; exact hd.prefix)) h2

/-- **C81 (unlocking thread).** If every guard object is used by one thread only, then each mutex is released by the thread that acquired it, as
`std::mutex` and `std::shared_mutex` require. -/
theorem unlock_same_thread_partial {vs : List α} {as : List (WAct α)} {w : W α} (h : wrun (winit vs) as = some w) (ho : OneThread w.log)
    {j : Nat} {e : Ent α} {k m t} (hj : w.log[j]? = some e) (hr : e.releases = some (k, m, t)) : e.thread = t := by
  refine (TInv.run ⟨⟨[], rfl⟩, ?_, ?_⟩ h ho).same j e k m t hj hr
  · rintro i k m ⟨g, hg, _⟩; simp [winit, init] at hg
  · intro j e k m t h; simp [winit] at h

theorem oneThread_of {log : List (Ent α)} (h : ∀ p ∈ log, ∀ q ∈ log, ∀ g ∈ p.touches, g ∈ q.touches → p.thread = q.thread) : OneThread log :=
  fun _ _ ei ej g hi hj h1 h2 => h ei (List.mem_of_getElem? hi) ej (List.mem_of_getElem? hj) g h1 h2

example : ∃ w, wrun (winit [5]) demoR = some w ∧ (w.log.map fun e => (e.thread, e.releases)) =
    [(0, none), (0, none), (0, some (.excl, 0, 0)), (1, none), (1, none), (1, some (.excl, 0, 1)), (2, none), (3, none), (2, none), (3, none)] ∧ OneThread w.log :=
  ⟨(wrun (winit [5]) demoR).get rfl, rfl, by decide, oneThread_of (by decide)⟩

/-- **C81 (unlocking thread), refuted in full generality.** A guard can be moved to another thread, also with proper synchronization, and be destroyed there:
the mutex is then released by a thread that does not own it, which is undefined behaviour for `std::mutex`. -/
theorem unlock_same_thread_refuted :
    ∃ (w : W Nat) (e : Ent Nat), wrun (winit [5]) [.op 0 (.lock 0), .sync 0 1, .op 1 (.moveCtor 0), .op 1 (.destroy 1)] = some w ∧
      GuardsOrdered w.log ∧ w.log[2]? = some e ∧ e.thread = 1 ∧ e.releases = some (.excl, 0, 0) := by
  refine ⟨(wrun (winit [5]) [.op 0 (.lock 0), .sync 0 1, .op 1 (.moveCtor 0), .op 1 (.destroy 1)]).get rfl,
    ⟨1, .destroy 1, .unit, [1], [1, 0], none, some (.excl, 0, 0)⟩, rfl, guardsOrdered_of (by decide), rfl, rfl, rfl⟩

/-! ### Values -/

/-- All accesses of the program go through guards that own the mutex (no guard is dereferenced that was moved from). -/
def OnlyOwners (log : List (Ent α)) : Prop :=
  ∀ e ∈ log, (∃ g, e.op = .read g ∨ ∃ v, e.op = .write g v) → e.access ≠ none

/-- Entry `i` is a write of `v` to the value of `m`, and no entry from `i` to `j` writes it again. -/
def LastWrite (log : List (Ent α)) (m j i : Nat) (v : α) : Prop :=
  (∃ e g, log[i]? = some e ∧ e.access = some (m, true) ∧ e.op = .write g v) ∧ i < j ∧
  ∀ (k : Nat) (e : Ent α), i < k → k < j → log[k]? = some e → e.access ≠ some (m, true)

/-- No entry before `j` writes the value of `m`. -/
def NoWrite (log : List (Ent α)) (m j : Nat) : Prop :=
  ∀ (k : Nat) (e : Ent α), k < j → log[k]? = some e → e.access ≠ some (m, true)

/-- `v` is the value of `m` that the operations before `j` leave. -/
def ValueAt (vs : List α) (log : List (Ent α)) (m j : Nat) (v : α) : Prop :=
  (vs[m]? = some v ∧ NoWrite log m j) ∨ ∃ i, LastWrite log m j i v

theorem ValueAt.snoc {vs : List α} {log : List (Ent α)} {m j v e} (hj : j ≤ log.length) (h : ValueAt vs log m j v) :
    ValueAt vs (log ++ [e]) m j v := by
  rcases h with ⟨h1, h2⟩ | ⟨i, ⟨e', g, h1, h2, h3⟩, h4, h5⟩
  · refine .inl ⟨h1, fun k e' hk he => ?_⟩
    rcases getElem?_snoc_some he with he | ⟨rfl, _⟩
    · exact h2 k e' hk he
    · omega
  · refine .inr ⟨i, ⟨e', g, getElem?_snoc_old h1, h2, h3⟩, h4, fun k e' hk hkj he => ?_⟩
    rcases getElem?_snoc_some he with he | ⟨rfl, _⟩
    · exact h5 k e' hk hkj he
    · omega

theorem ValueAt.skip {vs : List α} {log : List (Ent α)} {m v} {e : Ent α} (h : ValueAt vs log m log.length v) (he : e.access ≠ some (m, true)) :
    ValueAt vs (log ++ [e]) m (log.length + 1) v := by
  rcases h with ⟨h1, h2⟩ | ⟨i, ⟨e', g, h1, h2, h3⟩, h4, h5⟩
  · refine .inl ⟨h1, fun k e' hk hke => ?_⟩
    rcases getElem?_snoc_some hke with hke | ⟨rfl, rfl⟩
    · exact h2 k e' (lt_of_getElem? hke) hke
    · exact he
  · refine .inr ⟨i, ⟨e', g, getElem?_snoc_old h1, h2, h3⟩, by omega, fun k e' hk hkj hke => ?_⟩
    rcases getElem?_snoc_some hke with hke | ⟨rfl, rfl⟩
    · exact h5 k e' hk (lt_of_getElem? hke) hke
    · exact he

structure VInv (vs : List α) (w : W α) : Prop where
  reach : Reachable vs w.st
  value : ∀ m v, valueOf w.st m = some v → ValueAt vs w.log m w.log.length v
  reads : ∀ (j : Nat) (e : Ent α) m v, w.log[j]? = some e → e.access = some (m, false) → e.res = .val v → ValueAt vs w.log m j v

theorem VInv.step {vs : List α} {w w' : W α} (hi : VInv vs w) {a} (h : wstep w a = some w') (hd : OnlyOwners w'.log) : VInv vs w' := by
  cases a with
  | sync a b =>
    simp only [wstep] at h
    injection h with h
    subst h
    exact ⟨hi.reach, hi.value, hi.reads⟩
  | op t o =>
    simp only [wstep, Option.bind_eq_some_iff] at h
    obtain ⟨⟨s', r⟩, hs, h⟩ := h
    injection h with h
    have hreach : Reachable vs s' := reach_step hi.reach hs
    generalize he : (⟨t, o, r, touched w.st o r, w.view t ++ w.learns o r, accessOf w.st o,
          (released w.st o).bind fun km => (releaser o).map fun i => (km.1, km.2, w.acq i)⟩ : Ent α) = e at h
    have e1 : e.op = o := by rw [← he]
    have e2 : e.res = r := by rw [← he]
    have e3 : e.access = accessOf w.st o := by rw [← he]
    have hlog : w'.log = w.log ++ [e] := by rw [← h]
    have hst : w'.st = s' := by rw [← h]
    clear h he
    rw [hlog] at hd
    have hlen : w'.log.length = w.log.length + 1 := by rw [hlog]; simp
    constructor
    · rw [hst]; exact hreach
    · intro m v hv
      rw [hst] at hv; rw [hlen, hlog]
      by_cases hw : ∃ g x, o = .write g x
      · obtain ⟨g, x, rfl⟩ := hw
        have hacc : accessOf w.st (.write g x) ≠ none := by
          rw [← e3]; exact hd e (by simp) ⟨g, .inr ⟨x, e1⟩⟩
        obtain ⟨m0, hm0⟩ : ∃ m0, accessOf w.st (.write g x) = some (m0, true) := by
          simp only [accessOf] at hacc ⊢
          split at hacc
          · split at hacc
            · rename_i hc; exact ⟨_, if_pos hc⟩
            · exact absurd rfl hacc
          · exact absurd rfl hacc
        obtain ⟨i, h1, h2⟩ := accessOf_write hs hm0
        have hig : i = g := by have := h2 .unit; simp [touched] at this; exact this.symm
        subst hig
        obtain ⟨s2, h3, h4, h5, _⟩ := (access_effect hi.reach h1).2.1 rfl x
        rw [hs] at h3; injection h3 with h3; injection h3 with h3 _; subst h3
        by_cases hm : m = m0
        · subst hm
          rw [h4] at hv; injection hv with hv; subst hv
          exact .inr ⟨w.log.length, ⟨e, i, by simp, by rw [e3, hm0], e1⟩, by omega, fun k e' hk hk' => by omega⟩
        · rw [h5 m hm] at hv
          refine (hi.value m v hv).skip ?_
          rw [e3, hm0]; intro hx; injection hx with hx; injection hx with hx _; exact hm hx.symm
      · rw [value_step hi.reach hs (fun i x hx => hw ⟨i, x, hx⟩)] at hv
        refine (hi.value m v hv).skip ?_
        rw [e3]; intro hx
        cases o <;> simp [accessOf] at hx
        · split at hx <;> simp at hx
        · exact hw ⟨_, _, rfl⟩
    · intro j e' m v hj ha hv
      rw [hlog] at hj ⊢
      rcases getElem?_snoc_some hj with hj | ⟨rfl, rfl⟩
      · exact (hi.reads j e' m v hj ha hv).snoc (Nat.le_of_lt (lt_of_getElem? hj))
      · refine (hi.value m v ?_).snoc (Nat.le_refl _)
        rw [e3] at ha; rw [e2] at hv
        obtain ⟨i, k, h1, h2⟩ := accessOf_owns ha
        obtain ⟨x, h3, h4⟩ := (access_effect hi.reach h1).1
        have ho : o = .read i := by
          cases o <;> simp [accessOf] at ha
          · have := h2 .unit; simp [touched] at this; rw [this]
          · split at ha <;> simp at ha
        subst ho
        rw [hs] at h4; injection h4 with h4; injection h4 with _ h4
        rw [h4] at hv; injection hv with hv; rw [← hv]; exact h3

theorem OnlyOwners.prefix {l l' : List (Ent α)} (h : OnlyOwners (l ++ l')) : OnlyOwners l :=
  fun e he => h e (List.mem_append_left _ he)

theorem VInv.run {vs : List α} {as : List (WAct α)} {w w' : W α} (hi : VInv vs w) (h : wrun w as = some w') (hd : OnlyOwners w'.log) :
    VInv vs w' := by
  induction as generalizing w with
  | nil => simp [wrun] at h; subst h; exact hi
  | cons a as ih =>
    simp only [wrun, Option.bind_eq_some_iff] at h
    obtain ⟨w1, h1, h2⟩ := h
    obtain ⟨l, hl⟩ := wrun_log h2
    exact ih (hi.step h1 (by rw [hl] at hd; exact hd.prefix)) h2

/-- **C81 (values).** If all accesses go through owning guards and no guard object is used without synchronization, then a read returns the value of a write
that happens before it and that all other writes precede (or follow the read), or the value with which the mutex was constructed if there is no earlier write:
there is one value that the read can return. -/
theorem read_latest {vs : List α} {as : List (WAct α)} {w : W α} (h : wrun (winit vs) as = some w) (hd : GuardsOrdered w.log)
    (ho : OnlyOwners w.log) {j m : Nat} {e : Ent α} {v : α} (hj : w.log[j]? = some e) (ha : e.access = some (m, false)) (hv : e.res = .val v) :
    (vs[m]? = some v ∧ NoWrite w.log m j) ∨ ∃ i, LastWrite w.log m j i v ∧ i ∈ e.know := by
  have hi : VInv vs w := by
    refine VInv.run ⟨⟨[], rfl⟩, ?_, ?_⟩ h ho
    · intro m v hv
      refine .inl ⟨?_, fun k e hk => by simp [winit] at hk⟩
      simp [winit, init, valueOf] at hv
      exact hv
    · intro j e m v h; simp [winit] at h
  rcases hi.reads j e m v hj ha hv with h1 | ⟨i, h1⟩
  · exact .inl h1
  · refine .inr ⟨i, h1, ?_⟩
    obtain ⟨⟨e', g, h2, h3, _⟩, h4, _⟩ := h1
    exact guards_race_free_partial h hd h4 h2 hj h3 ha (.inl rfl)

theorem onlyOwners_of {log : List (Ent α)}
    (h : ∀ e ∈ log, (match e.op with | .read _ => e.access.isSome | .write _ _ => e.access.isSome | _ => true) = true) : OnlyOwners log := by
  rintro e he ⟨g, hg⟩ hn
  have := h e he
  rcases hg with hg | ⟨v, hg⟩ <;> simp [hg, hn] at this

example : ∃ w, wrun (winit [5]) demoR = some w ∧ OnlyOwners w.log ∧ GuardsOrdered w.log :=
  ⟨(wrun (winit [5]) demoR).get rfl, rfl, onlyOwners_of (by decide), guardsOrdered_of (by decide)⟩

end Verif.Guards
