import Verif.Guards.Lemmas

/-!
Properties C10 and C11 of `mutex` and `shared_mutex`.

The theorems speak about `Owns s i k m`: guard number `i` is alive and keeps mutex `m` locked (`k`: exclusively or
shared). Operations are those of the API; `step s o = none` means that `o` blocks (or names an object that does not
exist).
-/
namespace Verif.Guards

open Verif.Channel (countP_set' lt_of_getElem? getElem?_set')

variable {α : Type}

/-- Guard `i` is alive and keeps mutex `m` locked in mode `k`. -/
def Owns (s : St α) (i : Nat) (k : Kind) (m : Nat) : Prop :=
  ∃ g, s.guards[i]? = some (some g) ∧ g.kind = k ∧ g.owns = some m

/-- The value stored in mutex object `m`. -/
def valueOf (s : St α) (m : Nat) : Option α := (s.locks[m]?).map (·.value)

/-! ### Counting -/

theorem countP_pos_get {β : Type} {p : β → Bool} {l : List β} (h : 0 < l.countP p) :
    ∃ (i : Nat) (x : β), l[i]? = some x ∧ p x = true := by
  obtain ⟨x, hx, hp⟩ := List.countP_pos_iff.1 h
  obtain ⟨i, hi⟩ := List.mem_iff_getElem?.1 hx
  exact ⟨i, x, hi, hp⟩

theorem get_countP_pos {β : Type} {p : β → Bool} {l : List β} {i : Nat} {x : β} (h : l[i]? = some x)
    (hp : p x = true) : 0 < l.countP p :=
  List.countP_pos_iff.2 ⟨x, List.mem_of_getElem? h, hp⟩

theorem two_countP {β : Type} {p : β → Bool} : ∀ {l : List β} {i j : Nat} {x y : β}, l[i]? = some x → l[j]? = some y →
    p x = true → p y = true → i ≠ j → 2 ≤ l.countP p
  | [], i, j, x, y, h, _, _, _, _ => by simp at h
  | a :: l, i, j, x, y, hi, hj, hx, hy, hne => by
    rw [List.countP_cons]
    cases i with
    | zero =>
      cases j with
      | zero => exact absurd rfl hne
      | succ j =>
        simp at hi hj; subst hi
        have := get_countP_pos hj hy
        rw [if_pos hx]; omega
    | succ i =>
      cases j with
      | zero =>
        simp at hi hj; subst hj
        have := get_countP_pos hi hx
        rw [if_pos hy]; omega
      | succ j =>
        simp at hi hj
        have := two_countP hi hj hx hy (by omega)
        omega

theorem owns_count {s : St α} {i k m} (h : Owns s i k m) : 0 < s.guards.countP (ownsAs k m) := by
  obtain ⟨g, hg, hk, ho⟩ := h
  exact get_countP_pos hg (ownsAs_iff.2 ⟨hk, ho⟩)

theorem count_owns {s : St α} {k m} (h : 0 < s.guards.countP (ownsAs k m)) : ∃ i, Owns s i k m := by
  obtain ⟨i, x, hx, hp⟩ := countP_pos_get h
  cases x with
  | none => simp [ownsAs] at hp
  | some g => exact ⟨i, g, hx, ownsAs_iff.1 hp⟩

theorem owns_lock {s : St α} (hi : Inv s) {i k m} (h : Owns s i k m) : ∃ l, s.locks[m]? = some l := by
  obtain ⟨g, hg, hk, ho⟩ := h
  have := (hi.ptr i g m hg ho).2
  exact ⟨_, List.getElem?_eq_getElem this⟩

theorem writer_iff {s : St α} (hi : Inv s) {m l} (hl : s.locks[m]? = some l) :
    l.writer = true ↔ ∃ i, Owns s i .excl m := by
  have := hi.excl m l hl
  constructor
  · intro h; rw [if_pos h] at this; exact count_owns (by omega)
  · rintro ⟨i, h⟩
    have := owns_count h
    cases hw : l.writer with
    | true => rfl
    | false => simp only [hw, Bool.false_eq_true, if_false] at *; omega

theorem readers_iff {s : St α} (hi : Inv s) {m l} (hl : s.locks[m]? = some l) :
    0 < l.readers ↔ ∃ i, Owns s i .shrd m := by
  have := hi.shrd m l hl
  constructor
  · intro h; exact count_owns (by omega)
  · rintro ⟨i, h⟩
    have := owns_count h
    omega

theorem free_iff {s : St α} (hi : Inv s) {m l} (hl : s.locks[m]? = some l) :
    (l.writer = false ∧ l.readers = 0) ↔ ∀ i k, ¬ Owns s i k m := by
  constructor
  · rintro ⟨hw, hr⟩ i k h
    cases k with
    | excl => have := (writer_iff hi hl).2 ⟨i, h⟩; simp [hw] at this
    | shrd => have := (readers_iff hi hl).2 ⟨i, h⟩; omega
  · intro h
    constructor
    · cases hw : l.writer with
      | false => rfl
      | true => obtain ⟨i, hi⟩ := (writer_iff hi hl).1 hw; exact absurd hi (h i .excl)
    · cases hr : l.readers with
      | zero => rfl
      | succ n => obtain ⟨i, hi⟩ := (readers_iff hi hl).1 (by omega); exact absurd hi (h i .shrd)

/-! ### Mutual exclusion -/

/-- **C10/C11 (mutual exclusion).** While a guard keeps a mutex locked exclusively, no other guard - exclusive or
shared - keeps it locked. -/
theorem guard_exclusive {vs : List α} {s : St α} (hr : Reachable vs s) {i j m : Nat} {k : Kind}
    (h1 : Owns s i .excl m) (h2 : Owns s j k m) : i = j ∧ k = .excl := by
  have hi := inv_reach hr
  obtain ⟨l, hl⟩ := owns_lock hi h1
  have hw := (writer_iff hi hl).2 ⟨i, h1⟩
  cases k with
  | shrd =>
    have := (readers_iff hi hl).2 ⟨j, h2⟩
    have := hi.rw m l hl hw
    omega
  | excl =>
    refine ⟨?_, rfl⟩
    have hc := hi.excl m l hl
    rw [hw] at hc
    obtain ⟨g, hg, hk, ho⟩ := h1
    obtain ⟨g', hg', hk', ho'⟩ := h2
    apply Classical.byContradiction
    intro hne
    have := two_countP hg hg' (ownsAs_iff.2 ⟨hk, ho⟩) (ownsAs_iff.2 ⟨hk', ho'⟩) hne
    simp at hc; omega

example : Reachable [5] (St.mk [⟨true, 0, 5⟩] [none, some ⟨.excl, 0, some 0⟩]) ∧
    Owns (St.mk [⟨true, 0, (5 : Nat)⟩] [none, some ⟨.excl, 0, some 0⟩]) 1 .excl 0 :=
  ⟨⟨[.lock 0, .destroy 0, .lock 0], rfl⟩, _, rfl, rfl, rfl⟩

/-! ### When locking succeeds -/

/-- **C10.** `lock()` does not block exactly when no live guard keeps the mutex locked; it then returns a new guard that
does, and no other guard or value changes. -/
theorem lock_iff_free {vs : List α} {s : St α} (hr : Reachable vs s) {m : Nat} (hm : m < s.locks.length) :
    (∃ r, step s (.lock m) = some r) ↔ ∀ i k, ¬ Owns s i k m := by
  have hi := inv_reach hr
  have hl : s.locks[m]? = some s.locks[m] := List.getElem?_eq_getElem hm
  rw [← free_iff hi hl]
  simp only [step, hl]
  constructor
  · rintro ⟨r, h⟩; split at h
    · assumption
    · cases h
  · intro h; rw [if_pos h]; exact ⟨_, rfl⟩

/-- Locked by guard 0, free again after its destruction. -/
example : Reachable [5] (St.mk [⟨true, 0, 5⟩] [some ⟨.excl, 0, some 0⟩]) ∧
    step (St.mk [⟨true, 0, 5⟩] [some ⟨.excl, 0, some 0⟩]) (.lock 0) = none ∧
    Reachable [5] (St.mk [⟨false, 0, 5⟩] [none]) ∧
    step (St.mk [⟨false, 0, 5⟩] [none]) (.lock 0) = some (St.mk [⟨true, 0, 5⟩] [none, some ⟨.excl, 0, some 0⟩], .unit) :=
  ⟨⟨[.lock 0], rfl⟩, rfl, ⟨[.lock 0, .destroy 0], rfl⟩, rfl⟩

/-- **C11.** `lock_shared()` does not block exactly when no live guard keeps the mutex locked exclusively. -/
theorem lock_shared_iff {vs : List α} {s : St α} (hr : Reachable vs s) {m : Nat} (hm : m < s.locks.length) :
    (∃ r, step s (.lockShared m) = some r) ↔ ∀ i, ¬ Owns s i .excl m := by
  have hi := inv_reach hr
  have hl : s.locks[m]? = some s.locks[m] := List.getElem?_eq_getElem hm
  have hw := writer_iff hi hl
  simp only [step, hl]
  constructor
  · rintro ⟨r, h⟩ i ho; split at h
    · rename_i hc; rw [hw.2 ⟨i, ho⟩] at hc; cases hc
    · cases h
  · intro h
    have : s.locks[m].writer = false := by
      cases hx : s.locks[m].writer with
      | false => rfl
      | true => obtain ⟨i, ho⟩ := hw.1 hx; exact absurd ho (h i)
    rw [if_pos this]; exact ⟨_, rfl⟩

example : Reachable [5] (St.mk [⟨false, 1, 5⟩] [some ⟨.shrd, 0, some 0⟩]) ∧
    (step (St.mk [⟨false, 1, 5⟩] [some ⟨.shrd, 0, some 0⟩]) (.lockShared 0)).isSome ∧
    step (St.mk [⟨true, 0, 5⟩] [some ⟨.excl, 0, some 0⟩]) (.lockShared 0) = none :=
  ⟨⟨[.lockShared 0], rfl⟩, rfl, rfl⟩

/-- **C10.** `try_lock()` never blocks. It succeeds only if no live guard keeps the mutex locked, and then always unless
the attempt fails spuriously; a failed attempt changes nothing. -/
theorem try_lock_spec {vs : List α} {s : St α} (hr : Reachable vs s) {m : Nat} (hm : m < s.locks.length) (sp : Bool) :
    ∃ s' b, step s (.tryLock m sp) = some (s', .bool b) ∧
      (b = true ↔ (∀ i k, ¬ Owns s i k m) ∧ sp = false) ∧ (b = false → s' = s) ∧
      (b = true → step s (.lock m) = some (s', .unit)) := by
  have hi := inv_reach hr
  have hl : s.locks[m]? = some s.locks[m] := List.getElem?_eq_getElem hm
  have hf := free_iff hi hl
  simp only [step, hl]
  by_cases h : s.locks[m].writer = false ∧ s.locks[m].readers = 0 ∧ sp = false
  · rw [if_pos h]
    refine ⟨_, _, rfl, ⟨fun _ => ⟨hf.1 ⟨h.1, h.2.1⟩, h.2.2⟩, fun _ => rfl⟩, by simp, fun _ => ?_⟩
    rw [if_pos ⟨h.1, h.2.1⟩]
  · rw [if_neg h]
    refine ⟨_, _, rfl, ⟨by simp, fun hx => ?_⟩, fun _ => rfl, by simp⟩
    exact absurd ⟨(hf.2 hx.1).1, (hf.2 hx.1).2, hx.2⟩ h

example : (step (init [5, 6]) (.tryLock 1 false)).map (·.2) = some (.bool true) ∧
    step (init [5, 6]) (.tryLock 1 true) = some (init [5, 6], .bool false) ∧ Reachable [5, 6] (init [5, 6]) :=
  ⟨rfl, rfl, [], rfl⟩

/-- **C11.** `try_lock_shared()` never blocks. It succeeds only if no live guard keeps the mutex locked exclusively, and
then always unless the attempt fails spuriously; a failed attempt changes nothing. -/
theorem try_lock_shared_spec {vs : List α} {s : St α} (hr : Reachable vs s) {m : Nat} (hm : m < s.locks.length)
    (sp : Bool) :
    ∃ s' b, step s (.tryLockShared m sp) = some (s', .bool b) ∧
      (b = true ↔ (∀ i, ¬ Owns s i .excl m) ∧ sp = false) ∧ (b = false → s' = s) ∧
      (b = true → step s (.lockShared m) = some (s', .unit)) := by
  have hi := inv_reach hr
  have hl : s.locks[m]? = some s.locks[m] := List.getElem?_eq_getElem hm
  have hw := writer_iff hi hl
  simp only [step, hl]
  by_cases h : s.locks[m].writer = false ∧ sp = false
  · rw [if_pos h]
    refine ⟨_, _, rfl, ⟨fun _ => ⟨fun i ho => ?_, h.2⟩, fun _ => rfl⟩, by simp, fun _ => ?_⟩
    · have := hw.2 ⟨i, ho⟩; simp [h.1] at this
    · rw [if_pos h.1]
  · rw [if_neg h]
    refine ⟨_, _, rfl, ⟨by simp, fun hx => ?_⟩, fun _ => rfl, by simp⟩
    cases hc : s.locks[m].writer with
    | false => exact absurd ⟨hc, hx.2⟩ h
    | true => obtain ⟨i, ho⟩ := hw.1 hc; exact absurd ho (hx.1 i)

example : Reachable [5] (St.mk [⟨false, 2, 5⟩] [some ⟨.shrd, 0, some 0⟩, some ⟨.shrd, 0, some 0⟩]) :=
  ⟨[.lockShared 0, .tryLockShared 0 false], rfl⟩

/-! ### What each operation does to ownership -/

/-- Ownership after appending a guard. -/
theorem owns_snoc {s : St α} {ls : List (Lk α)} {x : Guard} {j k m} :
    Owns ⟨ls, s.guards ++ [some x]⟩ j k m ↔ Owns s j k m ∨ (j = s.guards.length ∧ x.kind = k ∧ x.owns = some m) := by
  simp only [Owns, List.getElem?_append]
  constructor
  · rintro ⟨g, hg, hk, ho⟩
    split at hg
    · exact .inl ⟨g, hg, hk, ho⟩
    · rw [List.getElem?_singleton] at hg
      split at hg <;> simp at hg
      subst hg
      exact .inr ⟨by omega, hk, ho⟩
  · rintro (⟨g, hg, hk, ho⟩ | ⟨rfl, hk, ho⟩)
    · rw [if_pos (lt_of_getElem? hg)]; exact ⟨g, hg, hk, ho⟩
    · simp; exact ⟨hk, ho⟩

/-- **C10/C11.** A successful `lock` returns a new guard that keeps the mutex locked exclusively; ownership by all other
guards is unchanged and so are all values. -/
theorem lock_effect {s s' : St α} {m : Nat} {r : Res α} (h : step s (.lock m) = some (s', r)) (j : Nat) (k : Kind)
    (m' : Nat) :
    (Owns s' j k m' ↔ Owns s j k m' ∨ (j = s.guards.length ∧ k = .excl ∧ m' = m)) ∧ valueOf s' m' = valueOf s m' := by
  simp only [step] at h
  split at h
  · cases h
  · rename_i l hl
    split at h
    · injection h with h; injection h with h h2; subst h
      constructor
      · rw [St.acquire, owns_snoc]
        constructor
        · rintro (h | ⟨h1, h2, h3⟩)
          · exact .inl h
          · injection h3 with h3; exact .inr ⟨h1, h2.symm, h3.symm⟩
        · rintro (h | ⟨h1, h2, h3⟩)
          · exact .inl h
          · exact .inr ⟨h1, h2.symm, by rw [h3]⟩
      · simp only [valueOf, St.acquire, List.getElem?_set]
        split
        · rename_i he; subst he; rw [if_pos (lt_of_getElem? hl), hl]; rfl
        · rfl
    · cases h

example : step (init [5, 6]) (.lock 1) = some (St.mk [⟨false, 0, 5⟩, ⟨true, 0, 6⟩] [some ⟨.excl, 1, some 1⟩], .unit) := rfl

/-- **C11.** A successful `lock_shared` returns a new guard that keeps the mutex locked shared; nothing else changes. -/
theorem lock_shared_effect {s s' : St α} {m : Nat} {r : Res α} (h : step s (.lockShared m) = some (s', r)) (j : Nat)
    (k : Kind) (m' : Nat) :
    (Owns s' j k m' ↔ Owns s j k m' ∨ (j = s.guards.length ∧ k = .shrd ∧ m' = m)) ∧ valueOf s' m' = valueOf s m' := by
  simp only [step] at h
  split at h
  · cases h
  · rename_i l hl
    split at h
    · injection h with h; injection h with h h2; subst h
      constructor
      · rw [St.acquireShared, owns_snoc]
        constructor
        · rintro (h | ⟨h1, h2, h3⟩)
          · exact .inl h
          · injection h3 with h3; exact .inr ⟨h1, h2.symm, h3.symm⟩
        · rintro (h | ⟨h1, h2, h3⟩)
          · exact .inl h
          · exact .inr ⟨h1, h2.symm, by rw [h3]⟩
      · simp only [valueOf, St.acquireShared, List.getElem?_set]
        split
        · rename_i he; subst he; rw [if_pos (lt_of_getElem? hl), hl]; rfl
        · rfl
    · cases h

example : step (St.mk [⟨false, 1, 5⟩] [some ⟨.shrd, 0, some 0⟩]) (.lockShared 0) =
    some (St.mk [⟨false, 2, 5⟩] [some ⟨.shrd, 0, some 0⟩, some ⟨.shrd, 0, some 0⟩], .unit) := rfl

theorem owns_set {s : St α} {ls : List (Lk α)} {i : Nat} {x : Option Guard} (hi : i < s.guards.length) {j k m} :
    Owns ⟨ls, s.guards.set i x⟩ j k m ↔
      (j ≠ i ∧ Owns s j k m) ∨ (j = i ∧ ∃ g, x = some g ∧ g.kind = k ∧ g.owns = some m) := by
  simp only [Owns, List.getElem?_set]
  by_cases h : j = i
  · subst h; simp [hi]
  · have : ¬ i = j := fun e => h e.symm
    simp [h, this]

/-- **C10/C11.** Move-constructing a guard: the new guard takes over exactly what the old one owned, the old one owns
nothing, the lock is not released in between and nothing else changes. -/
theorem move_ctor_effect {s s' : St α} {i : Nat} {r : Res α} (h : step s (.moveCtor i) = some (s', r)) :
    (∀ k m, Owns s' s.guards.length k m ↔ Owns s i k m) ∧ (∀ k m, ¬ Owns s' i k m) ∧
    (∀ j k m, j ≠ i → j ≠ s.guards.length → (Owns s' j k m ↔ Owns s j k m)) ∧ s'.locks = s.locks := by
  simp only [step] at h
  split at h
  · rename_i g hg
    injection h with h; injection h with h h2; subst h
    have hlt := lt_of_getElem? hg
    have key : ∀ j k m, Owns (St.mk s.locks (s.guards.set i (some { g with owns := none }) ++ [some g])) j k m ↔
        (j ≠ i ∧ Owns s j k m) ∨ (j = s.guards.length ∧ g.kind = k ∧ g.owns = some m) := by
      intro j k m
      rw [owns_snoc (s := ⟨s.locks, s.guards.set i (some { g with owns := none })⟩), owns_set hlt]
      simp
    refine ⟨fun k m => ?_, fun k m => ?_, fun j k m hj hj' => ?_, rfl⟩
    · rw [key]
      constructor
      · rintro (⟨_, g', hg', _⟩ | ⟨_, hk, ho⟩)
        · have := lt_of_getElem? hg'; omega
        · exact ⟨g, hg, hk, ho⟩
      · rintro ⟨g', hg', hk, ho⟩
        rw [hg] at hg'; injection hg' with hg'; injection hg' with hg'; subst hg'
        exact .inr ⟨rfl, hk, ho⟩
    · rw [key]; rintro (⟨h, _⟩ | ⟨h, _⟩)
      · exact h rfl
      · omega
    · rw [key]; simp [hj, hj']
  · cases h

example : step (St.mk [⟨true, 0, 5⟩] [some ⟨.excl, 0, some 0⟩]) (.moveCtor 0) =
    some (St.mk [⟨true, 0, 5⟩] [some ⟨.excl, 0, none⟩, some ⟨.excl, 0, some 0⟩], .unit) := rfl

theorem unlock_value {s : St α} {i : Nat} {g : Guard} (m : Nat) : valueOf (s.unlock i g) m = valueOf s m := by
  unfold St.unlock
  split
  · rfl
  · split
    · rfl
    · rename_i m' l hl
      split <;>
      · simp only [valueOf, List.getElem?_set]
        split
        · rename_i he; subst he; rw [if_pos (lt_of_getElem? hl), hl]; rfl
        · rfl

/-- **C10/C11.** Destroying a guard releases exactly what it kept locked. -/
theorem destroy_effect {vs : List α} {s s' : St α} (hr : Reachable vs s) {i : Nat} {r : Res α}
    (h : step s (.destroy i) = some (s', r)) :
    (∀ k m, ¬ Owns s' i k m) ∧ (∀ j k m, j ≠ i → (Owns s' j k m ↔ Owns s j k m)) ∧
    ∀ m, valueOf s' m = valueOf s m := by
  have hi := inv_reach hr
  simp only [step] at h
  split at h
  · rename_i g hg
    injection h with h; injection h with h h2; subst h
    have hlt := lt_of_getElem? hg
    rw [unlock_guards hi hg, List.set_set]
    refine ⟨fun k m => ?_, fun j k m hj => ?_, fun m => unlock_value m⟩
    · rw [owns_set hlt]; simp
    · rw [owns_set hlt]; simp [hj]
  · cases h

/-- The first of two shared guards is destroyed. -/
example : Reachable [5] (St.mk [⟨false, 2, 5⟩] [some ⟨.shrd, 0, some 0⟩, some ⟨.shrd, 0, some 0⟩]) ∧
    step (St.mk [⟨false, 2, 5⟩] [some ⟨.shrd, 0, some 0⟩, some ⟨.shrd, 0, some 0⟩]) (.destroy 0) =
      some (St.mk [⟨false, 1, 5⟩] [none, some ⟨.shrd, 0, some 0⟩], .unit) :=
  ⟨⟨[.lockShared 0, .lockShared 0], rfl⟩, rfl⟩

/-- **C10/C11.** Move-assigning a guard onto another one releases what the target kept locked; the target then owns what
the source owned and the source owns nothing. -/
theorem move_assign_effect {vs : List α} {s s' : St α} (hr : Reachable vs s) {d i : Nat} (hne : d ≠ i) {r : Res α}
    (h : step s (.moveAssign d i) = some (s', r)) :
    (∀ k m, Owns s' d k m ↔ Owns s i k m) ∧ (∀ k m, ¬ Owns s' i k m) ∧
    (∀ j k m, j ≠ d → j ≠ i → (Owns s' j k m ↔ Owns s j k m)) ∧ ∀ m, valueOf s' m = valueOf s m := by
  have hi := inv_reach hr
  simp only [step] at h
  split at h
  · rename_i gd gs hd hs
    split at h
    · rename_i hk
      rw [unlock_guards hi hd, List.getElem?_set_ne hne, hs] at h
      dsimp only at h
      injection h with h; injection h with h h2; subst h
      have hltd := lt_of_getElem? hd
      have hlti := lt_of_getElem? hs
      have key : ∀ j k m, Owns (St.mk (s.unlock d gd).locks (((s.guards.set d (some { gd with owns := none })).set i
          (some { gs with owns := none })).set d (some ⟨gd.kind, gs.ptr, gs.owns⟩))) j k m ↔
          (j ≠ d ∧ j ≠ i ∧ Owns s j k m) ∨ (j = d ∧ gd.kind = k ∧ gs.owns = some m) := by
        intro j k m
        rw [owns_set (s := ⟨s.locks, (s.guards.set d (some { gd with owns := none })).set i
          (some { gs with owns := none })⟩) (by simpa using hltd),
          owns_set (s := ⟨s.locks, s.guards.set d (some { gd with owns := none })⟩) (by simpa using hlti),
          owns_set hltd]
        simp
        grind
      refine ⟨fun k m => ?_, fun k m => ?_, fun j k m hj hj' => ?_, fun m => unlock_value m⟩
      · rw [key]
        constructor
        · rintro (⟨hx, _⟩ | ⟨_, hk', ho⟩)
          · exact absurd rfl hx
          · exact ⟨gs, hs, hk ▸ hk', ho⟩
        · rintro ⟨g', hg', hk', ho⟩
          rw [hs] at hg'; injection hg' with hg'; injection hg' with hg'; subst hg'
          exact .inr ⟨rfl, hk.trans hk', ho⟩
      · rw [key]; rintro (⟨_, hx, _⟩ | ⟨hx, _⟩)
        · exact hx rfl
        · exact hne hx.symm
      · rw [key]; simp [hj, hj']
    · cases h
  · cases h

/-- The guard of mutex 1 is assigned to the guard of mutex 0, which is thereby unlocked. -/
example : Reachable [5, 6] (St.mk [⟨true, 0, 5⟩, ⟨true, 0, 6⟩] [some ⟨.excl, 0, some 0⟩, some ⟨.excl, 1, some 1⟩]) ∧
    step (St.mk [⟨true, 0, 5⟩, ⟨true, 0, 6⟩] [some ⟨.excl, 0, some 0⟩, some ⟨.excl, 1, some 1⟩]) (.moveAssign 0 1) =
      some (St.mk [⟨false, 0, 5⟩, ⟨true, 0, 6⟩] [some ⟨.excl, 1, some 1⟩, some ⟨.excl, 1, none⟩], .unit) :=
  ⟨⟨[.lock 0, .lock 1], rfl⟩, rfl⟩

/-- **C10/C11.** When every guard has been destroyed, every mutex is free: `lock()` succeeds on each. -/
theorem all_guards_gone_free {vs : List α} {s : St α} (hr : Reachable vs s) (hg : ∀ x ∈ s.guards, x = none) {m : Nat}
    (hm : m < s.locks.length) : ∃ r, step s (.lock m) = some r := by
  rw [lock_iff_free hr hm]
  rintro i k ⟨g, h, _⟩
  have := hg _ (List.mem_of_getElem? h)
  cases this

example : Reachable [5] (St.mk [⟨false, 0, 8⟩] [none, none]) ∧ ∀ x ∈ (St.mk [⟨false, 0, 8⟩] [none, none]).guards, x = none :=
  ⟨⟨[.lock 0, .write 0 8, .moveCtor 0, .destroy 0, .destroy 1], rfl⟩, by simp⟩

/-! ### Access to the value -/

/-- An operation is a disciplined access if it goes through a guard that owns the mutex of the value it accesses, i.e. the
guard has not been moved from. Operations that are not accesses are disciplined. -/
def Disciplined (s : St α) : Op α → Prop
  | .read i => ∃ k m, Owns s i k m
  | .write i _ => ∃ k m, Owns s i k m
  | _ => True

/-- The operation goes through guard `i`, moves from it, assigns to it or destroys it. -/
def Uses (i : Nat) : Op α → Prop
  | .moveCtor j => j = i
  | .moveAssign d j => d = i ∨ j = i
  | .destroy j => j = i
  | .write j _ => j = i
  | _ => False

/-- Values change only by writes. -/
theorem value_step {vs : List α} {s s' : St α} (hr : Reachable vs s) {o : Op α} {r : Res α}
    (h : step s o = some (s', r)) (hw : ∀ i v, o ≠ .write i v) (m : Nat) : valueOf s' m = valueOf s m := by
  cases o with
  | lock m' => exact (lock_effect h 0 .excl m).2
  | lockShared m' => exact (lock_shared_effect h 0 .excl m).2
  | tryLock m' sp =>
    by_cases hm : m' < s.locks.length
    · obtain ⟨s2, b, e, _, h2, h3⟩ := try_lock_spec hr hm sp
      rw [h] at e; injection e with e; injection e with e e2; subst e
      cases b with
      | false => rw [h2 rfl]
      | true => exact (lock_effect (h3 rfl) 0 .excl m).2
    · simp [step, List.getElem?_eq_none (Nat.le_of_not_lt hm)] at h
  | tryLockShared m' sp =>
    by_cases hm : m' < s.locks.length
    · obtain ⟨s2, b, e, _, h2, h3⟩ := try_lock_shared_spec hr hm sp
      rw [h] at e; injection e with e; injection e with e e2; subst e
      cases b with
      | false => rw [h2 rfl]
      | true => exact (lock_shared_effect (h3 rfl) 0 .excl m).2
    · simp [step, List.getElem?_eq_none (Nat.le_of_not_lt hm)] at h
  | moveCtor i => rw [valueOf, (move_ctor_effect h).2.2.2]; rfl
  | moveAssign d i =>
    simp only [step] at h
    split at h
    · split at h
      · split at h
        · injection h with h; injection h with h h2; subst h; exact unlock_value m
        · cases h
      · cases h
    · cases h
  | destroy i => exact (destroy_effect hr h).2.2 m
  | read i =>
    simp only [step] at h
    split at h
    · split at h
      · injection h with h; injection h with h h2; subst h; rfl
      · cases h
    · cases h
  | write i v => exact absurd rfl (hw i v)

/-- **C10/C11.** A guard that owns a mutex accesses the value of that mutex: a read returns it, a write through an
exclusive guard replaces it and nothing else. A shared guard cannot write. -/
theorem access_effect {vs : List α} {s : St α} (hr : Reachable vs s) {i m : Nat} {k : Kind} (ho : Owns s i k m) :
    (∃ v, valueOf s m = some v ∧ step s (.read i) = some (s, .val v)) ∧
    (k = .excl → ∀ v, ∃ s', step s (.write i v) = some (s', .unit) ∧ valueOf s' m = some v ∧
      (∀ m', m' ≠ m → valueOf s' m' = valueOf s m') ∧ s'.guards = s.guards) ∧
    (k = .shrd → ∀ v, step s (.write i v) = none) := by
  have hi := inv_reach hr
  obtain ⟨l, hl⟩ := owns_lock hi ho
  obtain ⟨g, hg, hk, hgo⟩ := ho
  have hp := (hi.ptr i g m hg hgo).1
  refine ⟨⟨l.value, by simp [valueOf, hl], by simp [step, hg, hp, hl]⟩, ?_, ?_⟩
  · intro he v
    rw [he] at hk
    have hlt := lt_of_getElem? hl
    refine ⟨{ s with locks := s.locks.set m { l with value := v } }, by simp only [step, hg, hk, hp, hl], ?_, ?_, rfl⟩
    · simp [valueOf, hlt]
    · intro m' hm'
      simp only [valueOf]
      rw [List.getElem?_set_ne (fun e => hm' e.symm)]
  · intro he v
    rw [he] at hk
    simp [step, hg, hk]

example : Reachable [5, 6] (St.mk [⟨true, 0, 5⟩, ⟨false, 1, 6⟩] [some ⟨.excl, 0, some 0⟩, some ⟨.shrd, 1, some 1⟩]) ∧
    Owns (St.mk [⟨true, 0, 5⟩, ⟨false, 1, 6⟩] [some ⟨.excl, 0, some 0⟩, some ⟨.shrd, 1, some 1⟩]) 0 .excl 0 ∧
    Owns (St.mk [⟨true, 0, 5⟩, ⟨false, 1, 6⟩] [some ⟨.excl, 0, some 0⟩, some ⟨.shrd, 1, some 1⟩]) 1 .shrd 1 :=
  ⟨⟨[.lock 0, .lockShared 1], rfl⟩, ⟨_, rfl, rfl, rfl⟩, _, rfl, rfl, rfl⟩

/-- One step of `owner_value_stable`. -/
theorem stable_step {vs : List α} {s s' : St α} (hr : Reachable vs s) {i m : Nat} {k : Kind} (ho : Owns s i k m)
    {o : Op α} {r : Res α} (h : step s o = some (s', r)) (hu : ¬ Uses i o) (hd : Disciplined s o) :
    valueOf s' m = valueOf s m ∧ Owns s' i k m := by
  have hlen : i ≠ s.guards.length := by
    obtain ⟨g, hg, _⟩ := ho; have := lt_of_getElem? hg; omega
  cases o with
  | write j v =>
    have hji : j ≠ i := fun e => hu e
    obtain ⟨k', m', hj⟩ := hd
    have hmm : m' ≠ m := by
      intro e; subst e
      cases k' with
      | excl => exact hji (guard_exclusive hr hj ho).1
      | shrd => rw [(access_effect hr hj).2.2 rfl] at h; cases h
    cases k' with
    | shrd => rw [(access_effect hr hj).2.2 rfl] at h; cases h
    | excl =>
      obtain ⟨s2, e, _, h2, h3⟩ := (access_effect hr hj).2.1 rfl v
      rw [h] at e; injection e with e; injection e with e _; subst e
      refine ⟨h2 m (fun e => hmm e.symm), ?_⟩
      unfold Owns; rw [h3]; exact ho
  | lock m' => exact ⟨value_step hr h (by simp) m, ((lock_effect h i k m).1).2 (.inl ho)⟩
  | lockShared m' => exact ⟨value_step hr h (by simp) m, ((lock_shared_effect h i k m).1).2 (.inl ho)⟩
  | tryLock m' sp =>
    refine ⟨value_step hr h (by simp) m, ?_⟩
    by_cases hm : m' < s.locks.length
    · obtain ⟨s2, b, e, _, h2, h3⟩ := try_lock_spec hr hm sp
      rw [h] at e; injection e with e; injection e with e e2; subst e
      cases b with
      | false => rw [h2 rfl]; exact ho
      | true => exact ((lock_effect (h3 rfl) i k m).1).2 (.inl ho)
    · simp [step, List.getElem?_eq_none (Nat.le_of_not_lt hm)] at h
  | tryLockShared m' sp =>
    refine ⟨value_step hr h (by simp) m, ?_⟩
    by_cases hm : m' < s.locks.length
    · obtain ⟨s2, b, e, _, h2, h3⟩ := try_lock_shared_spec hr hm sp
      rw [h] at e; injection e with e; injection e with e e2; subst e
      cases b with
      | false => rw [h2 rfl]; exact ho
      | true => exact ((lock_shared_effect (h3 rfl) i k m).1).2 (.inl ho)
    · simp [step, List.getElem?_eq_none (Nat.le_of_not_lt hm)] at h
  | moveCtor j =>
    refine ⟨value_step hr h (by simp) m, ?_⟩
    exact ((move_ctor_effect h).2.2.1 i k m (fun e => hu e.symm) hlen).2 ho
  | moveAssign d j =>
    refine ⟨value_step hr h (by simp) m, ?_⟩
    have hid : i ≠ d := fun e => hu (.inl e.symm)
    have hj : i ≠ j := fun e => hu (.inr e.symm)
    by_cases hdj : d = j
    · -- self-assignment of another guard
      subst hdj
      have hi := inv_reach hr
      simp only [step] at h
      split at h
      · rename_i gd gs hgd hgs
        split at h
        · rw [unlock_guards hi hgd, List.getElem?_set_self (lt_of_getElem? hgd)] at h
          dsimp only at h
          injection h with h; injection h with h _; subst h
          rw [List.set_set, List.set_set]
          rw [owns_set (lt_of_getElem? hgd)]
          exact .inl ⟨hid, ho⟩
        · cases h
      · cases h
    · exact ((move_assign_effect hr hdj h).2.2.1 i k m hid hj).2 ho
  | destroy j =>
    refine ⟨value_step hr h (by simp) m, ?_⟩
    exact ((destroy_effect hr h).2.1 i k m (fun e => hu e.symm)).2 ho
  | read j =>
    refine ⟨value_step hr h (by simp) m, ?_⟩
    simp only [step] at h
    split at h
    · split at h
      · injection h with h; injection h with h h2; subst h; exact ho
      · cases h
    · cases h

theorem run_append {ops : List (Op α)} {o : Op α} : ∀ {s s' : St α} {r}, run s ops = some s' → step s' o = some r →
    run s (ops ++ [o]) = some r.1 := by
  induction ops with
  | nil => intro s s' r h h2; simp [run] at h; subst h; simp [run, h2]
  | cons a os ih =>
    intro s s' r h h2
    simp only [run, Option.bind_eq_some_iff, List.cons_append] at h ⊢
    obtain ⟨r1, h1, h3⟩ := h
    exact ⟨r1, h1, ih h3 h2⟩

theorem reach_step {vs : List α} {s : St α} (hr : Reachable vs s) {o : Op α} {r} (h : step s o = some r) :
    Reachable vs r.1 := by
  obtain ⟨ops, hr⟩ := hr
  exact ⟨_, run_append hr h⟩

/-- An execution in which every access is disciplined and no operation uses guard `i`. -/
def OthersRun (i : Nat) : St α → List (Op α) → Prop
  | _, [] => True
  | s, o :: os => ¬ Uses i o ∧ Disciplined s o ∧ ∀ r, step s o = some r → OthersRun i r.1 os

/-- **C10/C11 (isolation).** While a guard keeps a mutex locked, exclusively or shared, whatever all the others do, for
however many steps, the value it protects stays unchanged and the guard keeps its lock - provided nobody
dereferences a guard that has been moved from. -/
theorem owner_value_stable_partial {vs : List α} {ops : List (Op α)} : ∀ {s s' : St α} (_ : Reachable vs s) {i m : Nat}
    {k : Kind} (_ : Owns s i k m) (_ : run s ops = some s') (_ : OthersRun i s ops),
    valueOf s' m = valueOf s m ∧ Owns s' i k m := by
  induction ops with
  | nil => intro s s' _ i m k ho h _; simp [run] at h; subst h; exact ⟨rfl, ho⟩
  | cons o os ih =>
    intro s s' hr i m k ho h hd
    simp only [run, Option.bind_eq_some_iff] at h
    obtain ⟨r, h1, h2⟩ := h
    have hst := stable_step hr ho (r := r.2) (s' := r.1) h1 hd.1 hd.2.1
    have := ih (reach_step hr h1) hst.2 h2 (hd.2.2 r h1)
    exact ⟨this.1.trans hst.1, this.2⟩

/-- The hypotheses are met by a run in which another mutex is used and a lock attempt fails. -/
example : run (St.mk [⟨true, 0, 5⟩, ⟨false, 0, 7⟩] [some ⟨.excl, 0, some 0⟩])
      [Op.lock 1, .write 1 8, .tryLock 0 false, .destroy 1] =
    some (St.mk [⟨true, 0, (5 : Nat)⟩, ⟨false, 0, 8⟩] [some ⟨.excl, 0, some 0⟩, none]) := rfl
example : OthersRun 0 (St.mk [⟨true, 0, 5⟩, ⟨false, 0, (7 : Nat)⟩] [some ⟨.excl, 0, some 0⟩])
      [.lock 1, .write 1 8, .tryLock 0 false, .destroy 1] := by
  refine ⟨by simp [Uses], trivial, ?_⟩
  rintro r hr; cases hr
  refine ⟨by simp [Uses], ⟨.excl, 1, _, rfl, rfl, rfl⟩, ?_⟩
  rintro r hr; cases hr
  refine ⟨by simp [Uses], trivial, ?_⟩
  rintro r hr; cases hr
  exact ⟨by simp [Uses], trivial, fun _ _ => trivial⟩

/-- **C10/C11, refuted in full generality.** Without the restriction on moved-from guards isolation fails: a guard that
was moved from still gives access to the value, although another guard has it locked
exclusively. -/
theorem owner_value_stable_refuted :
    ∃ (s s' : St Nat) (r : Res Nat), Reachable [5] s ∧ Owns s 1 .excl 0 ∧ (∀ k m, ¬ Owns s 0 k m) ∧
      step s (.write 0 9) = some (s', r) ∧ valueOf s 0 = some 5 ∧ valueOf s' 0 = some 9 := by
  refine ⟨St.mk [⟨true, 0, 5⟩] [some ⟨.excl, 0, none⟩, some ⟨.excl, 0, some 0⟩], _, _,
    ⟨[.lock 0, .moveCtor 0], rfl⟩, ⟨_, rfl, rfl, rfl⟩, ?_, rfl, rfl, rfl⟩
  rintro k m ⟨g, hg, _, ho⟩
  simp at hg; subst hg; cases ho

/-! ### Readers -/

/-- **C11.** Any number of shared guards coexist: the number of guards that keep the mutex locked shared grows by one with
every `lock_shared`, and `lock()` stays blocked until the last of them is gone. -/
theorem shared_blocks_writer {vs : List α} {s : St α} (hr : Reachable vs s) {i m : Nat} (ho : Owns s i .shrd m) :
    step s (.lock m) = none ∧ (∃ r, step s (.lockShared m) = some r) ∧
    (∀ sp, ∃ r, step s (.tryLock m sp) = some (s, r) ∧ r = .bool false) := by
  have hi := inv_reach hr
  obtain ⟨l, hl⟩ := owns_lock hi ho
  have hm := lt_of_getElem? hl
  refine ⟨?_, ?_, ?_⟩
  · cases h : step s (.lock m) with
    | none => rfl
    | some r => exact absurd ho ((lock_iff_free hr hm).1 ⟨r, h⟩ i .shrd)
  · rw [lock_shared_iff hr hm]
    intro j hj
    have := (guard_exclusive hr hj ho).2
    cases this
  · intro sp
    obtain ⟨s', b, e, h1, h2, _⟩ := try_lock_spec hr hm sp
    cases b with
    | false => rw [h2 rfl] at e; exact ⟨_, e, rfl⟩
    | true => exact absurd ho ((h1.1 rfl).1 i .shrd)

example : Reachable [5] (St.mk [⟨false, 1, 5⟩] [some ⟨.shrd, 0, some 0⟩]) ∧
    Owns (St.mk [⟨false, 1, 5⟩] [some ⟨.shrd, 0, some 0⟩]) 0 .shrd 0 := ⟨⟨[.lockShared 0], rfl⟩, _, rfl, rfl, rfl⟩

end Verif.Guards
