import Verif.Guards.Model
import Verif.Channel.Wake

/-! Invariant of the guards model. -/
namespace Verif.Guards

open Verif.Channel (countP_set' lt_of_getElem? getElem?_set')

variable {α : Type}

/-- The live guard `x` owns mutex `m` with kind `k`. -/
def ownsAs (k : Kind) (m : Nat) : Option Guard → Bool
  | some g => decide (g.kind = k) && decide (g.owns = some m)
  | none => false

theorem ownsAs_iff {k m g} : ownsAs k m (some g) = true ↔ g.kind = k ∧ g.owns = some m := by
  simp [ownsAs]

structure Inv (s : St α) : Prop where
  excl : ∀ (m : Nat) l, s.locks[m]? = some l → s.guards.countP (ownsAs .excl m) = (if l.writer then 1 else 0)
  shrd : ∀ (m : Nat) l, s.locks[m]? = some l → s.guards.countP (ownsAs .shrd m) = l.readers
  rw : ∀ (m : Nat) l, s.locks[m]? = some l → l.writer = true → l.readers = 0
  ptr : ∀ (i : Nat) g m, s.guards[i]? = some (some g) → g.owns = some m → g.ptr = m ∧ m < s.locks.length

theorem inv_init (vs : List α) : Inv (init vs) := by
  constructor
  · intro m l h; simp [init] at h ⊢; obtain ⟨v, _, rfl⟩ := h; rfl
  · intro m l h; simp [init] at h ⊢; obtain ⟨v, _, rfl⟩ := h; rfl
  · intro m l h; simp [init] at h ⊢; obtain ⟨v, _, rfl⟩ := h; simp
  · intro i g m h; simp [init] at h

theorem countP_snoc {β : Type} (p : β → Bool) (l : List β) (x : β) :
    (l ++ [x]).countP p = l.countP p + (if p x then 1 else 0) := by
  simp [List.countP_append, List.countP_cons]

theorem inv_acquire {s : St α} (hi : Inv s) {m : Nat} {l : Lk α} (hl : s.locks[m]? = some l) (hw : l.writer = false)
    (hr : l.readers = 0) : Inv (s.acquire m l) := by
  have hlt := lt_of_getElem? hl
  constructor
  · intro m' l' h
    simp only [St.acquire] at h ⊢
    rw [countP_snoc]
    rcases getElem?_set' hl h with ⟨rfl, rfl⟩ | ⟨hne, h⟩
    · have := hi.excl _ _ hl
      rw [hw] at this
      have e : ownsAs .excl m' (some ⟨.excl, m', some m'⟩) = true := by simp [ownsAs]
      rw [this, e]; rfl
    · rw [hi.excl _ _ h]
      have : ownsAs .excl m' (some ⟨.excl, m, some m⟩) = false := by simp [ownsAs]; omega
      simp [this]
  · intro m' l' h
    simp only [St.acquire] at h ⊢
    rw [countP_snoc]
    have : ownsAs .shrd m' (some ⟨.excl, m, some m⟩) = false := by simp [ownsAs]
    rw [this]
    rcases getElem?_set' hl h with ⟨rfl, rfl⟩ | ⟨hne, h⟩
    · simpa using hi.shrd _ _ hl
    · simpa using hi.shrd _ _ h
  · intro m' l' h
    simp only [St.acquire] at h
    rcases getElem?_set' hl h with ⟨rfl, rfl⟩ | ⟨hne, h⟩
    · intro _; exact hr
    · exact hi.rw _ _ h
  · intro i g m' h
    simp only [St.acquire, List.length_set] at h ⊢
    rw [List.getElem?_append] at h
    split at h
    · exact hi.ptr i g m' h
    · rename_i hge
      rw [List.getElem?_singleton] at h
      split at h <;> simp at h
      subst h
      intro h; simp at h; subst h; exact ⟨rfl, hlt⟩

theorem inv_acquireShared {s : St α} (hi : Inv s) {m : Nat} {l : Lk α} (hl : s.locks[m]? = some l)
    (hw : l.writer = false) : Inv (s.acquireShared m l) := by
  have hlt := lt_of_getElem? hl
  constructor
  · intro m' l' h
    simp only [St.acquireShared] at h ⊢
    rw [countP_snoc]
    have : ownsAs .excl m' (some ⟨.shrd, m, some m⟩) = false := by simp [ownsAs]
    rw [this]
    rcases getElem?_set' hl h with ⟨rfl, rfl⟩ | ⟨hne, h⟩
    · simpa using hi.excl _ _ hl
    · simpa using hi.excl _ _ h
  · intro m' l' h
    simp only [St.acquireShared] at h ⊢
    rw [countP_snoc]
    rcases getElem?_set' hl h with ⟨rfl, rfl⟩ | ⟨hne, h⟩
    · simp [hi.shrd _ _ hl, ownsAs]
    · rw [hi.shrd _ _ h]
      have : ownsAs .shrd m' (some ⟨.shrd, m, some m⟩) = false := by simp [ownsAs]; omega
      simp [this]
  · intro m' l' h
    simp only [St.acquireShared] at h
    rcases getElem?_set' hl h with ⟨rfl, rfl⟩ | ⟨hne, h⟩
    · intro h; simp [hw] at h
    · exact hi.rw _ _ h
  · intro i g m' h
    simp only [St.acquireShared, List.length_set] at h ⊢
    rw [List.getElem?_append] at h
    split at h
    · exact hi.ptr i g m' h
    · rename_i hge
      rw [List.getElem?_singleton] at h
      split at h <;> simp at h
      subst h
      intro h; simp at h; subst h; exact ⟨rfl, hlt⟩

theorem set_self {β : Type} {l : List β} {i : Nat} {x : β} (h : l[i]? = some x) : l.set i x = l := by
  apply List.ext_getElem?
  intro j
  rw [List.getElem?_set]
  have := lt_of_getElem? h
  split
  · subst_vars; exact h.symm
  · rfl

/-- What `unlock` does to the guards. -/
theorem unlock_guards {s : St α} (hi : Inv s) {i : Nat} {g : Guard} (hg : s.guards[i]? = some (some g)) :
    (s.unlock i g).guards = s.guards.set i (some { g with owns := none }) := by
  unfold St.unlock
  cases ho : g.owns with
  | none => dsimp only; rw [set_self]; rw [hg]; cases g; simp at ho; subst ho; rfl
  | some m =>
    have hlt := (hi.ptr i g m hg ho).2
    dsimp only
    rw [List.getElem?_eq_getElem hlt]
    cases g.kind <;> rfl

theorem inv_unlock {s : St α} (hi : Inv s) {i : Nat} {g : Guard} (hg : s.guards[i]? = some (some g)) :
    Inv (s.unlock i g) := by
  obtain ⟨kd, pt, ow⟩ := g
  unfold St.unlock
  dsimp only
  cases ho : ow with
  | none => exact hi
  | some m =>
    have hlt := (hi.ptr i _ m hg ho).2
    dsimp only
    have hl : s.locks[m]? = some s.locks[m] := List.getElem?_eq_getElem hlt
    rw [hl]
    generalize s.locks[m] = l at hl
    dsimp only
    have hex := fun m' => countP_set' (p := ownsAs .excl m') (x := some ⟨kd, pt, none⟩) hg
    have hsh := fun m' => countP_set' (p := ownsAs .shrd m') (x := some ⟨kd, pt, none⟩) hg
    have hptr : ∀ (j : Nat) g' m', (s.guards.set i (some ⟨kd, pt, none⟩))[j]? = some (some g') →
        g'.owns = some m' → g'.ptr = m' ∧ m' < s.locks.length := by
      intro j g' m' h h2
      rcases getElem?_set' hg h with ⟨rfl, h⟩ | ⟨_, h⟩
      · rename_i hx; injection hx with hx; subst hx; cases h2
      · exact hi.ptr j g' m' h h2
    cases hk : kd with
    | excl =>
      subst hk ho
      dsimp only
      have e0 : ∀ m', ownsAs .excl m' (some ⟨.excl, pt, some m⟩) = decide (m = m') := by intro m'; simp [ownsAs]
      have e1 : ∀ k m', ownsAs k m' (some ⟨.excl, pt, none⟩) = false := by intro k m'; simp [ownsAs]
      have e2 : ∀ m', ownsAs .shrd m' (some ⟨.excl, pt, some m⟩) = false := by intro m'; simp [ownsAs]
      constructor
      · intro m' l' h
        dsimp only at h ⊢
        have a := hex m'
        rw [e0, e1] at a
        rcases getElem?_set' hl h with ⟨rfl, rfl⟩ | ⟨hne, h⟩
        · have b := hi.excl _ _ hl
          rw [decide_eq_true rfl] at a
          simp only [if_true, Bool.false_eq_true, if_false] at a ⊢
          split at b <;> omega
        · have b := hi.excl _ _ h
          have : ¬ m = m' := fun h => hne h.symm
          simp [this] at a
          omega
      · intro m' l' h
        dsimp only at h ⊢
        have a := hsh m'
        rw [e2, e1] at a
        rcases getElem?_set' hl h with ⟨rfl, rfl⟩ | ⟨hne, h⟩
        · have b := hi.shrd _ _ hl
          simp at a ⊢; omega
        · have b := hi.shrd _ _ h
          simp at a; omega
      · intro m' l' h
        dsimp only at h ⊢
        rcases getElem?_set' hl h with ⟨rfl, rfl⟩ | ⟨hne, h⟩
        · simp
        · exact hi.rw _ _ h
      · intro j g' m' h h2
        dsimp only at h ⊢
        rw [List.length_set]
        exact hptr j g' m' h h2
    | shrd =>
      subst hk ho
      dsimp only
      have e0 : ∀ m', ownsAs .shrd m' (some ⟨.shrd, pt, some m⟩) = decide (m = m') := by intro m'; simp [ownsAs]
      have e1 : ∀ k m', ownsAs k m' (some ⟨.shrd, pt, none⟩) = false := by intro k m'; simp [ownsAs]
      have e2 : ∀ m', ownsAs .excl m' (some ⟨.shrd, pt, some m⟩) = false := by intro m'; simp [ownsAs]
      constructor
      · intro m' l' h
        dsimp only at h ⊢
        have a := hex m'
        rw [e2, e1] at a
        rcases getElem?_set' hl h with ⟨rfl, rfl⟩ | ⟨hne, h⟩
        · have b := hi.excl _ _ hl
          simp at a ⊢; omega
        · have b := hi.excl _ _ h
          simp at a; omega
      · intro m' l' h
        dsimp only at h ⊢
        have a := hsh m'
        rw [e0, e1] at a
        rcases getElem?_set' hl h with ⟨rfl, rfl⟩ | ⟨hne, h⟩
        · have b := hi.shrd _ _ hl
          simp at a ⊢; omega
        · have b := hi.shrd _ _ h
          have : ¬ m = m' := fun h => hne h.symm
          simp [this] at a
          omega
      · intro m' l' h
        dsimp only at h ⊢
        rcases getElem?_set' hl h with ⟨rfl, rfl⟩ | ⟨hne, h⟩
        · intro hw; have := hi.rw _ _ hl hw; simp; omega
        · exact hi.rw _ _ h
      · intro j g' m' h h2
        dsimp only at h ⊢
        rw [List.length_set]
        exact hptr j g' m' h h2

/-- Replacing the guards by others with the same owners keeps the invariant. -/
theorem inv_guards {s : St α} (hi : Inv s) {gs : List (Option Guard)}
    (hc : ∀ k m, gs.countP (ownsAs k m) = s.guards.countP (ownsAs k m))
    (hp : ∀ (i : Nat) g m, gs[i]? = some (some g) → g.owns = some m → g.ptr = m ∧ m < s.locks.length) :
    Inv { s with guards := gs } :=
  ⟨fun m l h => by rw [hc]; exact hi.excl m l h, fun m l h => by rw [hc]; exact hi.shrd m l h, hi.rw, hp⟩

theorem inv_step {s : St α} {o : Op α} {r} (hi : Inv s) (h : step s o = some r) : Inv r.1 := by
  cases o with
  | lock m =>
    simp only [step] at h
    split at h
    · simp at h
    · rename_i l hl
      split at h <;> simp at h
      rename_i hc
      subst h; exact inv_acquire hi hl hc.1 hc.2
  | tryLock m sp =>
    simp only [step] at h
    split at h
    · simp at h
    · rename_i l hl
      split at h <;> simp at h <;> subst h
      · rename_i hc
        exact inv_acquire hi hl hc.1 hc.2.1
      · exact hi
  | lockShared m =>
    simp only [step] at h
    split at h
    · simp at h
    · rename_i l hl
      split at h <;> simp at h
      rename_i hc
      subst h; exact inv_acquireShared hi hl hc
  | tryLockShared m sp =>
    simp only [step] at h
    split at h
    · simp at h
    · rename_i l hl
      split at h <;> simp at h <;> subst h
      · rename_i hc
        exact inv_acquireShared hi hl hc.1
      · exact hi
  | moveCtor i =>
    simp only [step] at h
    split at h <;> simp at h
    rename_i g hg
    subst h
    apply inv_guards hi
    · intro k m
      rw [countP_snoc]
      have a := countP_set' (p := ownsAs k m) (x := some { g with owns := none }) hg
      have e : ownsAs k m (some { g with owns := none }) = false := by simp [ownsAs]
      rw [e] at a
      simpa using a
    · intro j g' m hj ho
      rw [List.getElem?_append] at hj
      split at hj
      · rcases getElem?_set' hg hj with ⟨rfl, hx⟩ | ⟨_, hj⟩
        · injection hx with hx; subst hx; cases ho
        · exact hi.ptr j g' m hj ho
      · rw [List.getElem?_singleton] at hj
        split at hj <;> simp at hj
        subst hj; exact hi.ptr i _ m hg ho
  | moveAssign d i =>
    simp only [step] at h
    split at h
    · rename_i gd gs hd hs
      split at h
      · rename_i hk
        have hi1 := inv_unlock hi hd
        have hg1 := unlock_guards hi hd
        split at h <;> simp at h
        rename_i gs' hs'
        subst h
        have hd1 : (s.unlock d gd).guards[d]? = some (some { gd with owns := none }) := by
          rw [hg1, List.getElem?_set_self (lt_of_getElem? hd)]
        have hkind : gs'.kind = gs.kind ∧ gs'.ptr = gs.ptr := by
          rw [hg1] at hs'
          rcases getElem?_set' hd hs' with ⟨rfl, h⟩ | ⟨_, h⟩
          · rw [hd] at hs; injection hs with hs; injection hs with hs
            subst hs
            injection h with h; subst h; exact ⟨rfl, rfl⟩
          · rw [hs] at h; injection h with h; injection h with h; subst h; exact ⟨rfl, rfl⟩
        -- the destination owns nothing before it takes over
        have hd2 : ∃ g0, ((s.unlock d gd).guards.set i (some { gs' with owns := none }))[d]? = some (some g0) ∧
            g0.owns = none := by
          by_cases hdi : i = d
          · subst hdi
            exact ⟨_, List.getElem?_set_self (lt_of_getElem? hs'), rfl⟩
          · rw [List.getElem?_set_ne hdi]; exact ⟨_, hd1, rfl⟩
        obtain ⟨g0, hd2, hg0⟩ := hd2
        apply inv_guards hi1
        · intro k m
          have a := countP_set' (p := ownsAs k m) (x := some { gs' with owns := none }) hs'
          have b := countP_set' (p := ownsAs k m) (x := some ⟨gd.kind, gs.ptr, gs'.owns⟩) hd2
          have e : ownsAs k m (some { gs' with owns := none }) = false := by simp [ownsAs]
          have e0 : ownsAs k m (some g0) = false := by simp [ownsAs, hg0]
          have e1 : ownsAs k m (some ⟨gd.kind, gs.ptr, gs'.owns⟩) = ownsAs k m (some gs') := by
            simp [ownsAs, hkind.1, hk]
          rw [e] at a
          rw [e0, e1] at b
          simp at a b
          omega
        · intro j g' m hj ho
          rcases getElem?_set' hd2 hj with ⟨rfl, hx⟩ | ⟨_, hj⟩
          · injection hx with hx; subst hx
            dsimp only at ho ⊢
            have := hi1.ptr i gs' m hs' ho
            rw [hkind.2] at this
            exact this
          · rcases getElem?_set' hs' hj with ⟨rfl, hx⟩ | ⟨_, hj⟩
            · injection hx with hx; subst hx; cases ho
            · exact hi1.ptr j g' m hj ho
      · simp at h
    · simp at h
  | destroy i =>
    simp only [step] at h
    split at h <;> simp at h
    rename_i g hg
    subst h
    have hi1 := inv_unlock hi hg
    have hg1 := unlock_guards hi hg
    have hs1 : (s.unlock i g).guards[i]? = some (some { g with owns := none }) := by
      rw [hg1, List.getElem?_set_self (lt_of_getElem? hg)]
    apply inv_guards hi1
    · intro k m
      have a := countP_set' (p := ownsAs k m) (x := none) hs1
      have e : ownsAs k m (some { g with owns := none }) = false := by simp [ownsAs]
      rw [e] at a
      simpa [ownsAs] using a
    · intro j g' m hj ho
      rcases getElem?_set' hs1 hj with ⟨rfl, hx⟩ | ⟨_, hj⟩
      · cases hx
      · exact hi1.ptr j g' m hj ho
  | read i =>
    simp only [step] at h
    split at h
    · split at h <;> simp at h
      subst h; exact hi
    · simp at h
  | write i v =>
    simp only [step] at h
    split at h
    · split at h <;> simp at h
      rename_i g _ _ l hk hl
      subst h
      constructor
      · intro m' l' h
        rcases getElem?_set' hl h with ⟨rfl, rfl⟩ | ⟨hne, h⟩
        · exact hi.excl _ l hl
        · exact hi.excl _ _ h
      · intro m' l' h
        rcases getElem?_set' hl h with ⟨rfl, rfl⟩ | ⟨hne, h⟩
        · exact hi.shrd _ l hl
        · exact hi.shrd _ _ h
      · intro m' l' h
        rcases getElem?_set' hl h with ⟨rfl, rfl⟩ | ⟨hne, h⟩
        · exact hi.rw _ l hl
        · exact hi.rw _ _ h
      · intro j g' m' h ho
        dsimp only at h ⊢
        rw [List.length_set]; exact hi.ptr j g' m' h ho
    · simp at h

theorem inv_run {ops : List (Op α)} {s s' : St α} (hi : Inv s) (h : run s ops = some s') : Inv s' := by
  induction ops generalizing s with
  | nil => simp [run] at h; subst h; exact hi
  | cons o os ih =>
    simp only [run, Option.bind_eq_some_iff] at h
    obtain ⟨r, h1, h2⟩ := h
    exact ih (inv_step hi h1) h2

theorem inv_reach {vs : List α} {s : St α} (h : Reachable vs s) : Inv s := by
  obtain ⟨ops, h⟩ := h
  exact inv_run (inv_init vs) h

end Verif.Guards
