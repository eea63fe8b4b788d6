import Verif.Containers.Model

/-!
C84: containers with `pool_allocator` or `limit_allocator`.
-/
namespace Verif.Containers

/-! ### Lemmas -/

/-- Bytes of a block that come from source `c`. -/
def bytesFrom (c : Nat) : Option Blk → Nat
  | none => 0
  | some b => if b.src = c then b.bytes else 0

/-- The same for a place for containers. -/
def contFrom (c : Nat) : Option Cont → Nat
  | none => 0
  | some x => bytesFrom c x.blk

/-- Bytes that all containers own from source `c`. -/
def held (s : St) (c : Nat) : Nat := (s.conts.map (contFrom c)).sum

theorem sum_set {β : Type} (f : β → Nat) : ∀ {l : List β} {i : Nat} {x : β}, l[i]? = some x → ∀ y,
    ((l.set i y).map f).sum + f x = (l.map f).sum + f y
  | a :: l, 0, x, h, y => by simp at h; subst h; simp; omega
  | a :: l, i + 1, x, h, y => by
    simp at h
    have := sum_set f h y
    simp only [List.set_cons_succ, List.map_cons, List.sum_cons]
    omega

/-- What source `c` has left. -/
def val (left : List Nat) (c : Nat) : Nat := left[c]?.getD 0

theorem val_set {left : List Nat} {c : Nat} (h : c < left.length) (v d : Nat) : val (left.set c v) d = if c = d then v else val left d := by
  unfold val
  rw [List.getElem?_set]
  split
  · rename_i hc; subst hc; simp [h]
  · rfl

/-- The block of a container is from the source of its allocator. -/
structure Good (sentinel : Bool) (n : Nat) (c : Cont) : Prop where
  valid : ∀ x, c.h.src = some x → x < n
  blk : ∀ b, c.blk = some b → b.src < n ∧ (c.h.src = some b.src ∨ c.h.src = none ∧ sentinel = true)

structure Inv (sentinel : Bool) (limits : List Nat) (s : St) : Prop where
  len : s.left.length = limits.length
  good : ∀ (i : Nat) (c : Cont), s.conts[i]? = some (some c) → Good sentinel limits.length c
  budget : ∀ c, val s.left c + held s c = val limits c

theorem get_spec {st : Bool} {left l : List Nat} {h : Handle} {n : Nat} {up : Bool} {b : Option Blk} (hv : ∀ x, h.src = some x → x < left.length)
    (hg : get left h n up = .ok l b) : l.length = left.length ∧ (∀ c, val l c + bytesFrom c b = val left c) ∧ Good st left.length ⟨h, b⟩ ∧ size b = n := by
  unfold get at hg
  split at hg
  · injection hg with h1 h2; subst h1 h2
    rename_i hn
    exact ⟨rfl, fun c => by simp [bytesFrom], ⟨hv, fun b hb => by simp at hb⟩, by simp [size, hn]⟩
  · split at hg
    · cases hg
    · rename_i c hc
      split at hg
      · cases hg
      · rename_i v hl
        split at hg
        · rename_i hle
          injection hg with h1 h2; subst h1 h2
          have hlt := hv c hc
          refine ⟨by simp, fun d => ?_, ⟨hv, fun b hb => ?_⟩, rfl⟩
          · rw [val_set hlt]
            simp only [bytesFrom]
            split
            · rename_i hcd; subst hcd
              have : val left c = v := by simp [val, hl]
              omega
            · omega
          · simp at hb; subst hb; exact ⟨hlt, .inl hc⟩
        · cases hg

theorem put_spec {st : Bool} {left l : List Nat} {x : Cont} (hx : Good st left.length x) (hp : put left x.h x.blk = .ok l) :
    l.length = left.length ∧ ∀ c, val l c = val left c + bytesFrom c x.blk := by
  unfold put at hp
  split at hp
  · injection hp with hp; subst hp; rename_i hb; exact ⟨rfl, fun c => by rw [hb]; rfl⟩
  · rename_i b hb
    split at hp
    · cases hp
    · rename_i c hc
      split at hp
      · rename_i hcb
        injection hp with hp; subst hp
        refine ⟨by simp, fun d => ?_⟩
        rw [val_set (hx.valid c hc)]
        simp only [bytesFrom, hb]
        by_cases hcd : c = d
        · subst hcd; simp [hcb, val]
        · rw [if_neg hcd, if_neg (by rw [← hcb]; exact hcd)]; rfl
      · cases hp

theorem put_legal {st : Bool} {left : List Nat} {n : Nat} {x : Cont} (hx : Good st n x) : put left x.h x.blk ≠ .illegalFree := by
  unfold put
  split
  · simp
  · rename_i b hb
    split
    · simp
    · rename_i c hc
      rcases (hx.blk b hb).2 with h | ⟨h, _⟩
      · rw [hc] at h; injection h with h; simp [h]
      · rw [hc] at h; cases h

theorem put_ok {left : List Nat} {n : Nat} {x : Cont} (hx : Good false n x) : put left x.h x.blk ≠ .nullUse := by
  unfold put
  split
  · simp
  · rename_i b hb
    rcases (hx.blk b hb).2 with h | ⟨_, h⟩
    · simp [h]
    · cases h

/-- Overwriting one container. -/
theorem Inv.set {st : Bool} {limits : List Nat} {s : St} (hi : Inv st limits s) {i : Nat} {o : Option Cont} (ho : s.conts[i]? = some o) {l : List Nat}
    (hl : l.length = s.left.length) {y : Option Cont} (hy : ∀ c, y = some c → Good st limits.length c)
    (hb : ∀ c, val l c + contFrom c y = val s.left c + contFrom c o) : Inv st limits ⟨l, s.conts.set i y⟩ := by
  refine ⟨hl.trans hi.len, fun k c hk => ?_, fun c => ?_⟩
  · dsimp only at hk
    rw [List.getElem?_set] at hk
    split at hk
    · split at hk
      · injection hk with hk; exact hy c hk
      · cases hk
    · exact hi.good k c hk
  · have h1 := sum_set (contFrom c) ho y
    have h2 := hb c
    have h3 := hi.budget c
    simp only [held] at h3 ⊢
    omega

/-- Result of a step that keeps the invariant. -/
def Keeps (st : Bool) (limits : List Nat) : Res → Prop
  | .ok s => Inv st limits s
  | .threw s => Inv st limits s
  | .illegalFree => False
  | _ => True

theorem get_set_ne {l : List (Option Cont)} {i j : Nat} (h : i ≠ j) (y : Option Cont) : (l.set i y)[j]? = l[j]? := List.getElem?_set_ne h

theorem good_moved {st : Bool} {n : Nat} (h : Handle) : Good st n ⟨h.movedFrom, none⟩ :=
  ⟨fun x hx => by simp [Handle.movedFrom] at hx, fun b hb => by simp at hb⟩

theorem good_moved_blk {n : Nat} {h : Handle} {b : Option Blk} (hg : Good true n ⟨h, b⟩) : Good true n ⟨h.movedFrom, b⟩ :=
  ⟨fun x hx => by simp [Handle.movedFrom] at hx, fun b' hb => ⟨(hg.blk b' hb).1, .inr ⟨rfl, rfl⟩⟩⟩

theorem good_empty {st : Bool} {n : Nat} {c : Cont} (hg : Good st n c) : Good st n ⟨c.h, none⟩ := ⟨hg.valid, fun b hb => by simp at hb⟩

/-- Get new memory for a container and return the old. -/
theorem keeps_realloc {st : Bool} {limits : List Nat} {s : St} (hi : Inv st limits s) {i : Nat} {d : Cont} (hd : s.conts[i]? = some (some d)) (n : Nat) (up : Bool) :
    Keeps st limits (match get s.left d.h n up with
      | .ok l b => match put l d.h d.blk with
        | .ok l => .ok ⟨l, s.conts.set i (some ⟨d.h, b⟩)⟩
        | .nullUse => .nullUse
        | .illegalFree => .illegalFree
      | .refused => .threw s
      | .nullUse => .nullUse) := by
  have hgd := hi.good i d hd
  split
  · rename_i l b hg
    have h1 := get_spec (st := st) (fun x hx => by rw [hi.len]; exact hgd.valid x hx) hg
    rw [hi.len] at h1
    split
    · rename_i l' hp
      have h2 := put_spec (by rw [h1.1]; exact hgd) hp
      refine hi.set hd (by rw [h2.1, h1.1, hi.len]) (fun c hc => by injection hc with hc; subst hc; exact h1.2.2.1) fun c => ?_
      have h3 := h1.2.1 c
      have h4 := h2.2 c
      simp only [contFrom]; omega
    · trivial
    · rename_i hp; exact absurd hp (put_legal hgd)
  · exact hi
  · trivial

theorem Inv.step {cfg : Config} {limits : List Nat} {s : St} (hi : Inv cfg.sentinel limits s) (o : Op) : Keeps cfg.sentinel limits (step cfg s o) := by
  cases o with
  | construct i h n up =>
    simp only [Containers.step]
    split
    · rename_i h1 h2
      have hv : ∀ x, h.src = some x → x < s.left.length := by
        intro x hx; simp [Handle.valid, hx] at h2; exact h2
      split
      · rename_i l b hg
        have h3 := get_spec (st := cfg.sentinel) hv hg
        rw [hi.len] at h3
        refine hi.set h1 (by rw [h3.1, hi.len]) (fun c hc => by injection hc with hc; subst hc; exact h3.2.2.1) fun c => ?_
        have := h3.2.1 c
        simp only [contFrom]; omega
      · exact hi
      · trivial
    · trivial
  | copyConstruct i j up =>
    simp only [Containers.step]
    split
    · rename_i c h1 h2
      have hgc := hi.good j c h2
      split
      · rename_i l b hg
        have h3 := get_spec (st := cfg.sentinel) (fun x hx => by rw [hi.len]; exact hgc.valid x hx) hg
        rw [hi.len] at h3
        refine hi.set h1 (by rw [h3.1, hi.len]) (fun c hc => by injection hc with hc; subst hc; exact h3.2.2.1) fun c => ?_
        have := h3.2.1 c
        simp only [contFrom]; omega
      · exact hi
      · trivial
    · trivial
  | moveConstruct i j n up =>
    simp only [Containers.step]
    split
    · rename_i c h1 h2
      have hgc := hi.good j c h2
      have hij : j ≠ i := by rintro rfl; rw [h1] at h2; cases h2
      split
      · have hi1 : ∀ cc, val s.left cc + (((s.conts.set j (some ⟨c.h.movedFrom, none⟩)).set i (some c)).map (contFrom cc)).sum = val limits cc := by
          intro cc
          have e1 := sum_set (contFrom cc) h2 (some ⟨c.h.movedFrom, none⟩)
          have e2 := sum_set (contFrom cc) ((get_set_ne hij (some ⟨c.h.movedFrom, none⟩)).trans h1) (some c)
          have e3 := hi.budget cc
          simp only [contFrom, bytesFrom, held] at e1 e2 e3 ⊢
          omega
        refine ⟨hi.len, fun k x hk => ?_, hi1⟩
        dsimp only at hk
        rw [List.getElem?_set] at hk
        split at hk
        · split at hk
          · injection hk with hk; injection hk with hk; subst hk; exact hgc
          · cases hk
        · rw [List.getElem?_set] at hk
          split at hk
          · split at hk
            · injection hk with hk; injection hk with hk; subst hk; exact good_moved _
            · cases hk
          · exact hi.good k x hk
      · rename_i hst
        split
        · rename_i l b hg
          have h3 := get_spec (st := true) (fun x hx => by rw [hi.len]; exact hgc.valid x hx) hg
          rw [hi.len] at h3
          refine ⟨by dsimp only; rw [h3.1], fun k x hk => ?_, fun cc => ?_⟩
          · dsimp only at hk
            rw [List.getElem?_set] at hk
            split at hk
            · split at hk
              · injection hk with hk; injection hk with hk; subst hk; exact hgc
              · cases hk
            · rw [List.getElem?_set] at hk
              split at hk
              · split at hk
                · injection hk with hk; injection hk with hk; subst hk; rw [hst]; exact good_moved_blk h3.2.2.1
                · cases hk
              · exact hi.good k x hk
          · have e1 := sum_set (contFrom cc) h2 (some ⟨c.h.movedFrom, b⟩)
            have e2 := sum_set (contFrom cc) ((get_set_ne hij (some ⟨c.h.movedFrom, b⟩)).trans h1) (some c)
            have e3 := hi.budget cc
            have e4 := h3.2.1 cc
            simp only [contFrom, held] at e1 e2 e3 ⊢
            omega
        · refine hi.set h2 rfl (fun x hx => ?_) fun cc => by simp only [contFrom]
          injection hx with hx; subst hx
          rw [hst] at hgc ⊢; exact good_moved_blk hgc
        · trivial
    · trivial
  | copyAssign i j up =>
    simp only [Containers.step]
    split
    · rename_i d c h1 h2
      have hgd := hi.good i d h1
      have hgc := hi.good j c h2
      split
      · exact hi
      · rename_i hij
        split
        · split
          · rename_i l hp
            have h3 := put_spec (by rw [hi.len]; exact hgd) hp
            split
            · rename_i l' b hg
              have h4 := get_spec (st := cfg.sentinel) (fun x hx => by rw [h3.1, hi.len]; exact hgc.valid x hx) hg
              rw [h3.1, hi.len] at h4
              refine hi.set h1 (by rw [h4.1, hi.len]) (fun x hx => by injection hx with hx; subst hx; exact h4.2.2.1) fun cc => ?_
              have e1 := h3.2 cc
              have e2 := h4.2.1 cc
              simp only [contFrom]; omega
            · refine hi.set h1 h3.1 (fun x hx => by injection hx with hx; subst hx; exact good_empty hgc) fun cc => ?_
              have e1 := h3.2 cc
              simp only [contFrom, bytesFrom] at e1 ⊢; omega
            · trivial
          · trivial
          · rename_i hp; exact absurd hp (put_legal hgd)
        · exact keeps_realloc hi h1 _ _
    · trivial
  | moveAssign i j up =>
    simp only [Containers.step]
    split
    · rename_i d c h1 h2
      have hgd := hi.good i d h1
      have hgc := hi.good j c h2
      split
      · trivial
      · split
        · exact hi
        · rename_i hij
          have key : ∀ (l : List Nat) (y z : Cont), put s.left d.h d.blk = .ok l → Good cfg.sentinel limits.length y → y.blk = none →
              Good cfg.sentinel limits.length z → z.blk = c.blk → Inv cfg.sentinel limits ⟨l, (s.conts.set j (some y)).set i (some z)⟩ := by
            intro l y z hp hy hyb hz hzb
            have h3 := put_spec (by rw [hi.len]; exact hgd) hp
            refine ⟨h3.1.trans hi.len, fun k x hk => ?_, fun cc => ?_⟩
            · dsimp only at hk
              rw [List.getElem?_set] at hk
              split at hk
              · split at hk
                · injection hk with hk; injection hk with hk; subst hk; exact hz
                · cases hk
              · rw [List.getElem?_set] at hk
                split at hk
                · split at hk
                  · injection hk with hk; injection hk with hk; subst hk; exact hy
                  · cases hk
                · exact hi.good k x hk
            · have e1 := sum_set (contFrom cc) h2 (some y)
              have e2 := sum_set (contFrom cc) ((get_set_ne (Ne.symm hij) (some y)).trans h1) (some z)
              have e3 := hi.budget cc
              have e4 := h3.2 cc
              simp only [contFrom, held, hyb, hzb] at e1 e2 e3 ⊢
              have e5 : bytesFrom cc none = 0 := rfl
              omega
          split
          · split
            · rename_i l hp; exact key l _ _ hp (good_moved _) rfl hgc rfl
            · trivial
            · rename_i hp; exact absurd hp (put_legal hgd)
          · split
            · rename_i heq
              split
              · rename_i l hp
                exact key l _ _ hp (good_empty hgc) rfl ⟨fun x hx => hgd.valid x hx, fun b hb => by rw [heq]; exact hgc.blk b hb⟩ rfl
              · trivial
              · rename_i hp; exact absurd hp (put_legal hgd)
            · exact keeps_realloc hi h1 _ _
    · trivial
  | swap i j =>
    simp only [Containers.step]
    split
    · rename_i d c h1 h2
      have hgd := hi.good i d h1
      have hgc := hi.good j c h2
      have key : ∀ (y z : Cont), Good cfg.sentinel limits.length y → Good cfg.sentinel limits.length z → y.blk = c.blk → z.blk = d.blk →
          Inv cfg.sentinel limits ⟨s.left, (s.conts.set i (some y)).set j (some z)⟩ := by
        intro y z hy hz hyb hzb
        refine ⟨hi.len, fun k x hk => ?_, fun cc => ?_⟩
        · dsimp only at hk
          rw [List.getElem?_set] at hk
          split at hk
          · split at hk
            · injection hk with hk; injection hk with hk; subst hk; exact hz
            · cases hk
          · rw [List.getElem?_set] at hk
            split at hk
            · split at hk
              · injection hk with hk; injection hk with hk; subst hk; exact hy
              · cases hk
            · exact hi.good k x hk
        · have e3 := hi.budget cc
          have e1 := sum_set (contFrom cc) h1 (some y)
          by_cases hij : i = j
          · subst hij
            rw [h1] at h2; injection h2 with h2; injection h2 with h2; subst h2
            have hilt := (List.getElem?_eq_some_iff.1 h1).1
            have e2 := sum_set (contFrom cc) (List.getElem?_set_self (a := some y) hilt) (some z)
            simp only [contFrom, held, hyb, hzb] at e1 e2 e3 ⊢
            omega
          · have e2 := sum_set (contFrom cc) ((get_set_ne hij (some y)).trans h2) (some z)
            simp only [contFrom, held, hyb, hzb] at e1 e2 e3 ⊢
            omega
      split
      · exact key _ _ hgc hgd rfl rfl
      · split
        · rename_i heq
          exact key _ _ ⟨fun x hx => hgd.valid x hx, fun b hb => by rw [heq]; exact hgc.blk b hb⟩
            ⟨fun x hx => hgc.valid x hx, fun b hb => by rw [← heq]; exact hgd.blk b hb⟩ rfl rfl
        · trivial
    · trivial
  | reallocate i n up =>
    simp only [Containers.step]
    split
    · rename_i d h1; exact keeps_realloc hi h1 _ _
    · trivial
  | destroy i =>
    simp only [Containers.step]
    split
    · rename_i d h1
      have hgd := hi.good i d h1
      split
      · rename_i l hp
        have h3 := put_spec (by rw [hi.len]; exact hgd) hp
        refine hi.set h1 h3.1 (fun x hx => by cases hx) fun cc => ?_
        have e1 := h3.2 cc
        simp only [contFrom]; omega
      · trivial
      · rename_i hp; exact absurd hp (put_legal hgd)
    · trivial

theorem Inv.init (st : Bool) (limits : List Nat) (n : Nat) : Inv st limits (init limits n) := by
  refine ⟨rfl, fun i c h => ?_, fun c => ?_⟩
  · simp only [Containers.init, List.getElem?_replicate] at h
    split at h <;> simp at h
  · simp [Containers.init, held, contFrom]

theorem Inv.run {cfg : Config} {limits : List Nat} : ∀ {os : List Op} {s : St}, Inv cfg.sentinel limits s → Keeps cfg.sentinel limits (run cfg s os)
  | [], s, hi => hi
  | o :: os, s, hi => by
    have h := hi.step o
    simp only [Containers.run]
    split
    · rename_i s' h1; rw [h1] at h; exact Inv.run h
    · rename_i s' h1; rw [h1] at h; exact Inv.run h
    · exact h

theorem Inv.of {cfg : Config} {limits : List Nat} {n : Nat} {os : List Op} {s : St} (h : Containers.run cfg (Containers.init limits n) os = .ok s) :
    Inv cfg.sentinel limits s := by
  have := Inv.run (cfg := cfg) (os := os) (Inv.init cfg.sentinel limits n)
  rw [h] at this; exact this

/-- Whether the allocator of each container was moved from and not replaced since, from the operations of the program alone. -/
def movedBy (t : Traits) (f : Nat → Bool) : Op → Nat → Bool
  | .construct i h _ _ => fun k => if k = i then h.src.isNone else f k
  | .copyConstruct i j _ => fun k => if k = i then f j else f k
  | .moveConstruct i j _ _ => fun k => if k = i then f j else if k = j then true else f k
  | .copyAssign i j _ => fun k => if k = i ∧ t.pocca = true then f j else f k
  | .moveAssign i j _ => fun k => if i ≠ j ∧ t.pocma = true then if k = i then f j else if k = j then true else f k else f k
  | .swap i j => fun k => if t.pocs = true then if k = j then f i else if k = i then f j else f k else f k
  | .reallocate _ _ _ => f
  | .destroy _ => f

/-- The same after a program. -/
def moved (t : Traits) (os : List Op) : Nat → Bool := os.foldl (movedBy t) fun _ => false

/-- `f` is right about `s`. -/
def Flags (s : St) (f : Nat → Bool) : Prop := ∀ (k : Nat) (c : Cont), s.conts[k]? = some (some c) → (c.h.src = none ↔ f k = true)

theorem Flags.set {s : St} {f g : Nat → Bool} (h : Flags s f) {l : List Nat} {i : Nat} {y : Option Cont} (hy : ∀ c, y = some c → (c.h.src = none ↔ g i = true))
    (hg : ∀ k, k ≠ i → g k = f k) : Flags ⟨l, s.conts.set i y⟩ g := by
  intro k c hk
  dsimp only at hk
  rw [List.getElem?_set] at hk
  split at hk
  · rename_i hik; subst hik
    split at hk
    · injection hk with hk; exact hy c hk
    · cases hk
  · rename_i hik; rw [hg k fun e => hik e.symm]; exact h k c hk

theorem Flags.set2 {s : St} {f g : Nat → Bool} (h : Flags s f) {l : List Nat} {i j : Nat} {y z : Cont} (hy : i ≠ j → (y.h.src = none ↔ g i = true))
    (hz : z.h.src = none ↔ g j = true) (hg : ∀ k, k ≠ i → k ≠ j → g k = f k) : Flags ⟨l, (s.conts.set i (some y)).set j (some z)⟩ g := by
  intro k c hk
  dsimp only at hk
  rw [List.getElem?_set] at hk
  split at hk
  · rename_i hjk; subst hjk
    split at hk
    · injection hk with hk; injection hk with hk; subst hk; exact hz
    · cases hk
  · rename_i hjk
    rw [List.getElem?_set] at hk
    split at hk
    · rename_i hik; subst hik
      split at hk
      · injection hk with hk; injection hk with hk; subst hk; exact hy fun e => hjk e.symm
      · cases hk
    · rename_i hik; rw [hg k (fun e => hik e.symm) fun e => hjk e.symm]; exact h k c hk

/-- Flags after a step. -/
def KeepsFlags (g : Nat → Bool) : Res → Prop
  | .ok s => Flags s g
  | .threw s => Flags s g
  | _ => True

theorem Flags.step {cfg : Config} (hst : cfg.sentinel = false) {s : St} {f : Nat → Bool} (h : Flags s f) (o : Op) :
    KeepsFlags (movedBy cfg.traits f o) (step cfg s o) := by
  have realloc : ∀ {i : Nat} {d : Cont} {g : Nat → Bool} (n : Nat) (up : Bool), (d.h.src = none ↔ g i = true) → (∀ k, k ≠ i → g k = f k) → Flags s g →
      KeepsFlags g (match get s.left d.h n up with
      | .ok l b => match put l d.h d.blk with
        | .ok l => .ok ⟨l, s.conts.set i (some ⟨d.h, b⟩)⟩
        | .nullUse => .nullUse
        | .illegalFree => .illegalFree
      | .refused => .threw s
      | .nullUse => .nullUse) := by
    intro i d g n up h1 h2 h3
    split
    · split
      · exact h.set (fun c hc => by injection hc with hc; subst hc; exact h1) h2
      · trivial
      · trivial
    · exact h3
    · trivial
  cases o with
  | construct i a n up =>
    simp only [Containers.step]
    split
    · rename_i h1 h2
      split
      · exact h.set (fun c hc => by injection hc with hc; subst hc; simp [movedBy]) fun k hk => by simp [movedBy, hk]
      · intro k c hk
        have : k ≠ i := by rintro rfl; rw [h1] at hk; cases hk
        simp only [movedBy, if_neg this]; exact h k c hk
      · trivial
    · trivial
  | copyConstruct i j up =>
    simp only [Containers.step]
    split
    · rename_i x h1 h2
      split
      · exact h.set (fun c hc => by injection hc with hc; subst hc; simp only [movedBy, if_true]; exact h j x h2) fun k hk => by simp [movedBy, hk]
      · intro k c hk
        have : k ≠ i := by rintro rfl; rw [h1] at hk; cases hk
        simp only [movedBy, if_neg this]; exact h k c hk
      · trivial
    · trivial
  | moveConstruct i j n up =>
    simp only [Containers.step]
    split
    · rename_i x h1 h2
      rw [hst]
      refine h.set2 (fun hij => ?_) ?_ fun k h3 h4 => ?_
      · simp [movedBy, hij, Handle.movedFrom]
      · simp only [movedBy, if_true]; exact h j x h2
      · simp [movedBy, h3, h4]
    · trivial
  | copyAssign i j up =>
    simp only [Containers.step]
    split
    · rename_i d c h1 h2
      split
      · rename_i hij; subst hij
        intro k x hk
        simp only [movedBy]
        split
        · rename_i hc; rw [hc.1] at hk; exact h i x hk
        · exact h k x hk
      · rename_i hij
        split
        · rename_i hp
          have hg : ∀ k, k ≠ i → movedBy cfg.traits f (.copyAssign i j up) k = f k := fun k hk => by simp [movedBy, hk]
          have hy : ∀ b : Option Blk, ∀ x, some (Cont.mk c.h b) = some x → (x.h.src = none ↔ movedBy cfg.traits f (.copyAssign i j up) i = true) := by
            intro b x hx; injection hx with hx; subst hx
            simp only [movedBy, hp.1, and_self, if_true]; exact h j c h2
          split
          · split
            · exact h.set (hy _) hg
            · exact h.set (hy _) hg
            · trivial
          · trivial
          · trivial
        · rename_i hp
          have key : d.h.src = none ↔ movedBy cfg.traits f (.copyAssign i j up) i = true := by
            by_cases hpo : cfg.traits.pocca = true
            · have : d.h = c.h := Classical.byContradiction fun e => hp ⟨hpo, e⟩
              simp only [movedBy, hpo, and_self, if_true]; rw [this]; exact h j c h2
            · simp only [movedBy, hpo, and_false]; exact h i d h1
          refine realloc _ _ key (fun k hk => by simp [movedBy, hk]) fun k x hk => ?_
          by_cases hki : k = i
          · subst hki; rw [h1] at hk; injection hk with hk; injection hk with hk; subst hk; exact key
          · simp only [movedBy, hki, false_and]; exact h k x hk
    · trivial
  | moveAssign i j up =>
    simp only [Containers.step]
    split
    · rename_i d c h1 h2
      rw [if_neg (by rw [hst]; simp)]
      split
      · rename_i hij
        intro k x hk
        simp only [movedBy, hij, ne_eq, not_true_eq_false, false_and, if_false]
        exact h k x hk
      · rename_i hij
        split
        · rename_i hp
          split
          · refine h.set2 (fun hji => ?_) ?_ fun k h3 h4 => ?_
            · simp [movedBy, hij, hp, hji, Handle.movedFrom]
            · simp only [movedBy, ne_eq, hij, not_false_eq_true, hp, and_self, if_true]; exact h j c h2
            · simp [movedBy, h3, h4]
          · trivial
          · trivial
        · rename_i hp
          have hf : movedBy cfg.traits f (.moveAssign i j up) = f := by funext k; simp [movedBy, hp]
          rw [hf]
          split
          · rename_i heq
            split
            · exact h.set2 (fun _ => h j c h2) (h i d h1) fun k _ _ => rfl
            · trivial
            · trivial
          · exact realloc _ _ (h i d h1) (fun _ _ => rfl) h
    · trivial
  | swap i j =>
    simp only [Containers.step]
    split
    · rename_i d c h1 h2
      split
      · rename_i hp
        refine h.set2 (fun hij => ?_) ?_ fun k h3 h4 => ?_
        · simp only [movedBy, hp, if_true, if_neg hij]; exact h j c h2
        · simp only [movedBy, hp, if_true]; exact h i d h1
        · simp [movedBy, hp, h3, h4]
      · rename_i hp
        have hf : movedBy cfg.traits f (.swap i j) = f := by funext k; simp [movedBy, hp]
        rw [hf]
        split
        · exact h.set2 (fun _ => h i d h1) (h j c h2) fun _ _ _ => rfl
        · trivial
    · trivial
  | reallocate i n up =>
    simp only [Containers.step]
    split
    · rename_i d h1; exact realloc _ _ (h i d h1) (fun _ _ => rfl) h
    · trivial
  | destroy i =>
    simp only [Containers.step]
    split
    · split
      · exact h.set (fun c hc => by cases hc) fun _ _ => rfl
      · trivial
      · trivial
    · trivial

theorem Flags.run {cfg : Config} (hst : cfg.sentinel = false) : ∀ {os : List Op} {s : St} {f : Nat → Bool}, Flags s f →
    KeepsFlags (os.foldl (movedBy cfg.traits) f) (run cfg s os)
  | [], s, f, h => h
  | o :: os, s, f, h => by
    have h1 := h.step hst o
    simp only [Containers.run, List.foldl_cons]
    split
    · rename_i s' h2; rw [h2] at h1; exact Flags.run hst h1
    · rename_i s' h2; rw [h2] at h1; exact Flags.run hst h1
    · rename_i h2 h3
      cases h4 : Containers.step cfg s o <;> simp_all [KeepsFlags]

theorem Flags.of {cfg : Config} (hst : cfg.sentinel = false) {limits : List Nat} {n : Nat} {os : List Op} {s : St}
    (h : Containers.run cfg (Containers.init limits n) os = .ok s) : Flags s (moved cfg.traits os) := by
  have h0 : Flags (Containers.init limits n) fun _ => false := by
    intro k c hk
    simp only [Containers.init, List.getElem?_replicate] at hk
    split at hk <;> simp at hk
  have := Flags.run hst h0 (os := os)
  rw [h] at this; exact this

theorem get_null {left : List Nat} {h : Handle} (hv : ∀ x, h.src = some x → x < left.length) (n : Nat) (up : Bool) :
    get left h n up = .nullUse ↔ 0 < n ∧ h.src = none := by
  unfold get
  split
  · rename_i hn; simp [hn]
  · rename_i hn
    split
    · rename_i hc; simp [hc]; omega
    · rename_i c hc
      rw [List.getElem?_eq_getElem (hv c hc)]
      dsimp only
      split <;> simp [hc]

/-- A container that was moved from has no memory. -/
theorem moved_empty {limits : List Nat} {s : St} (hi : Inv false limits s) {i : Nat} {c : Cont} (h : s.conts[i]? = some (some c)) (hm : c.h.src = none) :
    c.blk = none := by
  cases hb : c.blk with
  | none => rfl
  | some b =>
    rcases ((hi.good i c h).blk b hb).2 with h1 | ⟨_, h1⟩
    · rw [hm] at h1; cases h1
    · cases h1

theorem realloc_null {limits : List Nat} {s : St} (hi : Inv false limits s) {i : Nat} {d : Cont} (hd : s.conts[i]? = some (some d)) (n : Nat) (up : Bool) :
    (match get s.left d.h n up with
      | .ok l b => match put l d.h d.blk with
        | .ok l => Res.ok ⟨l, s.conts.set i (some ⟨d.h, b⟩)⟩
        | .nullUse => .nullUse
        | .illegalFree => .illegalFree
      | .refused => .threw s
      | .nullUse => .nullUse) = .nullUse ↔ 0 < n ∧ d.h.src = none := by
  have hgd := hi.good i d hd
  rw [← get_null (fun x hx => by rw [hi.len]; exact hgd.valid x hx) n up]
  split
  · rename_i l b hg
    split
    · simp [hg]
    · rename_i hp; exact absurd hp (put_ok hgd)
    · simp [hg]
  · rename_i hg; simp [hg]
  · rename_i hg; simp [hg]

/-! ### Theorems

`t` are the traits of any allocator of the library: `poolTraits`, `limitTraits` of the upstream allocator, `polyTraits` of several. -/

/-- C84: whatever a program does with containers, memory is only ever returned to the pool or budget that it is from. -/
theorem cont_frees_legal (cfg : Config) (limits : List Nat) (n : Nat) (os : List Op) : run cfg (init limits n) os ≠ .illegalFree := by
  intro h
  have := Inv.run (cfg := cfg) (os := os) (Inv.init cfg.sentinel limits n)
  rw [h] at this; exact this

/-- C84: budgets are right at any time, across copies, moves, assignments, swaps and failed allocations: what is left and what the containers own from a budget
add up to its limit. -/
theorem cont_budget {cfg : Config} {limits : List Nat} {n : Nat} {os : List Op} {s : St} (h : run cfg (init limits n) os = .ok s) (c : Nat) :
    s.left[c]?.getD 0 + (s.conts.map fun o => match o.bind (·.blk) with | some b => if b.src = c then b.bytes else 0 | none => 0).sum =
      limits[c]?.getD 0 := by
  have h1 := (Inv.of h).budget c
  have h2 : (fun o : Option Cont => match o.bind (·.blk) with | some b => if b.src = c then b.bytes else 0 | none => 0) = contFrom c := by
    funext o
    cases o with
    | none => rfl
    | some x => cases hx : x.blk <;> simp [contFrom, bytesFrom, hx]
  rw [h2]; exact h1

/-- Containers with different budgets are copied, moved and assigned, one allocation is refused. -/
def exampleOps : List Op :=
  [.construct 0 ⟨0, some 0⟩ 16 true, .construct 1 ⟨0, some 1⟩ 40 true, .copyConstruct 2 1 true, .moveConstruct 2 0 0 true, .reallocate 1 60 true,
    .copyAssign 1 2 true, .moveAssign 0 1 true]

/-- C84: and nothing is lost: when the containers are destroyed, all memory was returned. -/
theorem cont_no_leak {cfg : Config} {limits : List Nat} {n : Nat} {os : List Op} {s : St} (h : run cfg (init limits n) os = .ok s)
    (hd : ∀ o ∈ s.conts, o = none) : s.left = limits := by
  have hi := Inv.of h
  apply List.ext_getElem hi.len
  intro c h1 h2
  have hz : held s c = 0 := by
    unfold held
    have : s.conts.map (contFrom c) = s.conts.map fun _ => 0 := List.map_congr_left fun o ho => by rw [hd o ho]; rfl
    rw [this]
    generalize s.conts = l
    induction l with
    | nil => rfl
    | cons _ _ ih => simpa using ih
  have := hi.budget c
  rw [hz] at this
  simpa [val, List.getElem?_eq_getElem h1, List.getElem?_eq_getElem h2] using this

example : ∃ s, run ⟨poolTraits, false⟩ (init [1000, 50] 3) (exampleOps ++ [.destroy 0, .destroy 1, .destroy 2]) = .ok s ∧ s.left = [1000, 50] :=
  ⟨_, rfl, cont_no_leak (cfg := ⟨poolTraits, false⟩) (limits := [1000, 50]) (n := 3) (os := exampleOps ++ [.destroy 0, .destroy 1, .destroy 2]) rfl (by decide)⟩

/-- C84: whether a container can be used for more than destroying it can be told from the program: its allocator is unusable exactly if it was moved from and not
replaced since (`moved`). -/
theorem cont_moved_iff {cfg : Config} (hst : cfg.sentinel = false) {limits : List Nat} {n : Nat} {os : List Op} {s : St}
    (h : run cfg (init limits n) os = .ok s) {i : Nat} {c : Cont} (hc : s.conts[i]? = some (some c)) :
    c.h.src = none ↔ moved cfg.traits os i = true := Flags.of hst h i c hc

example : moved poolTraits exampleOps 1 = true :=
  (cont_moved_iff (cfg := ⟨poolTraits, false⟩) (limits := [1000, 50]) (n := 3) (os := exampleOps) rfl rfl (i := 1) rfl).1 rfl

/-- C84: the only operations with undefined behaviour are those that need memory for a container that was moved from, and construction with an
allocator that was moved from. Assigning to it is among them, for allocators that do not propagate. -/
theorem cont_null_iff {cfg : Config} (hst : cfg.sentinel = false) {limits : List Nat} {n : Nat} {os : List Op} {s : St}
    (h : run cfg (init limits n) os = .ok s) (o : Op) :
    step cfg s o = .nullUse ↔ match o with
      | .construct i a m _ => s.conts[i]? = some none ∧ a.src = none ∧ 0 < m
      | .reallocate i m _ => (∃ d, s.conts[i]? = some (some d)) ∧ moved cfg.traits os i = true ∧ 0 < m
      | .copyAssign i j _ => cfg.traits.pocca = false ∧ (∃ d, s.conts[i]? = some (some d)) ∧ moved cfg.traits os i = true ∧
        ∃ c, s.conts[j]? = some (some c) ∧ 0 < size c.blk
      | .moveAssign i j _ => cfg.traits.pocma = false ∧ (∃ d, s.conts[i]? = some (some d)) ∧ moved cfg.traits os i = true ∧
        ∃ c, s.conts[j]? = some (some c) ∧ 0 < size c.blk
      | _ => False := by
  have hi : Inv false limits s := hst ▸ Inv.of h
  have hf := Flags.of hst h
  cases o with
  | construct i a m up =>
    simp only [Containers.step]
    split
    · rename_i h1 h2
      have hv : ∀ x, a.src = some x → x < s.left.length := by
        intro x hx; simp [Handle.valid, hx] at h2; exact h2
      have h3 := get_null hv m up
      split
      · rename_i hg; rw [hg] at h3; simp only [reduceCtorEq, false_iff] at h3 ⊢; exact fun h => h3 ⟨h.2.2, h.2.1⟩
      · rename_i hg; rw [hg] at h3; simp only [reduceCtorEq, false_iff] at h3 ⊢; exact fun h => h3 ⟨h.2.2, h.2.1⟩
      · rename_i hg; rw [hg] at h3; simp only [true_iff] at h3 ⊢; exact ⟨h1, h3.2, h3.1⟩
    · rename_i hn
      simp only [reduceCtorEq, false_iff]
      rintro ⟨h1, h2, _⟩
      exact hn h1 (by simp [Handle.valid, h2])
  | copyConstruct i j up =>
    simp only [Containers.step]
    split
    · rename_i c h1 h2
      have hgc := hi.good j c h2
      have h3 := get_null (h := selectOnCopy c.h) (fun x hx => by rw [hi.len]; exact hgc.valid x hx) (size c.blk) up
      split
      · simp
      · simp
      · rename_i hg
        rw [hg] at h3
        simp only [true_iff] at h3
        rw [moved_empty hi h2 h3.2] at h3
        simp [size] at h3
    · simp
  | moveConstruct i j m up =>
    simp only [Containers.step]
    split
    · rw [hst]; simp
    · simp
  | copyAssign i j up =>
    simp only [Containers.step]
    split
    · rename_i d c h1 h2
      have hgd := hi.good i d h1
      have hgc := hi.good j c h2
      split
      · rename_i hij; subst hij
        simp only [reduceCtorEq, false_iff]
        rintro ⟨_, _, h3, c', h4, h5⟩
        rw [moved_empty hi h4 ((hf i c' h4).2 h3)] at h5
        simp [size] at h5
      · split
        · rename_i hp
          have : ¬ cfg.traits.pocca = false := by rw [hp.1]; simp
          simp only [this, false_and, iff_false]
          split
          · rename_i l hput
            have h3 := put_spec (by rw [hi.len]; exact hgd) hput
            have h4 := get_null (h := c.h) (left := l) (fun x hx => by rw [h3.1, hi.len]; exact hgc.valid x hx) (size c.blk) up
            split
            · simp
            · simp
            · rename_i hg
              rw [hg] at h4
              simp only [true_iff] at h4
              rw [moved_empty hi h2 h4.2] at h4
              simp [size] at h4
          · rename_i hput; exact absurd hput (put_ok hgd)
          · simp
        · rename_i hp
          refine (realloc_null hi h1 _ _).trans ?_
          rw [hf i d h1]
          constructor
          · rintro ⟨h3, h4⟩
            refine ⟨?_, ⟨d, h1⟩, h4, c, h2, h3⟩
            cases hpo : cfg.traits.pocca with
            | false => rfl
            | true =>
              exfalso
              have heq : d.h = c.h := Classical.byContradiction fun e => hp ⟨hpo, e⟩
              have := moved_empty hi h2 (heq ▸ (hf i d h1).2 h4)
              rw [this] at h3; simp [size] at h3
          · rintro ⟨_, _, h3, c', h4, h5⟩
            rw [h2] at h4; injection h4 with h4; injection h4 with h4; subst h4
            exact ⟨h5, h3⟩
    · rename_i hn
      simp only [reduceCtorEq, false_iff]
      rintro ⟨_, ⟨d, h1⟩, _, c, h2, _⟩
      exact hn d c h1 h2
  | moveAssign i j up =>
    simp only [Containers.step]
    split
    · rename_i d c h1 h2
      have hgd := hi.good i d h1
      have hgc := hi.good j c h2
      rw [if_neg (by rw [hst]; simp)]
      split
      · rename_i hij; subst hij
        simp only [reduceCtorEq, false_iff]
        rintro ⟨_, _, h3, c', h4, h5⟩
        rw [moved_empty hi h4 ((hf i c' h4).2 h3)] at h5
        simp [size] at h5
      · split
        · rename_i hp
          have : ¬ cfg.traits.pocma = false := by rw [hp]; simp
          simp only [this, false_and, iff_false]
          split
          · simp
          · rename_i hput; exact absurd hput (put_ok hgd)
          · simp
        · rename_i hp
          have hp' : cfg.traits.pocma = false := by simpa using hp
          split
          · rename_i heq
            have hr : ¬ ∃ c, s.conts[j]? = some (some c) ∧ moved cfg.traits os i = true ∧ 0 < size c.blk := by
              rintro ⟨c', h4, h3, h5⟩
              rw [h2] at h4; injection h4 with h4; injection h4 with h4; subst h4
              rw [moved_empty hi h2 (heq ▸ (hf i d h1).2 h3)] at h5
              simp [size] at h5
            split
            · simp only [reduceCtorEq, false_iff]
              rintro ⟨_, _, h3, c', h4, h5⟩; exact hr ⟨c', h4, h3, h5⟩
            · rename_i hput; exact absurd hput (put_ok hgd)
            · simp only [reduceCtorEq, false_iff]
              rintro ⟨_, _, h3, c', h4, h5⟩; exact hr ⟨c', h4, h3, h5⟩
          · refine (realloc_null hi h1 _ _).trans ?_
            rw [hf i d h1]
            constructor
            · rintro ⟨h3, h4⟩; exact ⟨hp', ⟨d, h1⟩, h4, c, h2, h3⟩
            · rintro ⟨_, _, h3, c', h4, h5⟩
              rw [h2] at h4; injection h4 with h4; injection h4 with h4; subst h4
              exact ⟨h5, h3⟩
    · rename_i hn
      simp only [reduceCtorEq, false_iff]
      rintro ⟨_, ⟨d, h1⟩, _, c, h2, _⟩
      exact hn d c h1 h2
  | swap i j =>
    simp only [Containers.step]
    split
    · split
      · simp
      · split <;> simp
    · simp
  | reallocate i m up =>
    simp only [Containers.step]
    split
    · rename_i d h1
      refine (realloc_null hi h1 _ _).trans ?_
      rw [hf i d h1]
      constructor
      · rintro ⟨h3, h4⟩; exact ⟨⟨d, h1⟩, h4, h3⟩
      · rintro ⟨_, h3, h4⟩; exact ⟨h4, h3⟩
    · rename_i hn
      simp only [reduceCtorEq, false_iff]
      rintro ⟨⟨d, h1⟩, _⟩; exact hn d h1
  | destroy i =>
    simp only [Containers.step]
    split
    · rename_i d h1
      split
      · simp
      · rename_i hput; exact absurd hput (put_ok (hi.good i d h1))
      · simp
    · simp

example : ∃ s, run ⟨limitTraits stdTraits, false⟩ (init [1000, 70] 3) exampleOps = .ok s ∧
    step ⟨limitTraits stdTraits, false⟩ s (.reallocate 1 8 true) = .nullUse :=
  ⟨_, rfl, (cont_null_iff (cfg := ⟨limitTraits stdTraits, false⟩) (limits := [1000, 70]) (n := 3) (os := exampleOps) rfl rfl _).2 ⟨⟨_, rfl⟩, rfl, by decide⟩⟩

/-- C84, for `pool_allocator`: a container that was moved from can be destroyed, copied, swapped, and assigned to, by copy or by move. -/
theorem cont_pool_moved_partial {limits : List Nat} {n : Nat} {os : List Op} {s : St} (h : run ⟨poolTraits, false⟩ (init limits n) os = .ok s) (o : Op)
    (ho : (∀ i a m up, o ≠ .construct i a m up) ∧ ∀ i m up, o ≠ .reallocate i m up) :
    step ⟨poolTraits, false⟩ s o ≠ .nullUse := by
  intro hn
  have := (cont_null_iff rfl h o).1 hn
  cases o with
  | construct i a m up => exact ho.1 i a m up rfl
  | reallocate i m up => exact ho.2 i m up rfl
  | copyAssign i j up => exact Bool.noConfusion this.1
  | moveAssign i j up => exact Bool.noConfusion this.1
  | _ => exact this

example : ∃ s, run ⟨poolTraits, false⟩ (init [1000, 50] 3) exampleOps = .ok s ∧ step ⟨poolTraits, false⟩ s (.copyAssign 1 0 true) ≠ .nullUse :=
  ⟨_, rfl, cont_pool_moved_partial (limits := [1000, 50]) (n := 3) (os := exampleOps) rfl _ ⟨by simp, by simp⟩⟩

/-- C84: containers with `pool_allocator` can always be swapped. -/
theorem cont_pool_swap (b : Bool) (s : St) {i j : Nat} {d c : Cont} (h1 : s.conts[i]? = some (some d)) (h2 : s.conts[j]? = some (some c)) :
    step ⟨poolTraits, b⟩ s (.swap i j) = .ok ⟨s.left, (s.conts.set i (some c)).set j (some d)⟩ := by
  simp [Containers.step, h1, h2, poolTraits]

example : ∃ s, run ⟨poolTraits, false⟩ (init [1000, 50] 3) exampleOps = .ok s ∧ ∃ s', step ⟨poolTraits, false⟩ s (.swap 1 2) = .ok s' :=
  ⟨_, rfl, _, cont_pool_swap _ _ rfl rfl⟩

/-- C84: moving a container neither throws nor obtains memory, for every allocator that propagates on move assignment: `pool_allocator` and `limit_allocator` with
`std::allocator` do. -/
theorem cont_move_free {t : Traits} (hp : t.pocma = true) (s : St) {o : Op} (ho : (∃ i j n up, o = .moveConstruct i j n up) ∨ (∃ i j up, o = .moveAssign i j up) ∨ ∃ i j, o = .swap i j) :
    match step ⟨t, false⟩ s o with
    | .threw _ => False
    | .ok s' => ∀ c : Nat, s.left[c]?.getD 0 ≤ s'.left[c]?.getD 0
    | _ => True := by
  have hput : ∀ {h : Handle} {b : Option Blk} {l : List Nat}, put s.left h b = .ok l → ∀ c : Nat, s.left[c]?.getD 0 ≤ l[c]?.getD 0 := by
    intro h b l hp c
    unfold put at hp
    split at hp
    · injection hp with hp; subst hp; exact Nat.le_refl _
    · split at hp
      · cases hp
      · rename_i x hx
        split at hp
        · injection hp with hp; subst hp
          rw [List.getElem?_set]
          split
          · rename_i hxc; subst hxc
            split
            · simp
            · rename_i hlt; simp [List.getElem?_eq_none (Nat.le_of_not_lt hlt)]
          · exact Nat.le_refl _
        · cases hp
  rcases ho with ⟨i, j, n, up, rfl⟩ | ⟨i, j, up, rfl⟩ | ⟨i, j, rfl⟩
  · simp only [Containers.step]
    cases h1 : s.conts[i]? with
    | none => trivial
    | some o1 => cases h2 : s.conts[j]? with
      | none => cases o1 <;> trivial
      | some o2 => cases o1 <;> cases o2 <;> first | trivial | exact fun c => Nat.le_refl _
  · simp only [Containers.step, hp]
    cases h1 : s.conts[i]? with
    | none => trivial
    | some o1 => cases h2 : s.conts[j]? with
      | none => cases o1 <;> trivial
      | some o2 =>
        cases o1 with
        | none => cases o2 <;> trivial
        | some d => cases o2 with
          | none => trivial
          | some c =>
            simp only [Bool.false_eq_true, if_false, if_true]
            by_cases hij : i = j
            · simp only [if_pos hij]; exact fun c => Nat.le_refl _
            · simp only [if_neg hij]
              cases hq : put s.left d.h d.blk with
              | ok l => exact hput hq
              | nullUse => trivial
              | illegalFree => trivial
  · simp only [Containers.step]
    cases h1 : s.conts[i]? with
    | none => trivial
    | some o1 => cases h2 : s.conts[j]? with
      | none => cases o1 <;> trivial
      | some o2 =>
        cases o1 with
        | none => cases o2 <;> trivial
        | some d => cases o2 with
          | none => trivial
          | some c =>
            dsimp only
            by_cases hps : t.pocs = true
            · simp only [if_pos hps]; exact fun c => Nat.le_refl _
            · simp only [if_neg hps]
              by_cases heq : d.h = c.h
              · simp only [if_pos heq]; exact fun c => Nat.le_refl _
              · simp only [if_neg heq]

example : ∃ s, run ⟨limitTraits stdTraits, false⟩ (init [1000, 70] 3) (exampleOps.take 4) = .ok s ∧ (limitTraits stdTraits).pocma = true ∧
    step ⟨limitTraits stdTraits, false⟩ s (.moveAssign 0 1 true) = .ok ⟨[984, 30], [some ⟨⟨0, some 1⟩, some ⟨1, 40⟩⟩, some ⟨⟨0, none⟩, none⟩, some ⟨⟨0, some 0⟩, some ⟨0, 16⟩⟩]⟩ :=
  ⟨_, rfl, rfl, by decide⟩

/-- C84: if an operation throws, the containers are as before, except that copy assignment with an allocator that propagates and is different leaves its target empty,
with the new allocator. -/
theorem cont_throw {cfg : Config} (hst : cfg.sentinel = false) {s s' : St} {o : Op} (h : step cfg s o = .threw s') :
    s' = s ∨ ∃ i j up c l, o = .copyAssign i j up ∧ cfg.traits.pocca = true ∧ s.conts[j]? = some (some c) ∧
      s' = ⟨l, s.conts.set i (some ⟨c.h, none⟩)⟩ := by
  cases o with
  | construct i a m up =>
    simp only [Containers.step] at h
    split at h
    · split at h
      · cases h
      · injection h with h; exact .inl h.symm
      · cases h
    · cases h
  | copyConstruct i j up =>
    simp only [Containers.step] at h
    split at h
    · split at h
      · cases h
      · injection h with h; exact .inl h.symm
      · cases h
    · cases h
  | moveConstruct i j m up =>
    simp only [Containers.step, hst] at h
    split at h <;> cases h
  | copyAssign i j up =>
    simp only [Containers.step] at h
    split at h
    · rename_i d c h1 h2
      split at h
      · cases h
      · split at h
        · rename_i hp
          split at h
          · rename_i l hput
            split at h
            · cases h
            · injection h with h; exact .inr ⟨i, j, up, c, l, rfl, hp.1, h2, h.symm⟩
            · cases h
          · cases h
          · cases h
        · split at h
          · split at h <;> cases h
          · injection h with h; exact .inl h.symm
          · cases h
    · cases h
  | moveAssign i j up =>
    simp only [Containers.step] at h
    split at h
    · split at h
      · cases h
      · split at h
        · cases h
        · split at h
          · split at h <;> cases h
          · split at h
            · split at h <;> cases h
            · split at h
              · split at h <;> cases h
              · injection h with h; exact .inl h.symm
              · cases h
    · cases h
  | swap i j =>
    simp only [Containers.step] at h
    split at h
    · split at h
      · cases h
      · split at h <;> cases h
    · cases h
  | reallocate i m up =>
    simp only [Containers.step] at h
    split at h
    · split at h
      · split at h <;> cases h
      · injection h with h; exact .inl h.symm
      · cases h
    · cases h
  | destroy i =>
    simp only [Containers.step] at h
    split at h
    · split at h <;> cases h
    · cases h

/-- C84: which budget pays for a copy: copy construction charges that of the original; copy assignment that of the original if the allocator propagates
(`pool_allocator`), else that of the target (`limit_allocator` with `std::allocator`). The copy has the size of the original, and the original is as before. -/
theorem cont_copy_charges {cfg : Config} {limits : List Nat} {n : Nat} {os : List Op} {s s' : St} (h : run cfg (init limits n) os = .ok s) {i j : Nat} {up : Bool} {c : Cont}
    (hj : s.conts[j]? = some (some c)) (hij : i ≠ j) :
    (step cfg s (.copyConstruct i j up) = .ok s' → ∃ b, s'.conts[i]? = some (some ⟨c.h, b⟩) ∧ size b = size c.blk ∧ s'.conts[j]? = some (some c)) ∧
    ∀ d, s.conts[i]? = some (some d) → step cfg s (.copyAssign i j up) = .ok s' →
      ∃ b, s'.conts[i]? = some (some ⟨if cfg.traits.pocca = true then c.h else d.h, b⟩) ∧ size b = size c.blk ∧ s'.conts[j]? = some (some c) := by
  have hi := Inv.of h
  have hgc := hi.good j c hj
  refine ⟨fun hs => ?_, fun d hd hs => ?_⟩
  · simp only [Containers.step, hj] at hs
    split at hs
    · rename_i x h1 h2
      injection h2 with h2; injection h2 with h2; subst h2
      split at hs
      · rename_i l b hg
        injection hs with hs; subst hs
        have h3 := get_spec (st := cfg.sentinel) (fun x hx => by rw [hi.len]; exact hgc.valid x hx) hg
        exact ⟨b, List.getElem?_set_self (List.getElem?_eq_some_iff.1 h1).1, h3.2.2.2, by dsimp only; rw [List.getElem?_set_ne hij]; exact hj⟩
      · cases hs
      · cases hs
    · cases hs
  · have hgd := hi.good i d hd
    have hilt := (List.getElem?_eq_some_iff.1 hd).1
    simp only [Containers.step, hd, hj, if_neg hij] at hs
    split at hs
    · rename_i hp
      split at hs
      · rename_i l hput
        have h2 := put_spec (by rw [hi.len]; exact hgd) hput
        split at hs
        · rename_i l' b hg
          injection hs with hs; subst hs
          have h3 := get_spec (st := cfg.sentinel) (fun x hx => by rw [h2.1, hi.len]; exact hgc.valid x hx) hg
          refine ⟨b, ?_, h3.2.2.2, by dsimp only; rw [List.getElem?_set_ne hij]; exact hj⟩
          rw [if_pos hp.1]; exact List.getElem?_set_self hilt
        · cases hs
        · cases hs
      · cases hs
      · cases hs
    · rename_i hp
      split at hs
      · rename_i l b hg
        have h3 := get_spec (st := cfg.sentinel) (fun x hx => by rw [hi.len]; exact hgd.valid x hx) hg
        split at hs
        · injection hs with hs; subst hs
          refine ⟨b, ?_, h3.2.2.2, by dsimp only; rw [List.getElem?_set_ne hij]; exact hj⟩
          have : (if cfg.traits.pocca = true then c.h else d.h) = d.h := by
            split
            · rename_i hpo; exact (Classical.byContradiction fun e => hp ⟨hpo, fun e' => e e'.symm⟩)
            · rfl
          rw [this]; exact List.getElem?_set_self hilt
        · cases hs
        · cases hs
      · cases hs
      · cases hs

example : ∃ s s', run ⟨limitTraits stdTraits, false⟩ (init [1000, 70] 3) (exampleOps.take 4) = .ok s ∧
    step ⟨limitTraits stdTraits, false⟩ s (.copyAssign 1 2 true) = .ok s' ∧ s.conts[2]? = some (some ⟨⟨0, some 0⟩, some ⟨0, 16⟩⟩) ∧
    ∃ b, s'.conts[1]? = some (some ⟨⟨0, some 1⟩, b⟩) ∧ size b = 16 := by
  refine ⟨_, _, rfl, rfl, rfl, ?_⟩
  obtain ⟨b, h1, h2, _⟩ := (cont_copy_charges (cfg := ⟨limitTraits stdTraits, false⟩) (limits := [1000, 70]) (n := 3) (os := exampleOps.take 4)
    (i := 1) (j := 2) (up := true) rfl rfl (by decide)).2 _ rfl rfl
  exact ⟨b, h1, h2⟩

/-- C84 is false for growing a container that was moved from, which the standard permits: `auto b = std::move(a); a.push_back(x);` -/
theorem cont_moved_grow_refuted (t : Traits) :
    run ⟨t, false⟩ (init [1000] 2) [.construct 0 ⟨0, some 0⟩ 16 true, .moveConstruct 1 0 0 true, .reallocate 0 8 true] = .nullUse := rfl

/-- C84 is false for assigning to a container that was moved from, with `limit_allocator` and `std::allocator`: `auto b = std::move(a); a = b;` -/
theorem cont_moved_assign_refuted :
    run ⟨limitTraits stdTraits, false⟩ (init [1000] 2) [.construct 0 ⟨0, some 0⟩ 16 true, .moveConstruct 1 0 0 true, .copyAssign 0 1 true] = .nullUse := rfl

/-- C84 is false for containers that always own memory, like `std::deque` of libstdc++: destroying one that was moved from is undefined. -/
theorem cont_sentinel_destroy_refuted (t : Traits) :
    run ⟨t, true⟩ (init [1000] 2) [.construct 0 ⟨0, some 0⟩ 64 true, .moveConstruct 1 0 64 true, .destroy 0] = .nullUse := rfl

/-- C84 is false for swapping containers with different budgets (`limit_allocator` with `std::allocator`): the standard leaves it undefined, since the
allocators are different and do not propagate. -/
theorem cont_limit_swap_refuted :
    run ⟨limitTraits stdTraits, false⟩ (init [1000, 50] 2) [.construct 0 ⟨0, some 0⟩ 16 true, .construct 1 ⟨0, some 1⟩ 16 true, .swap 0 1] = .excluded := rfl

/-- C84 is false for swapping containers whose `polymorphic_allocator`s hold `pool_allocator`s with different pools, if the other alternative does not propagate: what can be
swapped with `pool_allocator` alone cannot be any more. And copy assignment to one that was moved from is undefined. -/
theorem cont_poly_swap_refuted :
    run ⟨polyTraits [poolTraits, stdTraits], false⟩ (init [1000, 1000] 2)
      [.construct 0 ⟨0, some 0⟩ 16 true, .construct 1 ⟨0, some 1⟩ 16 true, .swap 0 1] = .excluded ∧
    run ⟨poolTraits, false⟩ (init [1000, 1000] 2) [.construct 0 ⟨0, some 0⟩ 16 true, .construct 1 ⟨0, some 1⟩ 16 true, .swap 0 1] =
      .ok ⟨[984, 984], [some ⟨⟨0, some 1⟩, some ⟨1, 16⟩⟩, some ⟨⟨0, some 0⟩, some ⟨0, 16⟩⟩]⟩ ∧
    run ⟨polyTraits [poolTraits, stdTraits], false⟩ (init [1000] 2)
      [.construct 0 ⟨0, some 0⟩ 16 true, .moveConstruct 1 0 0 true, .copyAssign 0 1 true] = .nullUse := ⟨rfl, rfl, rfl⟩

/-- C84: with a `polymorphic_allocator` a container that was moved from can be assigned to if all alternatives propagate, which is if and only if the
polymorphic allocator does. -/
theorem cont_poly_assign (ts : List Traits) : ((polyTraits ts).pocca = true ↔ ∀ t ∈ ts, t.pocca = true) ∧
    ((polyTraits ts).pocma = true ↔ ∀ t ∈ ts, t.pocma = true) ∧ ((polyTraits ts).pocs = true ↔ ∀ t ∈ ts, t.pocs = true) := by
  simp [polyTraits]

/-! ### Examples -/

example : run ⟨poolTraits, false⟩ (init [1000, 50] 3) exampleOps = .ok ⟨[968, 50], [some ⟨⟨0, some 0⟩, some ⟨0, 16⟩⟩, some ⟨⟨0, none⟩, none⟩, some ⟨⟨0, some 0⟩, some ⟨0, 16⟩⟩]⟩ := by
  decide

example : run ⟨limitTraits stdTraits, false⟩ (init [1000, 70] 3) exampleOps =
    .ok ⟨[984, 54], [some ⟨⟨0, some 1⟩, some ⟨1, 16⟩⟩, some ⟨⟨0, none⟩, none⟩, some ⟨⟨0, some 0⟩, some ⟨0, 16⟩⟩]⟩ := by
  decide

example : run ⟨poolTraits, false⟩ (init [1000, 50] 3) (exampleOps ++ [.destroy 0, .destroy 1, .destroy 2]) = .ok ⟨[1000, 50], [none, none, none]⟩ := by
  decide

example : moved poolTraits exampleOps 1 = true ∧ moved poolTraits exampleOps 0 = false ∧ poolTraits.pocma = true ∧ (limitTraits stdTraits).pocma = true := by
  decide

/-- The hypotheses of `cont_throw`, in both cases. -/
example : let s : St := ⟨[10, 0], [some ⟨⟨0, some 0⟩, some ⟨0, 90⟩⟩, some ⟨⟨0, some 1⟩, some ⟨1, 50⟩⟩]⟩
    step ⟨poolTraits, false⟩ s (.reallocate 0 20 true) = .threw s ∧
    step ⟨poolTraits, false⟩ s (.copyAssign 0 1 true) = .threw ⟨[100, 0], [some ⟨⟨0, some 1⟩, none⟩, some ⟨⟨0, some 1⟩, some ⟨1, 50⟩⟩]⟩ := by
  decide

end Verif.Containers
