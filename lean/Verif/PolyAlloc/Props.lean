import Verif.PolyAlloc.Model
import Mathlib.Data.List.Nodup

/-! Properties C51 and C52 of polymorphic_allocator.hpp. -/
namespace Verif.PolyAlloc

variable {A τ : Type} [DecidableEq τ]

/-- What the standard demands of the underlying allocators: equal ones can free each other's memory, conversion to another value type gives
an allocator for the same memory, and `is_always_equal` is only claimed if it is true. -/
structure Conforming (env : Env A) : Prop where
  eqv : ∀ k a b, env.eqv k a b = true → env.src k a = env.src k b
  conv : ∀ k a, env.src k (env.conv k a) = env.src k a
  always : ∀ k t, env.traits[k]? = some t → t.alwaysEqual = true → ∀ a b, env.eqv k a b = true

/-- A conforming environment with two alternatives: one with a number as place, one without state. -/
def exampleEnv : Env Nat :=
  ⟨fun k a b => k != 0 || a == b, fun k a => if k = 0 then a else 0, fun _ a => a, fun k a => if k = 0 then 7 else a, fun _ _ => 100,
    [⟨false, true, false, false⟩, ⟨true, true, false, true⟩]⟩

/-- **C51.** Memory comes from the held allocator: the block handed out is one of the held alternative, from the place the held
allocator takes memory from; other blocks are not touched. -/
theorem allocate_held (env : Env A) (a : Alloc A) (n addr : Nat) {h h' : Heap} (e : allocate env a n addr h = .ok h') :
    h' addr = some (⟨a.alt, env.src a.alt a.val⟩, n) ∧ ∀ x, x ≠ addr → h' x = h x := by
  unfold allocate at e
  split at e
  · cases e
  · injection e with e
    subst e
    exact ⟨by simp [srcOf], fun x hx => by simp [hx]⟩

example : (match allocate exampleEnv ⟨0, 3⟩ 4 10 (fun _ => none) with | .ok h => some (h 10, h 11) | _ => none) =
    some (some (⟨0, 3⟩, 4), none) := by decide

/-- **C51.** Memory is returned to the held allocator: that is legal iff the block was handed out by the held alternative from the same
place with the same size. -/
theorem deallocate_held (env : Env A) (a : Alloc A) (n addr : Nat) (h : Heap) :
    (∃ h', deallocate env a addr n h = .ok h') ↔ h addr = some (⟨a.alt, env.src a.alt a.val⟩, n) := by
  unfold deallocate srcOf
  split
  · simp_all
  · simp_all

/-- Another allocator of the same alternative, from another place, cannot free the block. -/
example : (match allocate exampleEnv ⟨0, 3⟩ 4 10 (fun _ => none) with
    | .ok h => some ((match deallocate exampleEnv ⟨0, 3⟩ 10 4 h with | .ok _ => true | _ => false),
        match deallocate exampleEnv ⟨0, 5⟩ 10 4 h with | .ok _ => true | _ => false)
    | _ => none) = some (true, false) := by decide

/-! ## Conversion -/

theorem countType_eq (t : τ) : ∀ ts : List τ, countType t ts = ts.count t
  | [] => rfl
  | u :: ts => by
    rw [countType, countType_eq t ts, List.count_cons]
    by_cases h : t = u
    · subst h; simp; omega
    · have : ¬ u = t := fun e => h e.symm
      simp [h, this]

/-- The assertion demands distinct types. -/
theorem distinctTypes_iff (ts : List τ) : distinctTypes ts = true ↔ ts.Nodup := by
  unfold distinctTypes
  simp only [List.all_eq_true, decide_eq_true_eq, countType_eq]
  constructor
  · intro h
    rw [List.nodup_iff_count_le_one]
    intro t
    by_cases ht : t ∈ ts
    · exact Nat.le_of_eq (h t ht)
    · rw [List.count_eq_zero_of_not_mem ht]; omega
  · intro h t ht
    exact List.count_eq_one_of_mem h ht

example : distinctTypes ["b", "a", "c"] = true ∧ distinctTypes ["b", "a", "b"] = false := by decide

theorem variantIndex_eq : ∀ {ts : List τ} {k : Nat} {t : τ}, ts.Nodup → ts[k]? = some t → variantIndex t ts = some k
  | [], _, _, _, h => by simp at h
  | u :: ts, 0, t, _, h => by
    simp only [List.getElem?_cons_zero, Option.some.injEq] at h
    rw [variantIndex, if_pos h.symm]
  | u :: ts, k + 1, t, hn, h => by
    have h' : ts[k]? = some t := by simpa using h
    have hne : t ≠ u := by
      rintro rfl
      exact (List.nodup_cons.1 hn).1 (List.mem_of_getElem? h')
    rw [variantIndex, if_neg hne, variantIndex_eq (List.nodup_cons.1 hn).2 h', Option.map_some, Nat.add_comm]

/-- **C51.** Conversion to another value type keeps the held alternative, and converts the held allocator. -/
theorem convert_keeps (env : Env A) {types : List τ} (hd : distinctTypes types = true) {a : Alloc A} (ha : a.alt < types.length) :
    ∃ b, convert env types a = some b ∧ b.val = env.conv a.alt a.val ∧ ∀ k, holds b k = holds a k := by
  refine ⟨⟨a.alt, env.conv a.alt a.val⟩, ?_, rfl, fun _ => rfl⟩
  unfold convert
  split
  · rfl
  · rw [List.getElem?_eq_getElem ha, Option.bind_some,
      variantIndex_eq ((distinctTypes_iff _).1 hd) (List.getElem?_eq_getElem ha)]
    rfl

/-- Without the assertion the alternative could change. -/
example : variantIndex "a" ["b", "a", "a"] = some 1 ∧ distinctTypes ["b", "a", "a"] = false := by decide

/-- **C51.** The allocator for copies of a container holds the same alternative. -/
theorem select_keeps (env : Env A) (a : Alloc A) :
    (selectOnCopy env a).val = env.socc a.alt a.val ∧ ∀ k, holds (selectOnCopy env a) k = holds a k := ⟨rfl, fun _ => rfl⟩

example : selectOnCopy exampleEnv ⟨0, 3⟩ = ⟨0, 7⟩ := rfl

/-- **C51.** Exactly one alternative is held. -/
theorem holds_spec (a : Alloc A) (k : Nat) : holds a k = true ↔ k = a.alt := by
  unfold holds
  rw [beq_iff_eq]
  exact ⟨fun h => h.symm, fun h => h.symm⟩

example : holds (⟨1, 3⟩ : Alloc Nat) 1 = true ∧ holds (⟨1, 3⟩ : Alloc Nat) 0 = false := by decide

/-! ## Equality and traits -/

/-- **C52.** Two `polymorphic_allocator`s are equal iff they hold the same alternative and the held allocators are equal. -/
theorem eq_spec (env : Env A) (a b : Alloc A) : eq env a b = true ↔ (∀ k, holds a k = holds b k) ∧ env.eqv a.alt a.val b.val = true := by
  unfold eq
  constructor
  · intro h
    split at h
    · rename_i hab
      exact ⟨fun k => by unfold holds; rw [hab], h⟩
    · simp at h
  · rintro ⟨h1, h2⟩
    have := h1 a.alt
    rw [Bool.eq_iff_iff, holds_spec, holds_spec] at this
    rw [if_pos (this.1 rfl)]
    exact h2

example : eq exampleEnv ⟨1, 3⟩ ⟨1, 4⟩ = true ∧ eq exampleEnv ⟨0, 3⟩ ⟨0, 4⟩ = false ∧ eq exampleEnv ⟨1, 3⟩ ⟨0, 3⟩ = false := by decide

/-- **C52.** Equality is an equivalence relation if it is one for each alternative. -/
theorem eq_equivalence (env : Env A) (hr : ∀ k a, env.eqv k a a = true) (hs : ∀ k a b, env.eqv k a b = true → env.eqv k b a = true)
    (ht : ∀ k a b c, env.eqv k a b = true → env.eqv k b c = true → env.eqv k a c = true) :
    (∀ a, eq env a a = true) ∧ (∀ a b, eq env a b = true → eq env b a = true) ∧
    (∀ a b c, eq env a b = true → eq env b c = true → eq env a c = true) := by
  refine ⟨fun a => ?_, fun a b h => ?_, fun a b c h1 h2 => ?_⟩
  · unfold eq; rw [if_pos rfl]; exact hr _ _
  · unfold eq at h ⊢
    split at h
    · rename_i e; rw [if_pos e.symm]; rw [e] at h; exact hs _ _ _ h
    · simp at h
  · unfold eq at h1 h2 ⊢
    split at h1
    · rename_i e1
      split at h2
      · rename_i e2; rw [if_pos (e1.trans e2)]; rw [← e1] at h2; exact ht _ _ _ _ h1 h2
      · simp at h2
    · simp at h1

example : ∀ k a, exampleEnv.eqv k a a = true := by intro k a; simp [exampleEnv]

/-- **C52.** Equal allocators use the same memory. -/
theorem eq_src {env : Env A} (hc : Conforming env) {a b : Alloc A} (h : eq env a b = true) : srcOf env a = srcOf env b := by
  unfold eq at h
  split at h
  · rename_i e
    unfold srcOf
    rw [hc.eqv _ _ _ h, e]
  · simp at h

example : eq exampleEnv ⟨1, 3⟩ ⟨1, 4⟩ = true ∧ srcOf exampleEnv ⟨1, 3⟩ = srcOf exampleEnv ⟨1, 4⟩ := by decide

/-- **C52.** Propagation on copy assignment, move assignment and swap is claimed iff every alternative claims it. -/
theorem propagation (ts : List Traits) :
    ((polyTraits ts).pocca = true ↔ ∀ t ∈ ts, t.pocca = true) ∧ ((polyTraits ts).pocma = true ↔ ∀ t ∈ ts, t.pocma = true) ∧
    ((polyTraits ts).pocs = true ↔ ∀ t ∈ ts, t.pocs = true) := by
  match ts with
  | [] => simp [polyTraits]
  | [t] => simp [polyTraits]
  | t :: u :: ts => simp [polyTraits]

example : polyTraits exampleEnv.traits = ⟨false, true, false, false⟩ := by decide

/-- **C52.** `is_always_equal` is only claimed if all allocators are equal. -/
theorem always_equal {env : Env A} (hc : Conforming env) (h : (polyTraits env.traits).alwaysEqual = true) {a b : Alloc A}
    (ha : a.alt < env.traits.length) (hb : b.alt < env.traits.length) : eq env a b = true := by
  obtain ⟨t, ht⟩ : ∃ t, env.traits = [t] := by
    cases hts : env.traits with
    | nil => rw [hts] at ha; simp at ha
    | cons t ts =>
      cases ts with
      | nil => exact ⟨t, rfl⟩
      | cons u us => rw [hts] at h; simp [polyTraits] at h
  have h1 : t.alwaysEqual = true := by rw [ht] at h; exact h
  have ha0 : a.alt = 0 := by rw [ht] at ha; simp at ha; exact ha
  have hb0 : b.alt = 0 := by rw [ht] at hb; simp at hb; exact hb
  unfold eq
  rw [if_pos (by omega)]
  exact hc.always _ t (by rw [ha0, ht]; rfl) h1 _ _

example : (polyTraits [⟨true, true, false, true⟩]).alwaysEqual = true := by decide

/-- **C52, refuted** as to the documentation: it promises to compose the traits like `std::scoped_allocator_adaptor`, which claims
propagation if any of the allocators does. -/
theorem propagation_documented_refuted : (polyTraits [⟨true, true, true, false⟩, ⟨false, false, false, true⟩]).pocca = false := rfl

/-- **C51, refuted** for `max_size`: it does not depend on the held allocator. -/
theorem max_size_refuted : ∃ (env : Env Unit) (a : Alloc Unit), env.maxSize a.alt a.val < maxSize env a 1 :=
  ⟨⟨fun _ _ _ => true, fun _ _ => 0, fun _ a => a, fun _ a => a, fun _ _ => 1000, []⟩, ⟨0, ()⟩, by decide⟩

/-- `max_size()` of `allocator_traits` is the largest number of objects whose total size is a value of `size_t`, whatever allocator is held. -/
theorem max_size_exact {A : Type} (env : Env A) (a : Alloc A) {size : Nat} (hs : 0 < size) (n : Nat) : n ≤ maxSize env a size ↔ n * size < 2 ^ 64 := by
  unfold maxSize
  rw [Nat.le_div_iff_mul_le hs]
  generalize n * size = k
  omega

example : maxSize (A := Unit) ⟨fun _ _ _ => true, fun _ _ => 0, fun _ a => a, fun _ a => a, fun _ _ => 1000, []⟩ ⟨0, ()⟩ 4 = 4611686018427387903 := by decide

/-! ## Histories -/

theorem srcOf_used {env : Env A} (hc : Conforming env) {types : List τ} (hd : distinctTypes types = true) {node : Bool} {a b : Alloc A}
    (ha : a.alt < types.length) (h : used env types node a = .ok b) : srcOf env b = srcOf env a := by
  unfold used at h
  cases node with
  | false => injection h with h; rw [h]
  | true =>
    obtain ⟨c, e, hv, hk⟩ := convert_keeps env hd ha
    simp only [e] at h
    injection h with h
    subst h
    have : c.alt = a.alt := (holds_spec a c.alt).1 ((hk c.alt).symm.trans ((holds_spec c c.alt).2 rfl))
    unfold srcOf
    rw [hv, this, hc.conv]

theorem used_ok (env : Env A) {types : List τ} (hd : distinctTypes types = true) (node : Bool) {a : Alloc A}
    (ha : a.alt < types.length) : ∃ b, used env types node a = .ok b := by
  unfold used
  cases node with
  | false => exact ⟨a, rfl⟩
  | true =>
    obtain ⟨c, e, _⟩ := convert_keeps env hd ha
    simp only [e]
    exact ⟨c, rfl⟩

/-- Each container's block was handed out by the source its allocator uses, no two containers have the same block, and all blocks handed out
are held by a container. -/
structure Inv (env : Env A) (s : St A) : Prop where
  valid : ∀ i c, s.conts i = some c → c.alloc.alt < env.traits.length
  owned : ∀ i c addr n, s.conts i = some c → c.blk = some (addr, n) → s.heap addr = some (srcOf env c.alloc, n)
  unique : ∀ i j c d addr n m, s.conts i = some c → s.conts j = some d → c.blk = some (addr, n) → d.blk = some (addr, m) → i = j
  complete : ∀ addr src n, s.heap addr = some (src, n) → ∃ i c, s.conts i = some c ∧ c.blk = some (addr, n)

theorem initial_inv (env : Env A) : Inv env initial :=
  ⟨by simp [initial], by simp [initial], by simp [initial], by simp [initial]⟩

theorem upd_same {β : Type} (f : Nat → β) (i : Nat) (x : β) : upd f i x i = x := by simp [upd]

theorem upd_other {β : Type} (f : Nat → β) {i j : Nat} (x : β) (h : j ≠ i) : upd f i x j = f j := by simp [upd, h]

/-- The heap without the block of a container. -/
def without (h : Heap) (blk : Option (Nat × Nat)) : Heap := match blk with
  | none => h
  | some (addr, _) => fun x => if x = addr then none else h x

/-- The heap with a new block. -/
def with' (h : Heap) (src : Src) (blk : Option (Nat × Nat)) : Heap := match blk with
  | none => h
  | some (addr, n) => fun x => if x = addr then some (src, n) else h x

theorem without_ne {h : Heap} {blk : Option (Nat × Nat)} {x : Nat} (hx : ∀ m, blk ≠ some (x, m)) : without h blk x = h x := by
  cases blk with
  | none => rfl
  | some b =>
    simp only [without]
    rw [if_neg]
    intro e
    exact hx b.2 (by rw [e])

theorem without_eq {h : Heap} {blk : Option (Nat × Nat)} {x m : Nat} (hx : blk = some (x, m)) : without h blk x = none := by
  subst hx; simp [without]

theorem with_ne {h : Heap} {src : Src} {blk : Option (Nat × Nat)} {x : Nat} (hx : ∀ m, blk ≠ some (x, m)) : with' h src blk x = h x := by
  cases blk with
  | none => rfl
  | some b =>
    simp only [with']
    rw [if_neg]
    intro e
    exact hx b.2 (by rw [e])

theorem with_eq {h : Heap} {src : Src} {blk : Option (Nat × Nat)} {x m : Nat} (hx : blk = some (x, m)) :
    with' h src blk x = some (src, m) := by
  subst hx; simp [with']

theorem blk_cases (blk : Option (Nat × Nat)) (x : Nat) : (∃ m, blk = some (x, m)) ∨ ∀ m, blk ≠ some (x, m) := by
  by_cases h : ∃ m, blk = some (x, m)
  · exact .inl h
  · exact .inr fun m e => h ⟨m, e⟩

theorem release_eq {env : Env A} (hc : Conforming env) {types : List τ} (hd : distinctTypes types = true) {c : Cont A} {h : Heap}
    (ha : c.alloc.alt < types.length) (ho : ∀ addr n, c.blk = some (addr, n) → h addr = some (srcOf env c.alloc, n)) :
    release env types c h = .ok (without h c.blk) := by
  unfold release without
  cases hb : c.blk with
  | none => rfl
  | some b =>
    obtain ⟨addr, n⟩ := b
    obtain ⟨a, e⟩ := used_ok env hd c.node ha
    simp only [e, Res.bind, deallocate]
    rw [srcOf_used hc hd ha e, if_pos (ho addr n hb)]

theorem obtain_eq {env : Env A} (hc : Conforming env) {types : List τ} (hd : distinctTypes types = true) (node : Bool) {a : Alloc A}
    (ha : a.alt < types.length) (blk : Option (Nat × Nat)) (h : Heap) :
    (obtain' env types node a blk h = .ok (with' h (srcOf env a) blk) ∧ ∀ addr n, blk = some (addr, n) → h addr = none) ∨
    obtain' env types node a blk h = .excluded := by
  unfold obtain' with'
  cases blk with
  | none => left; exact ⟨rfl, by simp⟩
  | some b =>
    obtain ⟨addr, n⟩ := b
    obtain ⟨b, e⟩ := used_ok env hd node ha
    simp only [e, Res.bind, allocate]
    cases hh : h addr with
    | some _ => right; rfl
    | none =>
      left
      rw [srcOf_used hc hd ha e]
      refine ⟨rfl, ?_⟩
      rintro addr' n' e'
      injection e' with e'; injection e' with e1 e2; subst e1; exact hh

theorem upd_upd {β : Type} (f : Nat → β) (i : Nat) (x y : β) : upd (upd f i x) i y = upd f i y := by
  funext j; simp only [upd]; split <;> rfl

/-- Returning a container's block. -/
theorem inv_release {env : Env A} {s : St A} (hi : Inv env s) {i : Nat} {d : Cont A} (hd : s.conts i = some d) (x : Option (Cont A))
    (hx : ∀ c, x = some c → c.alloc.alt < env.traits.length ∧ c.blk = none) : Inv env ⟨without s.heap d.blk, upd s.conts i x⟩ := by
  obtain ⟨hv, ho, hu, hcp⟩ := hi
  refine ⟨?_, ?_, ?_, ?_⟩
  · intro j c hj
    simp only [upd] at hj
    split at hj
    · exact (hx c hj).1
    · exact hv j c hj
  · intro j c addr n hj hb
    simp only [upd] at hj
    split at hj
    · rw [(hx c hj).2] at hb; simp at hb
    · rename_i hne
      have h1 := ho j c addr n hj hb
      simp only
      rw [without_ne]
      · exact h1
      · intro m hdb
        exact hne (hu j i c d addr n m hj hd hb hdb)
  · intro j k c e addr n m hj hk hbj hbk
    simp only [upd] at hj hk
    split at hj
    · rw [(hx c hj).2] at hbj; simp at hbj
    · split at hk
      · rw [(hx e hk).2] at hbk; simp at hbk
      · exact hu j k c e addr n m hj hk hbj hbk
  · intro addr src n h
    have h1 : s.heap addr = some (src, n) ∧ ∀ m, d.blk ≠ some (addr, m) := by
      simp only at h
      rcases blk_cases d.blk addr with ⟨m, hb⟩ | hb
      · rw [without_eq hb] at h; simp at h
      · rw [without_ne hb] at h; exact ⟨h, hb⟩
    obtain ⟨j, c, hj, hb⟩ := hcp addr src n h1.1
    refine ⟨j, c, ?_, hb⟩
    simp only [upd]
    rw [if_neg]
    · exact hj
    · rintro rfl
      rw [hd] at hj
      injection hj with hj
      subst hj
      exact h1.2 n hb

/-- Obtaining a block for a container without one. -/
theorem inv_obtain {env : Env A} {s : St A} (hi : Inv env s) {i : Nat} (he : ∀ c, s.conts i = some c → c.blk = none) {a : Alloc A}
    (ha : a.alt < env.traits.length) (node : Bool) {blk : Option (Nat × Nat)} (hf : ∀ addr n, blk = some (addr, n) → s.heap addr = none) :
    Inv env ⟨with' s.heap (srcOf env a) blk, upd s.conts i (some ⟨a, node, blk⟩)⟩ := by
  obtain ⟨hv, ho, hu, hcp⟩ := hi
  refine ⟨?_, ?_, ?_, ?_⟩
  · intro j c hj
    simp only [upd] at hj
    split at hj
    · injection hj with hj; subst hj; exact ha
    · exact hv j c hj
  · intro j c addr n hj hb
    simp only [upd] at hj
    split at hj
    · injection hj with hj; subst hj
      exact with_eq hb
    · have h1 := ho j c addr n hj hb
      simp only
      rw [with_ne]
      · exact h1
      · intro m e
        rw [hf addr m e] at h1; simp at h1
  · intro j k c e addr n m hj hk hbj hbk
    simp only [upd] at hj hk
    split at hj
    · rename_i eji
      injection hj with hj; subst hj
      split at hk
      · rename_i eki; rw [eji, eki]
      · have := ho k e addr m hk hbk
        rw [hf addr n hbj] at this; simp at this
    · split at hk
      · injection hk with hk; subst hk
        have := ho j c addr n hj hbj
        rw [hf addr m hbk] at this; simp at this
      · exact hu j k c e addr n m hj hk hbj hbk
  · intro addr src n h
    have h1 : s.heap addr = some (src, n) ∨ blk = some (addr, n) := by
      simp only at h
      rcases blk_cases blk addr with ⟨m, hb⟩ | hb
      · rw [with_eq hb] at h
        injection h with h; injection h with h1 h2
        right; rw [hb, h2]
      · rw [with_ne hb] at h; exact .inl h
    rcases h1 with h1 | h1
    · obtain ⟨j, c, hj, hb⟩ := hcp addr src n h1
      refine ⟨j, c, ?_, hb⟩
      simp only [upd]
      rw [if_neg]
      · exact hj
      · rintro rfl
        rw [he c hj] at hb; simp at hb
    · exact ⟨i, ⟨a, node, blk⟩, by simp [upd], h1⟩

/-- Handing over the block of container `j` to a container `i` without one, whose allocator uses the same source. -/
theorem inv_take {env : Env A} {s : St A} (hi : Inv env s) {i j : Nat} (hij : i ≠ j) {c : Cont A} (hc : s.conts j = some c)
    (he : ∀ c, s.conts i = some c → c.blk = none) {a : Alloc A} (ha : a.alt < env.traits.length)
    (hs : c.blk ≠ none → srcOf env a = srcOf env c.alloc) (node : Bool) :
    Inv env ⟨s.heap, upd (upd s.conts j (some { c with blk := none })) i (some ⟨a, node, c.blk⟩)⟩ := by
  obtain ⟨hv, ho, hu, hcp⟩ := hi
  have hget : ∀ k e, upd (upd s.conts j (some { c with blk := none })) i (some ⟨a, node, c.blk⟩) k = some e →
      (k = i ∧ e = ⟨a, node, c.blk⟩) ∨ (k = j ∧ e = { c with blk := none }) ∨ (k ≠ i ∧ k ≠ j ∧ s.conts k = some e) := by
    intro k e h
    simp only [upd] at h
    split at h
    · injection h with h; exact .inl ⟨by assumption, h.symm⟩
    · split at h
      · injection h with h; exact .inr (.inl ⟨by assumption, h.symm⟩)
      · exact .inr (.inr ⟨by assumption, by assumption, h⟩)
  refine ⟨?_, ?_, ?_, ?_⟩
  · intro k e hk
    rcases hget k e hk with ⟨_, rfl⟩ | ⟨_, rfl⟩ | ⟨_, _, h⟩
    · exact ha
    · exact hv j c hc
    · exact hv k e h
  · intro k e addr n hk hb
    rcases hget k e hk with ⟨_, rfl⟩ | ⟨_, rfl⟩ | ⟨_, _, h⟩
    · simp only at hb ⊢
      rw [hs (by rw [hb]; simp)]; exact ho j c addr n hc hb
    · simp at hb
    · exact ho k e addr n h hb
  · intro k l e f addr n m hk hl hbk hbl
    rcases hget k e hk with ⟨rfl, rfl⟩ | ⟨rfl, rfl⟩ | ⟨hk1, hk2, h⟩
    · rcases hget l f hl with ⟨rfl, rfl⟩ | ⟨rfl, rfl⟩ | ⟨hl1, hl2, h'⟩
      · rfl
      · simp at hbl
      · exact absurd (hu l j f c addr m n h' hc hbl hbk) hl2
    · simp at hbk
    · rcases hget l f hl with ⟨rfl, rfl⟩ | ⟨rfl, rfl⟩ | ⟨hl1, hl2, h'⟩
      · exact absurd (hu k j e c addr n m h hc hbk hbl) hk2
      · simp at hbl
      · exact hu k l e f addr n m h h' hbk hbl
  · intro addr src n h
    obtain ⟨k, e, hk, hb⟩ := hcp addr src n h
    by_cases hkj : k = j
    · subst hkj
      rw [hc] at hk; injection hk with hk; subst hk
      exact ⟨i, ⟨a, node, c.blk⟩, by simp [upd], hb⟩
    · by_cases hki : k = i
      · subst hki; rw [he e hk] at hb; simp at hb
      · exact ⟨k, e, by simp only [upd]; rw [if_neg hki, if_neg hkj]; exact hk, hb⟩

/-- Exchanging the blocks of two containers, with new allocators using the sources of the blocks. -/
theorem inv_swap {env : Env A} {s : St A} (hi : Inv env s) {i j : Nat} {c d c' d' : Cont A} (hd : s.conts i = some d)
    (hc : s.conts j = some c) (hbc : d'.blk = c.blk) (hbd : c'.blk = d.blk) (hsc : srcOf env d'.alloc = srcOf env c.alloc)
    (hsd : srcOf env c'.alloc = srcOf env d.alloc) (hvc : c'.alloc.alt < env.traits.length) (hvd : d'.alloc.alt < env.traits.length) :
    Inv env ⟨s.heap, upd (upd s.conts i (some d')) j (some c')⟩ := by
  obtain ⟨hv, ho, hu, hcp⟩ := hi
  have hget : ∀ k e, upd (upd s.conts i (some d')) j (some c') k = some e →
      (k = j ∧ e = c') ∨ (k ≠ j ∧ k = i ∧ e = d') ∨ (k ≠ j ∧ k ≠ i ∧ s.conts k = some e) := by
    intro k e h
    simp only [upd] at h
    split at h
    · injection h with h; exact .inl ⟨by assumption, h.symm⟩
    · split at h
      · injection h with h; exact .inr (.inl ⟨by assumption, by assumption, h.symm⟩)
      · exact .inr (.inr ⟨by assumption, by assumption, h⟩)
  refine ⟨?_, ?_, ?_, ?_⟩
  · intro k e hk
    rcases hget k e hk with ⟨_, rfl⟩ | ⟨_, _, rfl⟩ | ⟨_, _, h⟩
    · exact hvc
    · exact hvd
    · exact hv k e h
  · intro k e addr n hk hb
    rcases hget k e hk with ⟨_, rfl⟩ | ⟨_, _, rfl⟩ | ⟨_, _, h⟩
    · rw [hsd]; exact ho i d addr n hd (hbd ▸ hb)
    · rw [hsc]; exact ho j c addr n hc (hbc ▸ hb)
    · exact ho k e addr n h hb
  · intro k l e f addr n m hk hl hbk hbl
    rcases hget k e hk with ⟨rfl, rfl⟩ | ⟨hk1, rfl, rfl⟩ | ⟨hk1, hk2, h⟩
    · rcases hget l f hl with ⟨rfl, rfl⟩ | ⟨hl1, rfl, rfl⟩ | ⟨hl1, hl2, h'⟩
      · rfl
      · exact (hu l k d c addr n m hd hc (hbd ▸ hbk) (hbc ▸ hbl)).symm
      · exact absurd (hu l i f d addr m n h' hd hbl (hbd ▸ hbk)) hl2
    · rcases hget l f hl with ⟨rfl, rfl⟩ | ⟨hl1, rfl, rfl⟩ | ⟨hl1, hl2, h'⟩
      · exact hu k l d c addr m n hd hc (hbd ▸ hbl) (hbc ▸ hbk)
      · rfl
      · exact absurd (hu l j f c addr m n h' hc hbl (hbc ▸ hbk)) hl1
    · rcases hget l f hl with ⟨rfl, rfl⟩ | ⟨hl1, rfl, rfl⟩ | ⟨hl1, hl2, h'⟩
      · exact absurd (hu k i e d addr n m h hd hbk (hbd ▸ hbl)) hk2
      · exact absurd (hu k j e c addr n m h hc hbk (hbc ▸ hbl)) hk1
      · exact hu k l e f addr n m h h' hbk hbl
  · intro addr src n h
    obtain ⟨k, e, hk, hb⟩ := hcp addr src n h
    by_cases hki : k = i
    · subst hki
      rw [hd] at hk; injection hk with hk; subst hk
      exact ⟨j, c', by simp [upd], hbd ▸ hb⟩
    · by_cases hkj : k = j
      · subst hkj
        rw [hc] at hk; injection hk with hk; subst hk
        exact ⟨i, d', by simp [upd]; exact fun h => absurd h.symm hki, hbc ▸ hb⟩
      · exact ⟨k, e, by simp only [upd]; rw [if_neg hkj, if_neg hki]; exact hk, hb⟩

/-- What each operation preserves. -/
theorem step_inv {env : Env A} (hc : Conforming env) {types : List τ} (hd : distinctTypes types = true)
    (hl : types.length = env.traits.length) {s : St A} (hi : Inv env s) (op : Op A) :
    (∃ s', step env types s op = .ok s' ∧ Inv env s') ∨ step env types s op = .excluded := by
  have hv := hi.valid
  have ho := hi.owned
  cases op with
  | construct i a node blk =>
    simp only [step]
    cases hci : s.conts i with
    | some _ => right; rfl
    | none =>
      simp only
      by_cases ha : a.alt < env.traits.length
      · rw [if_pos ha]
        rcases obtain_eq hc hd node (hl ▸ ha) blk s.heap with ⟨e, hf⟩ | e
        · left
          rw [e]
          exact ⟨_, rfl, inv_obtain hi (by simp [hci]) ha node hf⟩
        · right; rw [e]; rfl
      · right; rw [if_neg ha]
  | copyConstruct i j addr =>
    simp only [step]
    cases hci : s.conts i with
    | some _ => right; rfl
    | none =>
      cases hcj : s.conts j with
      | none => right; rfl
      | some c =>
        simp only
        have ha : (selectOnCopy env c.alloc).alt < env.traits.length := hv j c hcj
        rcases obtain_eq hc hd c.node (hl ▸ ha) (newBlk c addr) s.heap with ⟨e, hf⟩ | e
        · left
          rw [e]
          exact ⟨_, rfl, inv_obtain hi (by simp [hci]) ha c.node hf⟩
        · right; rw [e]; rfl
  | moveConstruct i j =>
    simp only [step]
    cases hci : s.conts i with
    | some _ => right; rfl
    | none =>
      cases hcj : s.conts j with
      | none => right; rfl
      | some c =>
        left
        have hij : i ≠ j := by rintro rfl; rw [hci] at hcj; simp at hcj
        exact ⟨_, rfl, inv_take hi hij hcj (by simp [hci]) (hv j c hcj) (fun _ => rfl) c.node⟩
  | copyAssign i j addr =>
    simp only [step]
    cases hci : s.conts i with
    | none => right; rfl
    | some d =>
      cases hcj : s.conts j with
      | none => right; rfl
      | some c =>
        simp only
        by_cases hij : i = j
        · rw [if_pos hij]; left; exact ⟨s, rfl, hi⟩
        · rw [if_neg hij]
          by_cases hn : d.node ≠ c.node
          · rw [if_pos hn]; right; rfl
          · rw [if_neg hn, release_eq hc hd (hl ▸ hv i d hci) (fun a n hb => ho i d a n hci hb)]
            simp only [Res.bind]
            have ha : (if (polyTraits env.traits).pocca = true then c.alloc else d.alloc).alt < env.traits.length := by
              split
              · exact hv j c hcj
              · exact hv i d hci
            generalize (if (polyTraits env.traits).pocca = true then c.alloc else d.alloc) = a at ha
            rcases obtain_eq hc hd d.node (hl ▸ ha) (newBlk c addr) (without s.heap d.blk) with ⟨e, hf⟩ | e
            · left
              rw [e]
              have h1 := inv_release hi hci (some { d with blk := none })
                (by rintro c e; injection e with e; subst e; exact ⟨hv i d hci, rfl⟩)
              have h2 := inv_obtain h1 (i := i) (by simp [upd]) ha d.node hf
              simp only [upd_upd] at h2
              exact ⟨_, rfl, h2⟩
            · right; rw [e]
  | moveAssign i j addr =>
    simp only [step]
    cases hci : s.conts i with
    | none => right; rfl
    | some d =>
      cases hcj : s.conts j with
      | none => right; rfl
      | some c =>
        simp only
        by_cases hij : i = j
        · rw [if_pos hij]; left; exact ⟨s, rfl, hi⟩
        · rw [if_neg hij]
          by_cases hn : d.node ≠ c.node
          · rw [if_pos hn]; right; rfl
          · rw [if_neg hn, release_eq hc hd (hl ▸ hv i d hci) (fun a n hb => ho i d a n hci hb)]
            simp only [Res.bind]
            have h1 := inv_release hi hci (some { d with blk := none })
              (by rintro c e; injection e with e; subst e; exact ⟨hv i d hci, rfl⟩)
            have hcj1 : upd s.conts i (some { d with blk := none }) j = some c := by
              rw [upd_other _ _ (fun h => hij h.symm)]; exact hcj
            have hcomm : ∀ x y : Option (Cont A), upd (upd (upd s.conts i (some { d with blk := none })) j x) i y =
                upd (upd s.conts j x) i y := by
              intro x y; funext k; simp only [upd]; split <;> simp_all
            by_cases hp : (polyTraits env.traits).pocma = true
            · rw [if_pos hp]
              left
              have h2 := inv_take h1 hij hcj1 (by simp [upd]) (hv j c hcj) (fun _ => rfl) d.node
              rw [hcomm] at h2
              exact ⟨_, rfl, h2⟩
            · rw [if_neg hp]
              by_cases he : ((polyTraits env.traits).alwaysEqual || eq env d.alloc c.alloc) = true
              · rw [if_pos he]
                have hsrc : srcOf env d.alloc = srcOf env c.alloc := by
                  rw [Bool.or_eq_true] at he
                  rcases he with he | he
                  · exact eq_src hc (always_equal hc he (hv i d hci) (hv j c hcj))
                  · exact eq_src hc he
                left
                have h2 := inv_take h1 hij hcj1 (by simp [upd]) (hv i d hci) (fun _ => hsrc) d.node
                rw [hcomm] at h2
                exact ⟨_, rfl, h2⟩
              · rw [if_neg he]
                rcases obtain_eq hc hd d.node (hl ▸ hv i d hci) (newBlk c addr) (without s.heap d.blk) with ⟨e, hf⟩ | e
                · left
                  rw [e]
                  have h2 := inv_obtain h1 (i := i) (by simp [upd]) (hv i d hci) d.node hf
                  simp only [upd_upd] at h2
                  exact ⟨_, rfl, h2⟩
                · right; rw [e]
  | swap i j =>
    simp only [step]
    cases hci : s.conts i with
    | none => right; rfl
    | some d =>
      cases hcj : s.conts j with
      | none => right; rfl
      | some c =>
        simp only
        by_cases hn : d.node ≠ c.node
        · rw [if_pos hn]; right; rfl
        · rw [if_neg hn]
          by_cases hp : (polyTraits env.traits).pocs = true
          · rw [if_pos hp]
            left
            exact ⟨_, rfl, inv_swap hi hci hcj rfl rfl rfl rfl (hv i d hci) (hv j c hcj)⟩
          · rw [if_neg hp]
            by_cases he : ((polyTraits env.traits).alwaysEqual || eq env d.alloc c.alloc) = true
            · rw [if_pos he]
              have hsrc : srcOf env d.alloc = srcOf env c.alloc := by
                rw [Bool.or_eq_true] at he
                rcases he with he | he
                · exact eq_src hc (always_equal hc he (hv i d hci) (hv j c hcj))
                · exact eq_src hc he
              left
              exact ⟨_, rfl, inv_swap hi hci hcj rfl rfl hsrc hsrc.symm (hv j c hcj) (hv i d hci)⟩
            · rw [if_neg he]; right; rfl
  | reallocate i blk =>
    simp only [step]
    cases hci : s.conts i with
    | none => right; rfl
    | some d =>
      simp only
      have ha := hv i d hci
      rcases obtain_eq hc hd d.node (hl ▸ ha) blk s.heap with ⟨e, hf⟩ | e
      · rw [e]
        simp only [Res.bind]
        rw [release_eq hc hd (hl ▸ ha)]
        · left
          have h1 := inv_release hi hci (some { d with blk := none })
            (by rintro c e; injection e with e; subst e; exact ⟨hv i d hci, rfl⟩)
          have h2 := inv_obtain h1 (i := i) (by simp [upd]) ha d.node (blk := blk) (by
            intro addr n hb
            have := hf addr n hb
            simp only
            rcases blk_cases d.blk addr with ⟨m, hb'⟩ | hb'
            · exact without_eq hb'
            · rw [without_ne hb']; exact this)
          simp only [upd_upd] at h2
          have hheap : without (with' s.heap (srcOf env d.alloc) blk) d.blk = with' (without s.heap d.blk) (srcOf env d.alloc) blk := by
            funext x
            rcases blk_cases d.blk x with ⟨m, hb⟩ | hb
            · rw [without_eq hb, with_ne, without_eq hb]
              intro m' e
              have h3 := hf x m' e
              rw [ho i d x m hci hb] at h3; simp at h3
            · rw [without_ne hb]
              rcases blk_cases blk x with ⟨m, hb'⟩ | hb'
              · rw [with_eq hb', with_eq hb']
              · rw [with_ne hb', with_ne hb', without_ne hb]
          rw [hheap]
          exact ⟨_, rfl, h2⟩
        · intro addr n hb
          have h1 := ho i d addr n hci hb
          rw [with_ne]
          · exact h1
          · intro m e
            rw [hf addr m e] at h1; simp at h1
      · right; rw [e]; rfl
  | destroy i =>
    simp only [step]
    cases hci : s.conts i with
    | none => right; rfl
    | some d =>
      simp only
      rw [release_eq hc hd (hl ▸ hv i d hci) (fun a n hb => ho i d a n hci hb)]
      left
      exact ⟨_, rfl, inv_release hi hci none (by simp)⟩

/-- **C51, C52.** Containers that follow the rules of the standard, relying on the equality and the traits of `polymorphic_allocator`,
in any history of constructions, copies, moves, assignments, swaps, reallocations and destructions: memory is only ever returned to the
underlying allocator that handed it out, with the size it was handed out with. At any time, each block handed out is held by exactly one
container, whose allocator uses the source of the block. -/
theorem history {env : Env A} (hc : Conforming env) {types : List τ} (hd : distinctTypes types = true)
    (hl : types.length = env.traits.length) (ops : List (Op A)) :
    run env types initial ops ≠ .illegalFree ∧
    ∀ s, run env types initial ops = .ok s →
      (∀ i c addr n, s.conts i = some c → c.blk = some (addr, n) →
        s.heap addr = some (⟨c.alloc.alt, env.src c.alloc.alt c.alloc.val⟩, n)) ∧
      (∀ addr src n, s.heap addr = some (src, n) → ∃ i c, s.conts i = some c ∧ c.blk = some (addr, n) ∧
        ∀ j d m, s.conts j = some d → d.blk = some (addr, m) → j = i) := by
  suffices H : ∀ s, Inv env s → run env types s ops ≠ .illegalFree ∧ ∀ s', run env types s ops = .ok s' → Inv env s' by
    obtain ⟨h1, h2⟩ := H initial (initial_inv env)
    refine ⟨h1, fun s hs => ?_⟩
    obtain ⟨_, ho, hu, hcp⟩ := h2 s hs
    refine ⟨ho, fun addr src n h => ?_⟩
    obtain ⟨i, c, hi, hb⟩ := hcp addr src n h
    exact ⟨i, c, hi, hb, fun j d m hj hb' => hu j i d c addr m n hj hi hb' hb⟩
  induction ops with
  | nil =>
    intro s hi
    exact ⟨by simp [run], fun s' h => by simp only [run] at h; injection h with h; exact h ▸ hi⟩
  | cons op ops ih =>
    intro s hi
    rcases step_inv hc hd hl hi op with ⟨s', e, hi'⟩ | e
    · rw [run, e]; exact ih s' hi'
    · rw [run, e]; exact ⟨by simp [Res.bind], by simp [Res.bind]⟩

/-- **C51.** What a container has after it has been copied or assigned, if the operation succeeds: as much space as the source had; for copy construction an
allocator of the same kind, for assignments the allocator of the source if the allocator propagates and its own otherwise. -/
theorem container_after {env : Env A} {types : List τ} {s s' : St A} {i j addr : Nat} {c : Cont A} (hij : i ≠ j) (hj : s.conts j = some c) :
    (step env types s (.copyConstruct i j addr) = .ok s' →
      ∃ c', s'.conts i = some c' ∧ c'.blk.map Prod.snd = c.blk.map Prod.snd ∧ c'.alloc.alt = c.alloc.alt ∧ s'.conts j = some c) ∧
    (step env types s (.copyAssign i j addr) = .ok s' →
      ∃ d c', s.conts i = some d ∧ s'.conts i = some c' ∧ c'.blk.map Prod.snd = c.blk.map Prod.snd ∧
        c'.alloc = (if (polyTraits env.traits).pocca then c.alloc else d.alloc) ∧ s'.conts j = some c) ∧
    (step env types s (.moveAssign i j addr) = .ok s' →
      ∃ d c', s.conts i = some d ∧ s'.conts i = some c' ∧ c'.blk.map Prod.snd = c.blk.map Prod.snd ∧
        c'.alloc = (if (polyTraits env.traits).pocma then c.alloc else d.alloc)) := by
  have hji : j ≠ i := fun h => hij h.symm
  have hn : (newBlk c addr).map Prod.snd = c.blk.map Prod.snd := by simp [newBlk, Function.comp_def]
  refine ⟨?_, ?_, ?_⟩
  · intro h
    simp only [step, hj] at h
    split at h
    · rename_i heq
      cases heq
      generalize obtain' env types c.node (selectOnCopy env c.alloc) (newBlk c addr) s.heap = r at h
      cases r <;> simp only [Res.bind, reduceCtorEq] at h
      injection h with h
      subst h
      exact ⟨_, upd_same _ _ _, hn, rfl, by simp [upd, hji, hj]⟩
    · cases h
  · intro h
    simp only [step, hj] at h
    split at h
    · rename_i d x heq hx
      cases hx
      rw [if_neg hij] at h
      split at h
      · cases h
      · generalize release env types d s.heap = r at h
        cases r <;> simp only [Res.bind, reduceCtorEq] at h
        rename_i hp
        generalize obtain' env types d.node (if (polyTraits env.traits).pocca then c.alloc else d.alloc) (newBlk c addr) hp = r at h
        cases r <;> simp only [reduceCtorEq] at h
        injection h with h
        subst h
        exact ⟨d, _, heq, upd_same _ _ _, hn, rfl, by simp [upd, hji, hj]⟩
    · cases h
  · intro h
    simp only [step, hj] at h
    split at h
    · rename_i d x heq hx
      cases hx
      rw [if_neg hij] at h
      split at h
      · cases h
      · generalize release env types d s.heap = r at h
        cases r <;> simp only [Res.bind, reduceCtorEq] at h
        rename_i hp
        split at h
        · rename_i hpoc
          injection h with h
          subst h
          exact ⟨d, _, heq, upd_same _ _ _, rfl, by simp [hpoc]⟩
        · rename_i hpoc
          split at h
          · injection h with h
            subst h
            exact ⟨d, _, heq, upd_same _ _ _, rfl, by simp [hpoc]⟩
          · generalize obtain' env types d.node d.alloc (newBlk c addr) hp = r at h
            cases r <;> simp only [reduceCtorEq] at h
            injection h with h
            subst h
            exact ⟨d, _, heq, upd_same _ _ _, hn, by simp [hpoc]⟩
    · cases h

example : ∃ s s' : St Nat, s.conts 1 = some ⟨⟨1, 0⟩, true, some (20, 5)⟩ ∧ step exampleEnv ["a", "b"] s (.copyAssign 0 1 30) = .ok s' := by
  refine ⟨⟨fun _ => none, fun k => if k = 1 then some ⟨⟨1, 0⟩, true, some (20, 5)⟩ else if k = 0 then some ⟨⟨1, 0⟩, true, none⟩ else none⟩, _, rfl, rfl⟩

example : Conforming exampleEnv := by
  refine ⟨?_, ?_, ?_⟩
  · intro k a b h
    simp only [exampleEnv, Bool.or_eq_true, bne_iff_ne, ne_eq, beq_iff_eq] at h ⊢
    split
    · rename_i hk; rcases h with h | h
      · exact absurd hk h
      · exact h
    · rfl
  · intro k a; simp only [exampleEnv]
  · intro k t ht h a b
    simp only [exampleEnv] at ht ⊢
    match k with
    | 0 => simp at ht; subst ht; simp at h
    | 1 => simp
    | k + 2 => simp at ht

/-- In this history a move assignment between unequal allocators propagates the allocator, and the memory of each is returned to its source. -/
example : (match run exampleEnv ["a", "b"] initial [.construct 0 ⟨0, 3⟩ true (some (10, 4)), .construct 1 ⟨1, 0⟩ true (some (20, 5)),
    .moveAssign 0 1 30, .destroy 0, .copyConstruct 2 1 40, .destroy 1] with
  | .ok s => (s.heap 10, s.heap 20, (s.conts 2).isSome)
  | _ => (some (⟨9, 9⟩, 9), none, false)) = (none, none, true) := by decide

end Verif.PolyAlloc
