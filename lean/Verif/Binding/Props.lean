import Verif.Binding.Model
import Verif.TypeList.Props

/-!
C120: `get` and structured bindings of `standard_layout_tuple` and `pointer_tag_pair`.
-/
namespace Verif.Binding

open Verif.Qualifiers (Obj Ty forwardLike bindable like likeT deduced)

/-! ### Specification -/

/-- The type `std::get<i>(tuple)` has for an element declared as `t`, on a tuple that is `const` or not and an lvalue or not: `T &`,
`T const &`, `T &&`, `T const &&`. -/
def stdGet (t : Ty) (const lvalue : Bool) : Option Ty :=
  let t' := if const then t.addConst else t
  if lvalue then t'.addL else t'.addR

/-- `const` added where the tuple is `const`. -/
def withConst (const : Bool) (o : Obj) : Obj := if const then o.addConst else o

/-- The type of an element: there are references to it. -/
def Elem (t : Ty) : Prop := t.obj.referable = true ∧ ∀ n a, t ≠ .val (.func n a)

/-! ### Lemmas -/

theorem addConst_idem (o : Obj) : o.addConst.addConst = o.addConst := by
  induction o with
  | arr e l ih => simp [Obj.addConst, ih]
  | _ => rfl

theorem referable_addConst (o : Obj) : o.addConst.referable = o.referable := by cases o <;> rfl

theorem isFunc_addConst (o : Obj) : isFunc o.addConst = isFunc o := by cases o <;> rfl

theorem bare_addConst (o : Obj) : o.addConst.bare = o.bare := by
  induction o with
  | arr e l ih => simp [Obj.addConst, Obj.bare, ih]
  | _ => rfl

theorem isVolatile_addConst (o : Obj) : o.addConst.isVolatile = o.isVolatile := by
  induction o with
  | arr e l ih => simpa [Obj.addConst, Obj.isVolatile] using ih
  | _ => rfl

theorem isConst_addConst {o : Obj} (h : o.isConst = true) : o.addConst = o := by
  induction o with
  | arr e l ih => simp only [Obj.isConst] at h; simp [Obj.addConst, ih h]
  | named n c v => simp only [Obj.isConst] at h; simp [Obj.addConst, h]
  | void c v => simp only [Obj.isConst] at h; simp [Obj.addConst, h]
  | func n a => rfl

theorem bindable_self (o : Obj) : bindable o o = true := by
  simp [bindable]

/-- What is there to bind a `const` object to a reference: nothing is dropped iff the target is `const` already. -/
theorem bindable_addConst {o : Obj} : bindable o.addConst o = true ↔ o.addConst = o := by
  constructor
  · intro h
    simp only [bindable, bare_addConst, isVolatile_addConst, Bool.and_eq_true] at h
    have h1 := h.1.2
    by_cases hc : o.isConst = true
    · exact isConst_addConst hc
    · simp only [Bool.not_eq_true] at hc
      simp only [hc, Bool.or_false, Bool.not_eq_true'] at h1
      clear hc h
      induction o with
      | arr e l ih => simp only [Obj.addConst, Obj.isConst] at h1 ⊢; rw [ih h1]
      | named n c v => simp [Obj.addConst, Obj.isConst] at h1
      | void c v => simp [Obj.addConst, Obj.isConst] at h1
      | func n a => rfl
  · intro h; rw [h]; exact bindable_self o

theorem nth_eq {τ : Type} (l : List τ) (i : Nat) : TypeList.nth l i = l[i]? := by
  unfold TypeList.nth
  have : ∀ (l : List τ) i, TypeList.packElement i l = l[i]? := by
    intro l
    induction l with
    | nil => intro i; cases i <;> rfl
    | cons x xs ih => intro i; cases i with
      | zero => rfl
      | succ i => simpa [TypeList.packElement] using ih i
  have hs : TypeList.size l = l.length := by simp [TypeList.size_eq]
  by_cases h : i < l.length
  · simp [hs, h, this]
  · simp [hs, h]

/-- The template argument for a tuple that is `const` or not, given as an lvalue or not. -/
def selfTy (n : Nat) (const lvalue : Bool) : Ty := if lvalue then .lref (.named n const false) else .val (.named n const false)

theorem forwardLike_self (n : Nat) (const lvalue : Bool) {o : Obj} (ho : o.referable = true) :
    forwardLike (selfTy n const lvalue) true o =
      some (if lvalue then .lref (withConst const o) else .rref (withConst const o)) := by
  cases lvalue <;> cases const <;>
    simp [forwardLike, likeT, deduced, like, selfTy, Ty.addR, Ty.addL, Obj.referable, ho, Obj.isConst, withConst]

/-! ### get -/

/-- **C120**: `get<i>()` gives a reference to the type of the element without its own reference, `const` if the tuple is, and of the
value category of the tuple; for every tuple, position, qualifier and value category. There is no `get` past the end. -/
theorem get_type (name : List Ty → Nat) (ts : List Ty) (n : Nat) (const lvalue : Bool) (i : Nat) (h : ∀ t ∈ ts, Elem t) :
    getType name ts (selfTy n const lvalue) i =
      (ts[i]?).map fun t => if lvalue then .lref (withConst const t.obj) else .rref (withConst const t.obj) := by
  induction ts generalizing n i with
  | nil => cases i <;> rfl
  | cons t ts ih =>
    have hc : (selfTy n const lvalue).obj.isConst = const := by cases lvalue <;> rfl
    cases i with
    | zero =>
      obtain ⟨hr, _⟩ := h t (by simp)
      have hm : (memberObj t const).referable = true ∧ withConst const (memberObj t const) = withConst const t.obj := by
        cases t <;> cases const <;> simp_all [memberObj, Ty.obj, referable_addConst, withConst, addConst_idem]
      simp only [getType, hc, forwardLike_self n const lvalue hm.1, hm.2, List.getElem?_cons_zero, Option.map_some]
    | succ i =>
      have hs : ∀ o : Obj, o.referable = true → (forwardLike (selfTy n const lvalue) true o).isSome := by
        intro o ho; rw [forwardLike_self n const lvalue ho]; rfl
      simp only [getType, hc, forwardLike_self n const lvalue (o := .named (name ts) const false) rfl, Option.bind_some,
        List.getElem?_cons_succ]
      have : deduceSelf (if lvalue then .lref (withConst const (.named (name ts) const false)) else .rref (withConst const (.named (name ts) const false))) =
          selfTy (name ts) const lvalue := by
        cases lvalue <;> cases const <;> rfl
      rw [this]
      exact ih (name ts) i fun t' ht' => h t' (List.mem_cons_of_mem _ ht')

example : getType (fun _ => 7) [.val (.named 0 false false), .val (.named 1 false false)] (selfTy 9 true true) 1 =
    some (.lref (.named 1 true false)) := by decide

/-- **C120**: the object that `get<i>()` means is the element at position `i` itself, or what it refers to if it is a reference. -/
theorem get_place (ts : List Ty) (i : Nat) :
    getPlace ts 0 i = (ts[i]?).map fun t => match (generalizing := false) t with | .val _ => .element i | _ => .target i := by
  suffices ∀ ts d i, getPlace ts d i = (ts[i]?).map fun t => match (generalizing := false) t with | .val _ => .element (d + i) | _ => .target (d + i) by
    simpa using this ts 0 i
  intro ts
  induction ts with
  | nil => intro d i; cases i <;> rfl
  | cons t ts ih =>
    intro d i
    cases i with
    | zero => cases t <;> rfl
    | succ i =>
      have : getPlace (t :: ts) d (i + 1) = getPlace ts (d + 1) i := by cases t <;> rfl
      rw [this, ih]
      simp only [List.getElem?_cons_succ]
      rw [show d + 1 + i = d + (i + 1) by omega]

example : getPlace [.val (.named 0 false false), .lref (.named 0 false false)] 0 1 = some (.target 1) := by decide

/-- **C120**: when `get<i>()` has the type that `std::get<i>` of a `std::tuple` with the same element types has: always for elements that
are not references; for references, iff `const` of the tuple changes nothing and no lvalue reference is taken out of an rvalue. -/
theorem get_like_std_iff (name : List Ty → Nat) {ts : List Ty} (n : Nat) (const lvalue : Bool) {i : Nat} {t : Ty} (h : ∀ t ∈ ts, Elem t)
    (ht : ts[i]? = some t) :
    getType name ts (selfTy n const lvalue) i = stdGet t const lvalue ↔
      match (generalizing := false) t with
      | .val _ => True
      | .lref o => lvalue = true ∧ (const = true → o.addConst = o)
      | .rref o => const = true → o.addConst = o := by
  rw [get_type name ts n const lvalue i h, ht]
  have he := h t (List.mem_of_getElem? ht)
  obtain ⟨hr, _⟩ := he
  cases t with
  | val o =>
    simp only [Ty.obj] at hr
    cases const <;> cases lvalue <;> simp [stdGet, Ty.addConst, Ty.addL, Ty.addR, Ty.obj, withConst, referable_addConst, hr]
  | lref o => cases const <;> cases lvalue <;> simp [stdGet, Ty.addConst, Ty.addL, Ty.addR, Ty.obj, withConst]
  | rref o => cases const <;> cases lvalue <;> simp [stdGet, Ty.addConst, Ty.addL, Ty.addR, Ty.obj, withConst]

example : (∀ t ∈ [Ty.val (.named 0 false false), .lref (.named 1 true false)], Elem t) ∧
    getType (fun _ => 7) [Ty.val (.named 0 false false), .lref (.named 1 true false)] (selfTy 9 true true) 1 =
      stdGet (.lref (.named 1 true false)) true true := by
  refine ⟨?_, by decide⟩
  intro t ht
  simp only [List.mem_cons, List.not_mem_nil, or_false] at ht
  rcases ht with rfl | rfl <;> exact ⟨rfl, by intros; simp⟩

/-- **C120**: taking the element out of an rvalue tuple gives an rvalue even if the element is an lvalue reference: what it refers to, which
the tuple does not own, may be moved from. `std::get` gives an lvalue. -/
theorem get_moves_referenced_refuted :
    ∃ ts : List Ty, (∀ t ∈ ts, Elem t) ∧ ts = [.lref (.named 0 false false)] ∧
      getType (fun _ => 7) ts (selfTy 9 false false) 0 = some (.rref (.named 0 false false)) ∧
      stdGet (.lref (.named 0 false false)) false false = some (.lref (.named 0 false false)) := by
  refine ⟨_, ?_, rfl, by decide, by decide⟩
  intro t ht
  simp only [List.mem_cons, List.not_mem_nil, or_false] at ht
  subst ht; exact ⟨rfl, by intros; simp⟩

theorem position_lt {τ : Type} [DecidableEq τ] (u : τ) (l : List τ) {ix : Nat}
    (h : TypeList.position (fun t => some (decide (u = t))) l = some ix) : l[ix]? = some u := by
  unfold TypeList.position at h
  suffices ∀ l k, TypeList.positionFrom (fun t => some (decide (u = t))) l k = some ix → k ≤ ix ∧ l[ix - k]? = some u from by
    simpa using (this l 0 h).2
  intro l
  induction l with
  | nil => intro k hk; simp [TypeList.positionFrom] at hk
  | cons x xs ih =>
    intro k hk
    unfold TypeList.positionFrom at hk
    by_cases hx : u = x
    · subst hx; simp at hk; subst hk; simp
    · simp only [hx, decide_false] at hk
      obtain ⟨h1, h2⟩ := ih (k + 1) hk
      refine ⟨by omega, ?_⟩
      rw [show ix - k = (ix - (k + 1)) + 1 by omega]
      simpa using h2

/-- **C120**: `get<U>()` is well-formed iff `U` is the type of exactly one element, and is the `get` of that element then. -/
theorem get_by_type (name : List Ty → Nat) (ts : List Ty) (n : Nat) (const lvalue : Bool) (u : Ty) (h : ∀ t ∈ ts, Elem t) :
    getTypeByType name ts (selfTy n const lvalue) u =
      if ts.count u = 1 then some (if lvalue then .lref (withConst const u.obj) else .rref (withConst const u.obj)) else none := by
  have hcount : ∀ l : List Ty, TypeList.count u l = l.count u := by
    intro l
    induction l with
    | nil => rfl
    | cons x xs ih =>
      unfold TypeList.count
      by_cases hx : x = u
      · subst hx; simp [ih]; omega
      · simp [hx, ih, List.count_cons]
  unfold getTypeByType
  rw [hcount]
  split
  · rename_i h1
    cases hp : TypeList.position (fun t => some (decide (u = t))) ts with
    | none =>
      exfalso
      have hm : u ∈ ts := List.count_pos_iff.1 (by omega)
      unfold TypeList.position at hp
      have : ∀ l k, u ∈ l → TypeList.positionFrom (fun t => some (decide (u = t))) l k ≠ none := by
        intro l
        induction l with
        | nil => intro k hk; cases hk
        | cons x xs ih =>
          intro k hk
          unfold TypeList.positionFrom
          by_cases hx : u = x
          · simp [hx]
          · simp only [hx, decide_false]
            rcases List.mem_cons.1 hk with hk | hk
            · exact absurd hk hx
            · exact ih (k + 1) hk
      exact this ts 0 hm hp
    | some ix =>
      simp only [Option.bind_some]
      rw [get_type name ts n const lvalue ix h, position_lt u ts hp]
      rfl
  · rfl

example : getTypeByType (fun _ => 7) [.val (.named 0 false false), .val (.named 1 false false)] (selfTy 9 false true) (.val (.named 1 false false)) =
    some (.lref (.named 1 false false)) := by decide

/-! ### Structured bindings of tuples -/

/-- When a name can be introduced for an element declared as `t`, by the type of the tuple variable: it is `const` or not and used as an
lvalue or not. -/
def Bindable (t : Ty) (const lvalue : Bool) : Prop := match t with
  | .val _ => True
  | .lref o => if lvalue then const = true → o.addConst = o else isFunc o = true ∨ (o.isConst = true ∧ o.isVolatile = false)
  | .rref o => const = true → o.addConst = o

theorem isLvalue_get (const lvalue : Bool) (o : Obj) :
    isLvalue (if lvalue then .lref (withConst const o) else .rref (withConst const o)) = (lvalue || isFunc o) := by
  cases lvalue <;> cases const <;> simp [isLvalue, withConst, isFunc_addConst]

theorem func_addConst {o : Obj} (h : isFunc o = true) : o.addConst = o := by cases o <;> simp_all [isFunc, Obj.addConst]

theorem bindOne_iff {t : Ty} (ht : Elem t) (const lvalue : Bool) :
    bindOne (if const then t.addConst else t) (if lvalue then .lref (withConst const t.obj) else .rref (withConst const t.obj)) =
        some (if const then t.addConst else t) ∧ Bindable t const lvalue ∨
    bindOne (if const then t.addConst else t) (if lvalue then .lref (withConst const t.obj) else .rref (withConst const t.obj)) = none ∧
      ¬ Bindable t const lvalue := by
  obtain ⟨hr, hf⟩ := ht
  unfold bindOne
  rw [isLvalue_get]
  cases t with
  | val o =>
    simp only [Ty.obj] at hr
    have hnf : isFunc o = false := by cases o <;> first | rfl | exact absurd rfl (hf _ _)
    refine .inl ⟨?_, trivial⟩
    cases const <;> cases lvalue <;>
      simp [Ty.addConst, Ty.addL, Ty.addR, Ty.obj, withConst, referable_addConst, hr, hnf, binds, bindable_self, isLvalue, isFunc_addConst]
  | lref o =>
    simp only [Ty.obj] at hr
    have hb := @bindable_addConst o
    have hbs := bindable_self o
    cases hfo : isFunc o with
    | true =>
      have hac := func_addConst hfo
      refine .inl ⟨?_, ?_⟩
      · cases const <;> cases lvalue <;> simp [Ty.addConst, Ty.addL, Ty.addR, Ty.obj, withConst, hac, hfo, binds, hbs, isLvalue]
      · cases lvalue <;> simp [Bindable, hac, hfo]
    | false =>
      cases lvalue with
      | true =>
        cases const with
        | false => exact .inl ⟨by simp [Ty.addL, Ty.obj, withConst, binds, hbs, isLvalue], by simp [Bindable]⟩
        | true =>
          by_cases hac : o.addConst = o
          · exact .inl ⟨by simp [Ty.addConst, Ty.addL, Ty.obj, withConst, hac, binds, hbs, isLvalue], by simp [Bindable, hac]⟩
          · refine .inr ⟨?_, by simp [Bindable, hac]⟩
            have : bindable o.addConst o = false := by
              cases hx : bindable o.addConst o with
              | false => rfl
              | true => exact absurd (hb.1 hx) hac
            simp [Ty.addConst, Ty.addL, Ty.obj, withConst, binds, this]
      | false =>
        cases hcv : (o.isConst && !o.isVolatile) with
        | true =>
          simp only [Bool.and_eq_true, Bool.not_eq_true'] at hcv
          have hac := isConst_addConst hcv.1
          refine .inl ⟨?_, by simp [Bindable, hcv]⟩
          cases const <;> simp [Ty.addConst, Ty.addR, Ty.obj, withConst, hac, hfo, binds, hbs, hcv]
        | false =>
          refine .inr ⟨?_, ?_⟩
          · cases const <;> simp [Ty.addConst, Ty.addR, Ty.obj, withConst, hfo, binds, hcv, isLvalue, isFunc_addConst]
          · simp only [Bindable, hfo]
            rintro (h | ⟨h1, h2⟩)
            · cases h
            · rw [h1, h2] at hcv; cases hcv
  | rref o =>
    simp only [Ty.obj] at hr
    have hb := @bindable_addConst o
    have hbs := bindable_self o
    by_cases hac : o.addConst = o
    · refine .inl ⟨?_, by simp [Bindable, hac]⟩
      cases hfo : isFunc o <;> cases const <;> cases lvalue <;>
        simp [Ty.addConst, Ty.addL, Ty.addR, Ty.obj, withConst, hac, hfo, binds, hbs, isLvalue]
    · have hnb : bindable o.addConst o = false := by
        cases hx : bindable o.addConst o with
        | false => rfl
        | true => exact absurd (hb.1 hx) hac
      have hfo : isFunc o = false := by
        cases hx : isFunc o with
        | false => rfl
        | true => exact absurd (func_addConst hx) hac
      cases const with
      | false =>
        refine .inl ⟨?_, by simp [Bindable]⟩
        cases lvalue <;> simp [Ty.addL, Ty.addR, Ty.obj, withConst, hfo, binds, hbs, isLvalue]
      | true =>
        refine .inr ⟨?_, by simp [Bindable, hac]⟩
        cases lvalue <;> simp [Ty.addConst, Ty.addL, Ty.addR, Ty.obj, withConst, hfo, binds, hnb, isLvalue, isFunc_addConst]

/-- Can a variable be declared so, for an initializer that is an lvalue or not, `const` or not: `auto &` needs an lvalue or `const`,
`auto const &&` an rvalue. -/
def Declarable (d : Decl) (il ic : Bool) : Prop :=
  (d.op = .lref → il = true ∨ d.const = true ∨ ic = true) ∧ (d.op = .rref → d.const = true → il = false)

/-- Is the declared variable `const`? -/
def declConst (d : Decl) (ic : Bool) : Bool := d.const || (decide (d.op ≠ .copy) && ic)

/-- Is the declared variable an lvalue reference? -/
def declLvalue (d : Decl) (il : Bool) : Bool := decide (d.op = .lref) || (decide (d.op = .rref) && il)

/-- The variable that is decomposed: a copy iff declared without `&` and `&&`. -/
theorem entity_spec (d : Decl) (il ic : Bool) (e : Entity) :
    entity d il ic = some e ↔ Declarable d il ic ∧ e = ⟨decide (d.op = .copy), declConst d ic, declLvalue d il⟩ := by
  obtain ⟨c, op⟩ := d
  obtain ⟨a, b, l⟩ := e
  cases c <;> cases op <;> cases il <;> cases ic <;> simp [entity, Declarable, declConst, declLvalue] <;> grind

/-- The name for the element at position `i`. -/
def expected (ts : List Ty) (e : Entity) (i : Nat) : Option Name :=
  (ts[i]?).map fun t => ⟨if e.const then t.addConst else t, e.isCopy, match (generalizing := false) t with | .val _ => .element i | _ => .target i⟩

theorem names_spec (name : List Ty → Nat) {ts : List Ty} (e : Entity) (h : ∀ t ∈ ts, Elem t) :
    ∀ k ix, ix + k = ts.length →
      ((∀ t ∈ ts.drop ix, Bindable t e.const e.lvalue) → ∃ l, names name ts e ix k = some l ∧ l.length = k ∧ ∀ j, j < k → l[j]? = expected ts e (ix + j)) ∧
      ((∃ t ∈ ts.drop ix, ¬ Bindable t e.const e.lvalue) → names name ts e ix k = none) := by
  intro k
  induction k with
  | zero =>
    intro ix hx
    have hd : ts.drop ix = [] := List.drop_eq_nil_iff.2 (by omega)
    exact ⟨fun _ => ⟨[], rfl, rfl, fun j hj => by omega⟩, fun ⟨t, ht, _⟩ => by rw [hd] at ht; cases ht⟩
  | succ k ih =>
    intro ix hx
    have hlt : ix < ts.length := by omega
    obtain ⟨t, hts⟩ : ∃ t, ts[ix]? = some t := ⟨ts[ix], List.getElem?_eq_getElem hlt⟩
    have hdrop : ts.drop ix = t :: ts.drop (ix + 1) := by
      rw [List.drop_eq_getElem_cons hlt]
      have := (List.getElem?_eq_some_iff.1 hts).2
      rw [this]
    have het := h t (List.mem_of_getElem? hts)
    obtain ⟨ih1, ih2⟩ := ih (ix + 1) (by omega)
    have hg := get_type name ts (name ts) e.const e.lvalue ix h
    rw [hts, Option.map_some] at hg
    unfold selfTy at hg
    have hte : tupleElement ts e.const ix = some (if e.const then t.addConst else t) := by
      unfold tupleElement; rw [nth_eq, hts]; cases e.const <;> rfl
    have hpl := get_place ts ix
    rw [hts, Option.map_some] at hpl
    have hun : names name ts e ix (k + 1) =
        ((bindOne (if e.const then t.addConst else t) (if e.lvalue then .lref (withConst e.const t.obj) else .rref (withConst e.const t.obj))).bind fun t' =>
          (names name ts e (ix + 1) k).map fun r => ⟨t', e.isCopy, match (generalizing := false) t with | .val _ => .element ix | _ => .target ix⟩ :: r) := by
      simp only [names, hg, hte, hpl, Option.bind_some]
    rw [hun, hdrop]
    rcases bindOne_iff het e.const e.lvalue with ⟨hb, hB⟩ | ⟨hb, hB⟩
    · rw [hb]
      simp only [Option.bind_some]
      refine ⟨fun hall => ?_, fun hex => ?_⟩
      · obtain ⟨l, hl, hlen, hj⟩ := ih1 fun t' ht' => hall t' (List.mem_cons_of_mem _ ht')
        refine ⟨_, by rw [hl]; rfl, by simp [hlen], fun j hj' => ?_⟩
        cases j with
        | zero => simp [expected, hts]
        | succ j =>
          simp only [List.getElem?_cons_succ]
          rw [hj j (by omega), show ix + 1 + j = ix + (j + 1) by omega]
      · obtain ⟨t', ht', hn⟩ := hex
        rcases List.mem_cons.1 ht' with rfl | ht'
        · exact absurd hB hn
        · rw [ih2 ⟨t', ht', hn⟩]; rfl
    · rw [hb]
      refine ⟨fun hall => absurd (hall t (by simp)) hB, fun _ => rfl⟩

/-- **C120**: what a structured binding of a tuple means: if it is well-formed there is one name per element, in order; the name for the
element at position `i` has the declared type of that element, `const` if the binding is, and means that element of the tuple, or of the
copy for `auto [...]`, or what it refers to if it is a reference. -/
theorem bind_names (name : List Ty → Nat) {ts : List Ty} (d : Decl) (il ic : Bool) (n : Nat) (h : ∀ t ∈ ts, Elem t) {l : List Name}
    (hb : bind name ts d il ic n = some l) :
    n = ts.length ∧ l.length = ts.length ∧ ∀ i, i < ts.length →
      l[i]? = (ts[i]?).map fun t =>
        ⟨if declConst d ic then t.addConst else t, decide (d.op = .copy), match (generalizing := false) t with | .val _ => .element i | _ => .target i⟩ := by
  unfold bind at hb
  split at hb
  · rename_i hn
    subst hn
    cases he : entity d il ic with
    | none => rw [he] at hb; cases hb
    | some e =>
      rw [he] at hb
      simp only [Option.bind_some] at hb
      obtain ⟨h1, h2⟩ := names_spec name e h ts.length 0 (by omega)
      by_cases hall : ∀ t ∈ ts.drop 0, Bindable t e.const e.lvalue
      · obtain ⟨l', hl', hlen, hj⟩ := h1 hall
        simp only [tupleSize] at hb
        rw [hl'] at hb
        injection hb with hb
        subst hb
        refine ⟨rfl, hlen, fun i hi => ?_⟩
        have := hj i hi
        simp only [Nat.zero_add] at this
        obtain ⟨-, rfl⟩ := (entity_spec d il ic e).1 he
        rw [this]; rfl
      · have hex : ∃ t ∈ ts.drop 0, ¬ Bindable t e.const e.lvalue := by
          apply Classical.byContradiction
          intro hne
          exact hall fun t ht => Classical.byContradiction fun hn => hne ⟨t, ht, hn⟩
        simp only [tupleSize] at hb
        rw [h2 hex] at hb; cases hb
  · cases hb

example : bind (fun _ => 7) [.val (.named 0 false false), .lref (.named 1 false false)] ⟨false, .lref⟩ true false 2 =
    some [⟨.val (.named 0 false false), false, .element 0⟩, ⟨.lref (.named 1 false false), false, .target 1⟩] := by decide

/-- **C120**: exactly when a structured binding of a tuple is well-formed. -/
theorem bind_iff (name : List Ty → Nat) {ts : List Ty} (d : Decl) (il ic : Bool) (n : Nat) (h : ∀ t ∈ ts, Elem t) :
    (bind name ts d il ic n).isSome = true ↔
      n = ts.length ∧ Declarable d il ic ∧ ∀ t ∈ ts, match t with
        | .val _ => True
        | .lref o =>
          if declLvalue d il then declConst d ic = true → o.addConst = o else isFunc o = true ∨ (o.isConst = true ∧ o.isVolatile = false)
        | .rref o => declConst d ic = true → o.addConst = o := by
  unfold bind
  by_cases hn : n = ts.length
  · subst hn
    simp only [tupleSize, if_true, true_and]
    cases he : entity d il ic with
    | none =>
      have : ¬ Declarable d il ic := fun hd => by have := (entity_spec d il ic _).2 ⟨hd, rfl⟩; rw [he] at this; cases this
      simp [this]
    | some e =>
      obtain ⟨hd, rfl⟩ := (entity_spec d il ic e).1 he
      simp only [Option.bind_some, hd, true_and]
      obtain ⟨h1, h2⟩ := names_spec name ⟨decide (d.op = .copy), declConst d ic, declLvalue d il⟩ h ts.length 0 (by omega)
      constructor
      · intro hs t ht
        apply Classical.byContradiction
        intro hne
        rw [h2 ⟨t, by simpa using ht, hne⟩] at hs
        cases hs
      · intro hall
        obtain ⟨l, hl, _⟩ := h1 fun t ht => hall t (by simpa using ht)
        rw [hl]; rfl
  · simp [tupleSize, hn]

/-- **C120**: tuples without references can be bound in every way in which a variable can be declared. -/
theorem bind_values (name : List Ty → Nat) {ts : List Ty} (d : Decl) (il ic : Bool) (h : ∀ t ∈ ts, Elem t) (hv : ∀ t ∈ ts, ∃ o, t = .val o) :
    (bind name ts d il ic ts.length).isSome = true ↔ Declarable d il ic := by
  rw [bind_iff name d il ic _ h]
  constructor
  · rintro ⟨_, he, _⟩; exact he
  · intro hs
    refine ⟨rfl, hs, fun t ht => ?_⟩
    obtain ⟨o, rfl⟩ := hv t ht
    trivial

example : (bind (fun _ => 7) [.val (.named 0 false false), .val (.named 1 false true)] ⟨true, .copy⟩ true false 2).isSome = true := by decide

/-- **C120**: a tuple with an element of type `int &` cannot be bound by `auto [x]`, nor by `auto const &[x]`, only by `auto &[x]`;
`std::tuple` can be bound in all three ways. -/
theorem bind_reference_refuted :
    let ts : List Ty := [.lref (.named 0 false false)]
    bind (fun _ => 7) ts ⟨false, .copy⟩ true false 1 = none ∧ bind (fun _ => 7) ts ⟨true, .lref⟩ true false 1 = none ∧
      bind (fun _ => 7) ts ⟨false, .lref⟩ true false 1 = some [⟨.lref (.named 0 false false), false, .target 0⟩] := by
  decide

/-- **C120**: with the type `std::get` has, a name can be introduced for every element of every tuple. -/
theorem std_bind_always {t : Ty} (ht : Elem t) (const lvalue : Bool) :
    ∃ g, stdGet t const lvalue = some g ∧ bindOne (if const then t.addConst else t) g = some (if const then t.addConst else t) := by
  obtain ⟨hr, hf⟩ := ht
  cases t with
  | val o =>
    simp only [Ty.obj] at hr
    have hnf : isFunc o = false := by cases o <;> first | rfl | exact absurd rfl (hf _ _)
    cases const <;> cases lvalue <;>
      simp [stdGet, bindOne, Ty.addConst, Ty.addL, Ty.addR, Ty.obj, referable_addConst, hr, hnf, binds, bindable_self, isLvalue, isFunc_addConst]
  | lref o =>
    cases const <;> cases lvalue <;> simp [stdGet, bindOne, Ty.addConst, Ty.addL, Ty.addR, Ty.obj, binds, bindable_self, isLvalue]
  | rref o =>
    cases hfo : isFunc o <;> cases const <;> cases lvalue <;>
      simp [stdGet, bindOne, Ty.addConst, Ty.addL, Ty.addR, Ty.obj, binds, bindable_self, isLvalue, hfo]

example : Elem (.rref (.named 0 false false)) ∧ stdGet (.rref (.named 0 false false)) true true = some (.lref (.named 0 false false)) :=
  ⟨⟨rfl, by intros; simp⟩, by decide⟩

/-! ### Structured bindings of pairs -/

/-- **C120**: every structured binding of a `pointer_tag_pair` with two names is well-formed if the variable can be declared, for all
types of pointers and tags; the first name has the pointer type and the second the type of the tag, without `const`, however the binding is
declared. -/
theorem pair_bind {ptr tag : Obj} (d : Decl) (il ic : Bool) (n : Nat) (hp : Elem (.val ptr)) (ht : Elem (.val tag)) :
    (n = 2 ∧ Declarable d il ic → pairBind ptr tag d il ic n = some [.val ptr, .val tag]) ∧
      (¬ (n = 2 ∧ Declarable d il ic) → pairBind ptr tag d il ic n = none) := by
  have h1 : ∀ c, pairName ptr tag c 0 = some (.val ptr) := by
    intro c
    have := hp.1
    simp only [Ty.obj] at this
    simp [pairName, pairGet, pairElement, isLvalue, Ty.addR, this, Ty.obj, bindable_self]
  have h2 : ∀ c, pairName ptr tag c 1 = some (.val tag) := by
    intro c
    have := ht.1
    simp only [Ty.obj] at this
    simp [pairName, pairGet, pairElement, isLvalue, Ty.addR, this, Ty.obj, bindable_self]
  unfold pairBind
  by_cases hn : n = 2
  · simp only [hn, if_true, true_and]
    cases he : entity d il ic with
    | none =>
      have : ¬ Declarable d il ic := fun hd => by have := (entity_spec d il ic _).2 ⟨hd, rfl⟩; rw [he] at this; cases this
      simp [this]
    | some e =>
      have := ((entity_spec d il ic e).1 he).1
      simp [h1, h2, this]
  · simp [hn]

example : pairBind (.named 0 false false) (.named 1 false false) ⟨false, .copy⟩ true false 2 = some [.val (.named 0 false false), .val (.named 1 false false)] := by
  decide

/-- **C120**: the parts of a pair are given as values, never as lvalues: the names of a binding mean temporaries, and assigning to them leaves
the pair as it is. -/
theorem pair_get_value {ptr tag : Obj} {i : Nat} {g : Ty} (h : pairGet ptr tag i = some g) :
    isLvalue g = false ∧ ((i = 0 ∧ g = .val ptr) ∨ (i = 1 ∧ g = .val tag)) := by
  match i, h with
  | 0, h => cases h; exact ⟨rfl, .inl ⟨rfl, rfl⟩⟩
  | 1, h => cases h; exact ⟨rfl, .inr ⟨rfl, rfl⟩⟩

example : pairGet (.named 0 false false) (.named 1 false false) 1 = some (.val (.named 1 false false)) := rfl

/-- **C120**: `auto const [p, t] = pair;` does not make the names `const`: the first one has the same type as without `const`, and can be
assigned to. -/
theorem pair_const_refuted :
    pairBind (.named 0 false false) (.named 1 false false) ⟨true, .copy⟩ true false 2 =
      pairBind (.named 0 false false) (.named 1 false false) ⟨false, .copy⟩ true false 2 ∧
    Obj.isConst (.named 0 false false) = false := by decide

end Verif.Binding
