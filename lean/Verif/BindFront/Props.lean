import Verif.BindFront.Model
import Verif.Qualifiers.Props

namespace Verif.BindFront

variable {σ V ρ : Type}

/-! ## Lemmas -/

theorem invoke_some {moved : V → V} {f : Callee σ V ρ} {s : σ} {args : List (Arg V)} {r : Res σ V ρ} (h : invoke moved f s args = some r) :
    f.params.length = args.length ∧ (∀ pa ∈ f.params.zip args, accepts pa.1 pa.2 = true) ∧
    r.state = (f.body s (args.map (·.value))).1 ∧ r.result = (f.body s (args.map (·.value))).2.1 ∧
    r.objects = (f.params.zip args).mapIdx fun i pa => after moved pa.1 pa.2 ((f.body s (args.map (·.value))).2.2 i) := by
  unfold invoke at h
  split at h
  · simp at h
  · rename_i hc
    simp only [Bool.and_eq_true, decide_eq_true_eq, List.all_eq_true] at hc
    simp only [Option.some.injEq] at h
    subst h
    exact ⟨hc.1, hc.2, rfl, rfl, rfl⟩

theorem invoke_eq (moved : V → V) (f : Callee σ V ρ) (s : σ) (args : List (Arg V)) (hl : f.params.length = args.length)
    (ha : ∀ pa ∈ f.params.zip args, accepts pa.1 pa.2 = true) :
    ∃ r, invoke moved f s args = some r := by
  unfold invoke
  have : (decide (f.params.length = args.length) && (f.params.zip args).all (fun pa => accepts pa.1 pa.2)) = true := by
    simp only [Bool.and_eq_true, decide_eq_true_eq, List.all_eq_true]
    exact ⟨hl, ha⟩
  rw [this]
  exact ⟨_, rfl⟩

theorem objects_get {moved : V → V} {f : Callee σ V ρ} {s : σ} {args : List (Arg V)} {r : Res σ V ρ} (h : invoke moved f s args = some r)
    (i : Nat) (p : Param) (a : Arg V) (hp : f.params[i]? = some p) (ha : args[i]? = some a) :
    ∃ w, r.objects[i]? = some (after moved p a w) := by
  obtain ⟨_, _, _, _, h5⟩ := invoke_some h
  refine ⟨(f.body s (args.map (·.value))).2.2 i, ?_⟩
  · have hz : (f.params.zip args)[i]? = some (p, a) := List.getElem?_zip_eq_some.2 ⟨hp, ha⟩
    rw [h5, List.getElem?_mapIdx, hz]
    rfl

theorem objects_length {moved : V → V} {f : Callee σ V ρ} {s : σ} {args : List (Arg V)} {r : Res σ V ρ} (h : invoke moved f s args = some r) :
    r.objects.length = args.length := by
  obtain ⟨h1, _, _, _, h5⟩ := invoke_some h
  rw [h5]; simp [h1]

/-! ## C57: bind_front -/

/-- A logger: takes its first argument by value and second by reference to const. -/
def logger : Callee (List (List Nat)) Nat Nat where
  params := [.byValue, .constRef, .byValue]
  body s l := (s ++ [l], some l.length, fun _ => 0)

/-- **C57.** `bind_front<f>(a...)(b...)` runs the body of `f` exactly once, with the values `a..., b...` in this order, and gives its state change
and result (or exception). For every callee, every number of arguments and any way of calling the closure for which it compiles. -/
theorem call_order {moved : V → V} {f : Callee σ V ρ} {s : σ} {a b : List (Arg V)} {lv cst : Bool} {r : Res σ V ρ} {c' : Closure V}
    (h : call moved f s (bindFront a) lv cst b = some (r, c')) :
    r.state = (f.body s (a.map (·.value) ++ b.map (·.value))).1 ∧ r.result = (f.body s (a.map (·.value) ++ b.map (·.value))).2.1 := by
  simp only [call, Option.map_eq_some_iff, Prod.mk.injEq] at h
  obtain ⟨q, hq, h1, h2⟩ := h
  obtain ⟨_, _, e1, e2, _⟩ := invoke_some hq
  have hv : (((bindFront a).bound.map fun v => (⟨v, lv, cst⟩ : Arg V)) ++ b).map (·.value) = a.map (·.value) ++ b.map (·.value) := by
    simp [bindFront]
  rw [hv] at e1 e2
  subst h1
  exact ⟨e1, e2⟩

example : (call (fun _ => 0) logger [] (bindFront [⟨5, false, false⟩, ⟨6, true, false⟩]) true false [⟨1, true, false⟩]).map
    (fun r => (r.1.state, r.1.result)) = some ([[5, 6, 1]], some 3) := by decide

/-- **C57.** Whatever changes the callee makes through its other parameters: a call as lvalue leaves the bound arguments alone if the callee takes
them by value or by reference to const; so does any call of a const closure. -/
theorem bound_unchanged {moved : V → V} {f : Callee σ V ρ} {s : σ} {c c' : Closure V} {lv cst : Bool} {b : List (Arg V)} {r : Res σ V ρ}
    (h : call moved f s c lv cst b = some (r, c'))
    (hp : cst = true ∨ (lv = true ∧ ∀ p ∈ f.params.take c.bound.length, p = .byValue ∨ p = .constRef)) : c' = c := by
  simp only [call, Option.map_eq_some_iff, Prod.mk.injEq] at h
  obtain ⟨q, hq, _, rfl⟩ := h
  obtain ⟨bound⟩ := c
  simp only [Closure.mk.injEq] at *
  obtain ⟨hl, hacc, _, _, _⟩ := invoke_some hq
  have hlen := objects_length hq
  apply List.ext_getElem?
  intro i
  by_cases hi : i < bound.length
  · obtain ⟨v, hv⟩ : ∃ v, bound[i]? = some v := ⟨bound[i], by simp [hi]⟩
    have hpi : i < f.params.length := by rw [hl]; simp; omega
    have hargs : ((bound.map fun v => (⟨v, lv, cst⟩ : Arg V)) ++ b)[i]? = some ⟨v, lv, cst⟩ := by
      rw [List.getElem?_append_left (by simpa using hi)]; simp [hv]
    have hparam : f.params[i]? = some f.params[i] := by simp [hpi]
    obtain ⟨w, hw⟩ := objects_get hq i _ _ hparam hargs
    rw [List.getElem?_take, if_pos hi, hw, hv]
    have hmem : (f.params[i], (⟨v, lv, cst⟩ : Arg V)) ∈ f.params.zip ((bound.map fun v => (⟨v, lv, cst⟩ : Arg V)) ++ b) := by
      refine List.mem_of_getElem? (i := i) ?_
      rw [List.getElem?_zip_eq_some]; exact ⟨hparam, hargs⟩
    have hok := hacc _ hmem
    rcases hp with rfl | ⟨rfl, hp⟩
    · cases hpar : f.params[i] <;> rw [hpar] at hok <;> simp [accepts, after] at hok ⊢
    · have := hp f.params[i] (by
        refine List.mem_of_getElem? (i := i) ?_
        rw [List.getElem?_take, if_pos hi, hparam])
      rcases this with e | e <;> rw [e] <;> simp [after]
  · rw [List.getElem?_take, if_neg hi]
    simp only [Nat.not_lt] at hi
    rw [List.getElem?_eq_none hi]

example : (∀ p ∈ logger.params.take 2, p = .byValue ∨ p = .constRef) ∧
    (call (fun _ => 0) logger [] ⟨[5, 6]⟩ true false [⟨1, true, false⟩]).map (·.2) = some ⟨[5, 6]⟩ := by decide

/-- A sequence of calls of the closure as (const) lvalue, each with its own further arguments; gives what each call returned. -/
def calls (moved : V → V) (f : Callee σ V ρ) (cst : Bool) : σ → Closure V → List (List (Arg V)) → Option (σ × Closure V × List (Option ρ))
  | s, c, [] => some (s, c, [])
  | s, c, b :: bs => (call moved f s c true cst b).bind fun rc =>
      (calls moved f cst rc.1.state rc.2 bs).map fun x => (x.1, x.2.1, rc.1.result :: x.2.2)

/-- What the caller expects: the function is called with the bound values and the further ones, in each call. -/
def expected (f : Callee σ V ρ) (bound : List V) : σ → List (List V) → σ × List (Option ρ)
  | s, [] => (s, [])
  | s, b :: bs =>
    let r := f.body s (bound ++ b)
    let x := expected f bound r.1 bs
    (x.1, r.2.1 :: x.2)

/-- **C57.** Repeated calls see the same bound values. -/
theorem repeated_calls {moved : V → V} {f : Callee σ V ρ} {cst : Bool} {a : List (Arg V)}
    (hp : cst = true ∨ ∀ p ∈ f.params.take a.length, p = .byValue ∨ p = .constRef) :
    ∀ {bs : List (List (Arg V))} {s s' : σ} {c' : Closure V} {rs : List (Option ρ)},
      calls moved f cst s (bindFront a) bs = some (s', c', rs) →
      (s', rs) = expected f (a.map (·.value)) s (bs.map fun b => b.map (·.value)) ∧ c' = bindFront a
  | [], s, s', c', rs, h => by
    simp only [calls, Option.some.injEq, Prod.mk.injEq] at h
    obtain ⟨rfl, rfl, rfl⟩ := h
    simp [expected]
  | b :: bs, s, s', c', rs, h => by
    simp only [calls, Option.bind_eq_some_iff, Option.map_eq_some_iff, Prod.mk.injEq] at h
    obtain ⟨⟨r, c1⟩, h1, ⟨s2, c2, rs2⟩, h2, rfl, rfl, rfl⟩ := h
    obtain ⟨o1, o2⟩ := call_order h1
    have hc : c1 = bindFront a := bound_unchanged h1 (by
      rcases hp with h | h
      · exact .inl h
      · exact .inr ⟨rfl, by simpa [bindFront] using h⟩)
    subst hc
    obtain ⟨i1, i2⟩ := repeated_calls hp h2
    simp only at i1 i2 ⊢
    refine ⟨?_, i2⟩
    simp only [List.map_cons, expected]
    simp only at o1 o2
    rw [← o1, ← i1, o2]

example : (∀ p ∈ logger.params.take 2, p = .byValue ∨ p = .constRef) ∧
    calls (fun _ => 0) logger false [] (bindFront [⟨5, false, false⟩, ⟨6, true, false⟩]) [[⟨1, true, false⟩], [⟨2, false, false⟩]] =
      some ([[5, 6, 1], [5, 6, 2]], ⟨[5, 6]⟩, [some 3, some 3]) := by decide

/-- **C57.** A call as rvalue moves exactly the arguments the callee takes by value out of the closure; those taken by reference to const stay. -/
theorem rvalue_call {moved : V → V} {f : Callee σ V ρ} {s : σ} {c c' : Closure V} {b : List (Arg V)} {r : Res σ V ρ}
    (h : call moved f s c false false b = some (r, c')) {i : Nat} {v : V} (hv : c.bound[i]? = some v) :
    (f.params[i]? = some .byValue → c'.bound[i]? = some (moved v)) ∧ (f.params[i]? = some .constRef → c'.bound[i]? = some v) ∧
    f.params[i]? ≠ some .lvalueRef := by
  simp only [call, Option.map_eq_some_iff, Prod.mk.injEq] at h
  obtain ⟨q, hq, _, rfl⟩ := h
  obtain ⟨bound⟩ := c
  simp only at hv hq ⊢
  have hi : i < bound.length := by
    rw [List.getElem?_eq_some_iff] at hv; exact hv.1
  have hargs : ((bound.map fun v => (⟨v, false, false⟩ : Arg V)) ++ b)[i]? = some ⟨v, false, false⟩ := by
    rw [List.getElem?_append_left (by simpa using hi)]; simp [hv]
  refine ⟨?_, ?_, ?_⟩
  · intro hp
    obtain ⟨w, hw⟩ := objects_get hq i _ _ hp hargs
    rw [List.getElem?_take, if_pos hi, hw]; rfl
  · intro hp
    obtain ⟨w, hw⟩ := objects_get hq i _ _ hp hargs
    rw [List.getElem?_take, if_pos hi, hw]; rfl
  · intro hp
    obtain ⟨_, hacc, _⟩ := invoke_some hq
    have := hacc (.lvalueRef, ⟨v, false, false⟩) (List.mem_of_getElem? (i := i) (List.getElem?_zip_eq_some.2 ⟨hp, hargs⟩))
    simp [accepts] at this

/-- The parameter taken by value has taken over the first bound argument. -/
example : (call (fun _ => 0) logger [] ⟨[5, 6]⟩ false false [⟨1, true, false⟩]).map (·.2) = some ⟨[0, 6]⟩ := by decide

/-- **C57.** The call compiles exactly if the callee takes as many arguments as are bound and given, parameters `T &` stand only for lvalues that are not
const, and parameters `T &&` only for rvalues that are not const, where the bound arguments have the value category and constness of the closure. -/
theorem call_compiles (moved : V → V) (f : Callee σ V ρ) (s : σ) (c : Closure V) (lv cst : Bool) (b : List (Arg V)) :
    (∃ p, call moved f s c lv cst b = some p) ↔
      f.params.length = c.bound.length + b.length ∧
      (∀ i, i < c.bound.length → (f.params[i]? = some .lvalueRef → lv = true ∧ cst = false) ∧ (f.params[i]? = some .rvalueRef → lv = false ∧ cst = false)) ∧
      (∀ i a, b[i]? = some a → (f.params[c.bound.length + i]? = some .lvalueRef → a.lvalue = true ∧ a.const = false) ∧
        (f.params[c.bound.length + i]? = some .rvalueRef → a.lvalue = false ∧ a.const = false)) := by
  have hacc : ∀ (p : Param) (a : Arg V), accepts p a = true ↔
      (p = .lvalueRef → a.lvalue = true ∧ a.const = false) ∧ (p = .rvalueRef → a.lvalue = false ∧ a.const = false) := by
    intro p a; cases p <;> simp [accepts]
  have hlen : ((c.bound.map fun v => (⟨v, lv, cst⟩ : Arg V)) ++ b).length = c.bound.length + b.length := by simp
  constructor
  · rintro ⟨p, hp⟩
    simp only [call, Option.map_eq_some_iff] at hp
    obtain ⟨q, hq, _⟩ := hp
    obtain ⟨h1, h2, _⟩ := invoke_some hq
    refine ⟨by rw [h1, hlen], fun i hi => ?_, fun i a ha => ?_⟩
    · have hargs : ((c.bound.map fun v => (⟨v, lv, cst⟩ : Arg V)) ++ b)[i]? = some ⟨c.bound[i], lv, cst⟩ := by
        rw [List.getElem?_append_left (by simpa using hi)]; simp [hi]
      have key := fun p (hp : f.params[i]? = some p) => (hacc p _).mp (h2 (p, ⟨c.bound[i], lv, cst⟩) (List.mem_of_getElem? (i := i) (List.getElem?_zip_eq_some.2 ⟨hp, hargs⟩)))
      exact ⟨fun hp => (key _ hp).1 rfl, fun hp => (key _ hp).2 rfl⟩
    · have hargs : ((c.bound.map fun v => (⟨v, lv, cst⟩ : Arg V)) ++ b)[c.bound.length + i]? = some a := by
        rw [List.getElem?_append_right (by simp)]; simp [ha]
      have key := fun p (hp : f.params[c.bound.length + i]? = some p) => (hacc p _).mp (h2 (p, a) (List.mem_of_getElem? (i := c.bound.length + i) (List.getElem?_zip_eq_some.2 ⟨hp, hargs⟩)))
      exact ⟨fun hp => (key _ hp).1 rfl, fun hp => (key _ hp).2 rfl⟩
  · rintro ⟨h1, h2, h3⟩
    obtain ⟨r, hr⟩ := invoke_eq moved f s ((c.bound.map fun v => (⟨v, lv, cst⟩ : Arg V)) ++ b) (by rw [h1, hlen]) (by
      intro pa hpa
      obtain ⟨i, hi⟩ := List.mem_iff_getElem?.mp hpa
      obtain ⟨p, a⟩ := pa
      obtain ⟨hp, ha⟩ := List.getElem?_zip_eq_some.1 hi
      simp only at hp ha
      rw [hacc]
      by_cases hlt : i < c.bound.length
      · rw [List.getElem?_append_left (by simpa using hlt)] at ha
        simp [hlt] at ha
        subst ha
        exact ⟨fun e => (h2 i hlt).1 (e ▸ hp), fun e => (h2 i hlt).2 (e ▸ hp)⟩
      · rw [List.getElem?_append_right (by simp; omega)] at ha
        simp only [List.length_map] at ha
        have hi' : c.bound.length + (i - c.bound.length) = i := by omega
        have := h3 _ a ha
        rw [hi'] at this
        exact ⟨fun e => this.1 (e ▸ hp), fun e => this.2 (e ▸ hp)⟩)
    exact ⟨_, by simp only [call, hr, Option.map_some]; rfl⟩

/-- A callee that takes a reference to a non-const rvalue: only closures that are rvalues can be called. -/
example : (call (fun _ => 0) (⟨[.rvalueRef], fun s l => (s, some l, fun _ => 0)⟩ : Callee Nat Nat (List Nat)) 0 ⟨[5]⟩ false false []).isSome ∧
    (call (fun _ => 0) (⟨[.rvalueRef], fun s l => (s, some l, fun _ => 0)⟩ : Callee Nat Nat (List Nat)) 0 ⟨[5]⟩ true false []).isNone := by decide

/-- **C57.** Further arguments are forwarded: rvalues taken by value are moved from, lvalues are copied. -/
theorem rest_forwarded {moved : V → V} {f : Callee σ V ρ} {s : σ} {c c' : Closure V} {lv cst : Bool} {b : List (Arg V)} {r : Res σ V ρ}
    (h : call moved f s c lv cst b = some (r, c')) {i : Nat} {a : Arg V} (ha : b[i]? = some a)
    (hp : f.params[c.bound.length + i]? = some .byValue) :
    r.objects[i]? = some (if a.lvalue ∨ a.const then a.value else moved a.value) := by
  simp only [call, Option.map_eq_some_iff, Prod.mk.injEq] at h
  obtain ⟨q, hq, rfl, _⟩ := h
  have hargs : ((c.bound.map fun v => (⟨v, lv, cst⟩ : Arg V)) ++ b)[c.bound.length + i]? = some a := by
    rw [List.getElem?_append_right (by simp)]; simp [ha]
  obtain ⟨w, hw⟩ := objects_get hq _ _ _ hp hargs
  simp only [List.getElem?_drop]
  rw [hw]
  simp only [after]
  cases a.lvalue <;> cases a.const <;> simp

/-- The argument of the call is an rvalue and is moved into the parameter. -/
example : logger.params[2]? = some .byValue ∧
    (call (fun _ => 0) logger [] ⟨[5, 6]⟩ true false [⟨1, false, false⟩]).map (·.1.objects) = some [0] := by decide

/-- What the objects of a call hold after it: for every parameter, whatever the callee does. -/
theorem objects_after {moved : V → V} {f : Callee σ V ρ} {s : σ} {args : List (Arg V)} {r : Res σ V ρ} (h : invoke moved f s args = some r)
    (i : Nat) (p : Param) (a : Arg V) (hp : f.params[i]? = some p) (ha : args[i]? = some a) :
    r.objects[i]? = some (after moved p a ((f.body s (args.map (·.value))).2.2 i)) := by
  obtain ⟨_, _, _, _, h5⟩ := invoke_some h
  have hz : (f.params.zip args)[i]? = some (p, a) := List.getElem?_zip_eq_some.2 ⟨hp, ha⟩
  rw [h5, List.getElem?_mapIdx, hz]
  rfl

/-- **C57.** What a bound argument is after a call, for every kind of parameter it is given to: a parameter by value takes it over if the closure is an
rvalue that is not const, a reference to const leaves it, and through other references it gets what the callee leaves there. -/
theorem bound_after {moved : V → V} {f : Callee σ V ρ} {s : σ} {c c' : Closure V} {lv cst : Bool} {b : List (Arg V)} {r : Res σ V ρ}
    (h : call moved f s c lv cst b = some (r, c')) {i : Nat} {v : V} (hv : c.bound[i]? = some v) {p : Param} (hp : f.params[i]? = some p) :
    c'.bound[i]? = some (match p with
      | .byValue => if lv ∨ cst then v else moved v
      | .constRef => v
      | .lvalueRef | .rvalueRef => (f.body s (c.bound ++ b.map (·.value))).2.2 i) := by
  simp only [call, Option.map_eq_some_iff, Prod.mk.injEq] at h
  obtain ⟨q, hq, _, rfl⟩ := h
  obtain ⟨bound⟩ := c
  simp only at hv hq ⊢
  have hi : i < bound.length := by
    rw [List.getElem?_eq_some_iff] at hv; exact hv.1
  have hargs : ((bound.map fun v => (⟨v, lv, cst⟩ : Arg V)) ++ b)[i]? = some ⟨v, lv, cst⟩ := by
    rw [List.getElem?_append_left (by simpa using hi)]; simp [hv]
  rw [List.getElem?_take, if_pos hi, objects_after hq i _ _ hp hargs]
  have hm : ((bound.map fun v => (⟨v, lv, cst⟩ : Arg V)) ++ b).map (·.value) = bound ++ b.map (·.value) := by simp [Function.comp_def]
  rw [hm]
  cases p <;> simp only [after]
  cases lv <;> cases cst <;> simp

/-- **C57.** The same for the further arguments: they are forwarded as they are given. -/
theorem rest_after {moved : V → V} {f : Callee σ V ρ} {s : σ} {c c' : Closure V} {lv cst : Bool} {b : List (Arg V)} {r : Res σ V ρ}
    (h : call moved f s c lv cst b = some (r, c')) {i : Nat} {a : Arg V} (ha : b[i]? = some a) {p : Param}
    (hp : f.params[c.bound.length + i]? = some p) :
    r.objects[i]? = some (match p with
      | .byValue => if a.lvalue ∨ a.const then a.value else moved a.value
      | .constRef => a.value
      | .lvalueRef | .rvalueRef => (f.body s (c.bound ++ b.map (·.value))).2.2 (c.bound.length + i)) := by
  simp only [call, Option.map_eq_some_iff, Prod.mk.injEq] at h
  obtain ⟨q, hq, rfl, _⟩ := h
  have hargs : ((c.bound.map fun v => (⟨v, lv, cst⟩ : Arg V)) ++ b)[c.bound.length + i]? = some a := by
    rw [List.getElem?_append_right (by simp)]; simp [ha]
  simp only [List.getElem?_drop]
  rw [objects_after hq _ _ _ hp hargs]
  have hm : ((c.bound.map fun v => (⟨v, lv, cst⟩ : Arg V)) ++ b).map (·.value) = c.bound ++ b.map (·.value) := by simp [Function.comp_def]
  rw [hm]
  cases p <;> simp only [after]
  cases a.lvalue <;> cases a.const <;> simp

/-- A callee that leaves 7 in everything it has a reference to: the bound argument and the further one. -/
example : (call (fun _ => 0) (⟨[.rvalueRef, .lvalueRef], fun s l => (s, some l, fun _ => 7)⟩ : Callee Nat Nat (List Nat)) 0 ⟨[5]⟩ false false
    [⟨6, true, false⟩]).map (fun r => (r.1.objects, r.2.bound)) = some ([7], [7]) := by decide

/-- `bind_front` itself: lvalues given to it are not changed, rvalues are moved from. -/
theorem bind_leaves (moved : V → V) (args : List (Arg V)) {i : Nat} {a : Arg V} (h : args[i]? = some a) :
    (bindFrontLeaves moved args)[i]? = some (if a.lvalue ∨ a.const then a.value else moved a.value) := by
  simp only [bindFrontLeaves, List.getElem?_map, h, Option.map_some, after]
  cases a.lvalue <;> cases a.const <;> simp

/-- An rvalue is moved from, an lvalue is left. -/
example : bindFrontLeaves (fun _ => 0) [⟨5, false, false⟩, ⟨6, true, false⟩] = [0, 6] := rfl

example : (∀ p ∈ logger.params.take 2, p = .byValue ∨ p = .constRef) ∧
    calls (fun _ => 0) logger false [] (bindFront [⟨5, false, false⟩, ⟨6, true, false⟩]) [[⟨1, true, false⟩], [⟨2, false, false⟩]] =
      some ([[5, 6, 1], [5, 6, 2]], ⟨[5, 6]⟩, [some 3, some 3]) ∧
    (call (fun _ => 0) logger [] (bindFront [⟨5, false, false⟩, ⟨6, true, false⟩]) false false [⟨1, true, false⟩]).map (·.2) =
      some ⟨[0, 6]⟩ := by
  decide

/-- A counter incrementing its argument, taken by reference to non-const. -/
def increments : Callee Unit Nat Nat where
  params := [.lvalueRef]
  body _ l := ((), l[0]?, fun i => l.getD i 0 + 1)

/-- **C57, refuted** for callees taking the argument by reference to non-const: they change it in a call as lvalue, and the next call sees
another value. -/
theorem lvalue_ref_refuted :
    calls (fun _ => 0) increments false () (bindFront [⟨5, true, false⟩]) [[], []] = some ((), ⟨[7]⟩, [some 5, some 6]) := by decide

/-- The exception specification of the closure asks about the types that are passed: for every closure type and every decayed argument. -/
theorem noexcept_types (L : Nat) (v cst : Bool) (lv : Bool) (o : Qualifiers.Obj) (ho : o.referable = true) :
    passedType (match lv with | true => .lref (.named L cst v) | false => .val (.named L cst v)) o =
    noexceptType (match lv with | true => .lref (.named L cst v) | false => .val (.named L cst v)) o := by
  open Qualifiers in
  have idem : ∀ o : Obj, o.addConst.addConst = o.addConst := fun o => by
    induction o with
    | arr e l ih => simp [Obj.addConst, ih]
    | _ => simp [Obj.addConst]
  have hr := (addConst_obs o).2.2.2.2.trans ho
  have hL : ∀ c : Bool, (Obj.named L c v).referable = true := fun _ => rfl
  cases lv <;> cases cst <;>
    simp [passedType, noexceptType, forwardLike, likeT, deduced, like, copyConst, Ty.addL, Ty.addR, Ty.obj, Ty.addConst, Obj.isConst,
      hL, ho, hr, idem]

example : (Qualifiers.Obj.arr (.named 3 true false) none).referable = true := by decide

/-! ## C57: DICE_MEMFN -/

theorem evalAll_length {env : Env V} : ∀ {args : List (MArg V)} {xs : List (Arg V)}, evalAll env args = some xs → xs.length = args.length
  | [], xs, h => by simp [evalAll] at h; simp [← h]
  | a :: as, xs, h => by
    simp only [evalAll, Option.bind_eq_some_iff, Option.map_eq_some_iff] at h
    obtain ⟨x, _, ys, h2, rfl⟩ := h
    simp [evalAll_length h2]

theorem evalAll_get {env : Env V} {l : Nat} {c : Bool} : ∀ {args : List (MArg V)} {xs : List (Arg V)} {i : Nat}, evalAll env args = some xs →
    args[i]? = some (.var l c) → ∃ v, env l = some v ∧ xs[i]? = some ⟨v, true, c⟩
  | [], _, _, _, hi => by simp at hi
  | a :: as, xs, i, hx, hi => by
    simp only [evalAll, Option.bind_eq_some_iff, Option.map_eq_some_iff] at hx
    obtain ⟨x, h1, ys, h2, rfl⟩ := hx
    cases i with
    | zero =>
      simp only [List.getElem?_cons_zero, Option.some.injEq] at hi
      subst hi
      simp only [MArg.eval, Option.map_eq_some_iff] at h1
      obtain ⟨v, hv, rfl⟩ := h1
      exact ⟨v, hv, rfl⟩
    | succ i =>
      obtain ⟨v, hv, hy⟩ := evalAll_get h2 (i := i) (by simpa using hi)
      exact ⟨v, hv, by simpa using hy⟩

/-- The value of an argument of the macro in a scope. -/
def MArg.value (env : Env V) : MArg V → Option V
  | .var loc _ => env loc
  | .expr f => f env

theorem evalAll_value {env : Env V} : ∀ {args : List (MArg V)} {xs : List (Arg V)}, evalAll env args = some xs →
    xs.map (fun x => some x.value) = args.map (MArg.value env)
  | [], xs, h => by simp [evalAll] at h; simp [← h]
  | a :: as, xs, h => by
    simp only [evalAll, Option.bind_eq_some_iff, Option.map_eq_some_iff] at h
    obtain ⟨x, h1, ys, h2, rfl⟩ := h
    simp only [List.map_cons, evalAll_value h2]
    congr 1
    cases a <;> simp only [MArg.eval, Option.map_eq_some_iff] at h1 <;> obtain ⟨v, hv, rfl⟩ := h1 <;> simp [MArg.value, hv]

/-- **C57.** Variables written in the macro are passed as lvalues, const if they are; other expressions are passed as the non-const temporaries they are. -/
theorem evalAll_category {env : Env V} : ∀ {args : List (MArg V)} {xs : List (Arg V)}, evalAll env args = some xs →
    xs.map (fun x => (x.lvalue, x.const)) = args.map fun
      | .var _ c => (true, c)
      | .expr _ => (false, false)
  | [], xs, h => by simp [evalAll] at h; simp [← h]
  | a :: as, xs, h => by
    simp only [evalAll, Option.bind_eq_some_iff, Option.map_eq_some_iff] at h
    obtain ⟨x, h1, ys, h2, rfl⟩ := h
    simp only [List.map_cons, evalAll_category h2]
    congr 1
    cases a <;> simp only [MArg.eval, Option.map_eq_some_iff] at h1 <;> obtain ⟨v, hv, rfl⟩ := h1 <;> rfl

example : ∃ xs, evalAll (V := Nat) (fun _ => some 4) [.var 0 true, .expr fun e => e 1] = some xs := ⟨_, rfl⟩

/-- **C57.** `DICE_MEMFN(m, a...)(b...)` runs the body of `m` exactly once on `*this`, with the values of `a...` when it is called, then `b...`. -/
theorem memfn_order {moved : V → V} {m : Callee σ V ρ} {args : List (MArg V)} {env env' : Env V} {s : σ} {b : List (Arg V)} {r : Res σ V ρ}
    (h : memfnCall moved m args env s b = .done r env') :
    ∃ vs, args.map (MArg.value env) = vs.map some ∧
      r.state = (m.body s (vs ++ b.map (·.value))).1 ∧ r.result = (m.body s (vs ++ b.map (·.value))).2.1 := by
  unfold memfnCall at h
  split at h
  · simp at h
  · rename_i xs hx
    split at h
    · simp at h
    · rename_i q hq
      simp only [MOutcome.done.injEq] at h
      obtain ⟨rfl, _⟩ := h
      obtain ⟨_, _, e1, e2, _⟩ := invoke_some hq
      refine ⟨xs.map (·.value), ?_, ?_, ?_⟩
      · rw [← evalAll_value hx]; simp
      · rw [e1]; simp
      · rw [e2]; simp

example : (match memfnCall (fun _ => 0) logger [.var 0 false, .expr fun e => (e 0).map (· + 1)] (fun _ => some 4) [] [⟨9, false, false⟩] with
    | .done r _ => some (r.state, r.result)
    | _ => none) = some ([[4, 5, 9]], some 3) := by decide

theorem writeBack_same {env : Env V} : ∀ {args : List (MArg V)} {vs : List V}, args.length = vs.length →
    (∀ (i : Nat) (l : Nat) (c : Bool), args[i]? = some (.var l c) → vs[i]?.map some = some (env l)) → writeBack env args vs = env
  | [], vs, _, _ => by cases vs <;> rfl
  | a :: as, [], h, _ => by simp at h
  | .var l c :: as, v :: vs, h, hv => by
    simp only [writeBack]
    have ih := writeBack_same (env := env) (args := as) (vs := vs) (by simpa using h) (fun i l c hi => by
      have := hv (i + 1) l c (by simpa using hi)
      simpa using this)
    have h0 := hv 0 l c rfl
    simp at h0
    funext x
    rw [ih]
    split
    · rename_i e; rw [e, h0]
    · rfl
  | .expr f :: as, v :: vs, h, hv => by
    simp only [writeBack]
    exact writeBack_same (by simpa using h) (fun i l c hi => by
      have := hv (i + 1) l c (by simpa using hi)
      simpa using this)

/-- **C57.** Variables given to the macro are passed as lvalues and so never moved from: if the function takes these arguments by value or by
reference to const, no call changes them. -/
theorem memfn_unchanged {moved : V → V} {m : Callee σ V ρ} {args : List (MArg V)} {env env' : Env V} {s : σ} {b : List (Arg V)}
    {r : Res σ V ρ} (h : memfnCall moved m args env s b = .done r env')
    (hp : ∀ p ∈ m.params.take args.length, p = .byValue ∨ p = .constRef) : env' = env := by
  unfold memfnCall at h
  split at h
  · simp at h
  · rename_i xs hx
    split at h
    · simp at h
    · rename_i q hq
      simp only [MOutcome.done.injEq] at h
      obtain ⟨_, rfl⟩ := h
      obtain ⟨hl, _, _, _, _⟩ := invoke_some hq
      have hlen := objects_length hq
      have hxl := evalAll_length hx
      apply writeBack_same
      · simp only [List.length_take, hlen, List.length_append]; omega
      · intro i l c hi
        have hil : i < args.length := (List.getElem?_eq_some_iff.1 hi).1
        obtain ⟨v, hv, hxi⟩ : ∃ v, env l = some v ∧ xs[i]? = some ⟨v, true, c⟩ := evalAll_get hx hi
        have hpi : i < m.params.length := by rw [hl, List.length_append]; omega
        have hparam : m.params[i]? = some m.params[i] := by simp [hpi]
        have hargs : (xs ++ b)[i]? = some ⟨v, true, c⟩ := by rw [List.getElem?_append_left (by omega)]; exact hxi
        obtain ⟨w, hw⟩ := objects_get hq i _ _ hparam hargs
        rw [List.getElem?_take, if_pos hil, hw, hv]
        have := hp m.params[i] (by
          refine List.mem_of_getElem? (i := i) ?_
          rw [List.getElem?_take, if_pos hil, hparam])
        rcases this with e | e <;> rw [e] <;> simp [after]

example : (∀ p ∈ logger.params.take 2, p = .byValue ∨ p = .constRef) ∧
    (match memfnCall (fun _ => 0) logger [.var 0 false, .expr fun e => (e 0).map (· + 1)] (fun _ => some 4) [] [⟨9, false, false⟩] with
      | .done r env => some (r.state, r.objects, env 0)
      | _ => none) = some ([[4, 5, 9]], [0], some 4) := by decide

/-- **C57, refuted** if the variable is changed between making the function object and calling it: `DICE_MEMFN` does not keep the value, it refers
to the variable. After the end of its lifetime calls are undefined behaviour. -/
theorem memfn_by_reference_refuted :
    (match memfnCall (fun _ => 0) logger [.var 0 false, .var 0 false] (fun _ => some 8) [] [⟨9, false, false⟩] with
      | .done r _ => some r.state
      | _ => none) = some [[8, 8, 9]] ∧
    (match memfnCall (fun _ => 0) logger [.var 0 false, .var 0 false] (fun _ => none) [] [⟨9, false, false⟩] with
      | .undefined => true
      | _ => false) = true := by decide

end Verif.BindFront
