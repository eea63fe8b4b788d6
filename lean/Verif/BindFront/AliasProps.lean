import Verif.BindFront.AliasModel

/-! C57 for arguments that are the same object, callees that change them, and programs that go on. -/
namespace Verif.BindFront.Alias

open Verif.BindFront (Param Arg accepts)

variable {V ρ : Type}

theorem set_other (m : Mem V) {l l' : Loc} (v : V) (h : l' ≠ l) : m.set l v l' = m l' := by simp [Mem.set, h]

theorem set_same (m : Mem V) (l : Loc) (v : V) : m.set l v l = v := by simp [Mem.set]

theorem closureArgs_bound {n : Nat} {lv cst : Bool} {rest : List Ref} {i : Nat} (hi : i < n) :
    (closureArgs n lv cst rest)[i]? = some ⟨.bound i, lv, cst⟩ := by
  unfold closureArgs
  rw [List.getElem?_append_left (by simpa using hi)]
  simp [hi]

theorem closureArgs_loc {n : Nat} {lv cst : Bool} {rest : List Ref} (hr : ∀ a ∈ rest, ∃ k, a.loc = .obj k) {p i : Nat} {a : Ref}
    (ha : (closureArgs n lv cst rest)[p]? = some a) (hl : a.loc = .bound i) : p = i ∧ i < n ∧ a.lvalue = lv ∧ a.const = cst := by
  by_cases hp : p < n
  · rw [closureArgs_bound hp] at ha
    cases ha
    cases hl
    exact ⟨rfl, hp, rfl, rfl⟩
  · unfold closureArgs at ha
    rw [List.getElem?_append_right (by simpa using hp)] at ha
    obtain ⟨k, hk⟩ := hr a (List.mem_of_getElem? ha)
    rw [hk] at hl; cases hl

/-- A closure called this way keeps its members: it is const, or an lvalue and the function takes what is bound by value or reference to const
(functional.hpp:38-40). -/
def Keeps (ps : List Param) (n : Nat) (lv cst : Bool) : Prop :=
  cst = true ∨ (lv = true ∧ ∀ p ∈ ps.take n, p = .byValue ∨ p = .constRef)

theorem keeps_param {ps : List Param} {n : Nat} {lv cst : Bool} {rest : List Ref} (hk : Keeps ps n lv cst)
    (hc : callable ps (closureArgs n lv cst rest)) {i : Nat} (hi : i < n) {p : Param} (hp : ps[i]? = some p) : p = .byValue ∨ p = .constRef := by
  rcases hk with rfl | ⟨_, h⟩
  · have := hc.2 (p, ⟨.bound i, lv, true⟩) (List.mem_of_getElem? (i := i) (List.getElem?_zip_eq_some.2 ⟨hp, closureArgs_bound hi⟩))
    cases p <;> simp [accepts] at this ⊢
  · refine h p (List.mem_of_getElem? (i := i) ?_)
    rw [List.getElem?_take, if_pos hi, hp]

theorem keeps_target {ps : List Param} {n : Nat} {lv cst : Bool} {rest : List Ref} (hk : Keeps ps n lv cst)
    (hc : callable ps (closureArgs n lv cst rest)) (hr : ∀ a ∈ rest, ∃ k, a.loc = .obj k) {p i : Nat}
    (ht : target ps (closureArgs n lv cst rest) p = some (.bound i)) : p = i ∧ ps[p]? = some .constRef := by
  unfold target at ht
  split at ht
  · cases ht
  · rename_i q hq hp
    simp only [Option.map_eq_some_iff] at ht
    obtain ⟨a, ha, hl⟩ := ht
    obtain ⟨rfl, hi, _⟩ := closureArgs_loc hr ha hl
    rcases keeps_param hk hc hi hp with rfl | rfl
    · exact absurd rfl hq
    · exact ⟨rfl, hp⟩
  · cases ht

theorem steps_keep {ps : List Param} {n : Nat} {lv cst : Bool} {rest : List Ref} (hk : Keeps ps n lv cst)
    (hc : callable ps (closureArgs n lv cst rest)) (hr : ∀ a ∈ rest, ∃ k, a.loc = .obj k) {x y : Body V ρ × Mem V}
    (h : Steps ps (closureArgs n lv cst rest) x y) (hb : x.1.compiles ps) : y.1.compiles ps ∧ ∀ i, y.2 (.bound i) = x.2 (.bound i) := by
  induction h with
  | refl => exact ⟨hb, fun _ => rfl⟩
  | @tail y z _ hs ih =>
    obtain ⟨ih1, ih2⟩ := ih
    obtain ⟨b, m⟩ := y
    cases b with
    | ret r => cases hs
    | read p k =>
      simp only [step, Option.map_eq_some_iff] at hs
      obtain ⟨l, _, rfl⟩ := hs
      exact ⟨ih1 _, ih2⟩
    | write p v k =>
      simp only [step, Option.map_eq_some_iff] at hs
      obtain ⟨l, hl, rfl⟩ := hs
      refine ⟨ih1.2, fun i => ?_⟩
      rw [← ih2 i]
      refine set_other _ _ fun he => ?_
      subst he
      exact ih1.1 (keeps_target hk hc hr hl).2
    | peek k f => cases hs; exact ⟨ih1 _, ih2⟩
    | poke k v f =>
      cases hs
      exact ⟨ih1, fun i => (set_other m (l := .obj k) (l' := .bound i) v (by simp)).trans (ih2 i)⟩

/-- What initializing a parameter does. -/
theorem initParam_cases (moved : V → V) (ps : List Param) (args : List Ref) (m : Mem V) (p : Nat) :
    initParam moved ps args m p = m ∨ ∃ a, ps[p]? = some .byValue ∧ args[p]? = some a ∧
      (((a.lvalue || a.const) = true ∧ initParam moved ps args m p = m.set (.param p) (m a.loc)) ∨
       ((a.lvalue || a.const) = false ∧ initParam moved ps args m p = (m.set a.loc (moved (m a.loc))).set (.param p) (m a.loc))) := by
  unfold initParam
  split
  · rename_i a hp ha
    refine .inr ⟨a, hp, ha, ?_⟩
    cases hv : a.lvalue || a.const
    · exact .inr ⟨rfl, rfl⟩
    · exact .inl ⟨rfl, rfl⟩
  · exact .inl rfl

theorem initParam_keeps {moved : V → V} {ps : List Param} {n : Nat} {lv cst : Bool} {rest : List Ref} (hk : Keeps ps n lv cst)
    (hr : ∀ a ∈ rest, ∃ k, a.loc = .obj k) (m : Mem V) (p i : Nat) :
    initParam moved ps (closureArgs n lv cst rest) m p (.bound i) = m (.bound i) := by
  rcases initParam_cases moved ps (closureArgs n lv cst rest) m p with h | ⟨a, _, ha, ⟨_, h⟩ | ⟨hv, h⟩⟩
  · rw [h]
  · rw [h]; exact set_other _ _ (by simp)
  · rw [h, set_other _ _ (by simp)]
    refine set_other _ _ fun he => ?_
    obtain ⟨_, _, h1, h2⟩ := closureArgs_loc hr ha he.symm
    rw [h1, h2] at hv
    rcases hk with rfl | ⟨rfl, _⟩ <;> simp at hv

theorem enter_keeps {moved : V → V} {ps : List Param} {n : Nat} {lv cst : Bool} {rest : List Ref} (hk : Keeps ps n lv cst)
    (hr : ∀ a ∈ rest, ∃ k, a.loc = .obj k) (order : List Nat) (i : Nat) : ∀ m : Mem V,
    enter moved ps (closureArgs n lv cst rest) order m (.bound i) = m (.bound i) := by
  induction order with
  | nil => intro m; rfl
  | cons p l ih => intro m; exact (ih _).trans (initParam_keeps hk hr m p i)

/-- **C57, aliasing.** A closure that is const, or an lvalue whose members the function takes by value or by reference to const, keeps its members: at every moment of every call and after any
history of calls and of changes the program makes to its objects, even if the arguments given to `bind_front` and to the calls are the same objects and the function changes them. -/
theorem bound_stable {moved : V → V} {ps : List Param} {n : Nat} {lv cst : Bool} {body : Body V ρ} (hb : body.compiles ps)
    (hk : cst = true ∨ (lv = true ∧ ∀ p ∈ ps.take n, p = .byValue ∨ p = .constRef)) {m m' : Mem V}
    (h : After moved ps n lv cst body m m') (i : Nat) : m' (.bound i) = m (.bound i) := by
  induction h with
  | refl => rfl
  | change k v _ ih => rw [← ih]; exact set_other _ _ (by simp)
  | call rest order _ hc hr hs ih =>
    exact ((steps_keep hk hc hr hs hb).2 i).trans ((enter_keeps hk hr order i _).trans ih)

theorem bindFrom_cons (moved : V → V) (k : Nat) (a : Ref) (as : List Ref) (m : Mem V) :
    ((a.lvalue || a.const) = true ∧ bindFrom moved k (a :: as) m = bindFrom moved (k + 1) as (m.set (.bound k) (m a.loc))) ∨
    ((a.lvalue || a.const) = false ∧
      bindFrom moved k (a :: as) m = bindFrom moved (k + 1) as ((m.set a.loc (moved (m a.loc))).set (.bound k) (m a.loc))) := by
  cases hv : a.lvalue || a.const
  · right; refine ⟨rfl, ?_⟩; simp only [bindFrom, hv]
  · left; refine ⟨rfl, ?_⟩; simp only [bindFrom, hv]

theorem bindFrom_lt (moved : V → V) : ∀ (args : List Ref) (k : Nat) (m : Mem V) (i : Nat), i < k → (∀ a ∈ args, ∃ q, a.loc = .obj q) →
    bindFrom moved k args m (.bound i) = m (.bound i)
  | [], _, _, _, _, _ => rfl
  | a :: as, k, m, i, hi, hr => by
    obtain ⟨q, hq⟩ := hr a (by simp)
    have ih := fun m' => bindFrom_lt moved as (k + 1) m' i (by omega) (fun b hb => hr b (by simp [hb]))
    rcases bindFrom_cons moved k a as m with ⟨_, h⟩ | ⟨_, h⟩ <;> rw [h, ih]
    · exact set_other _ _ (by simp; omega)
    · rw [set_other _ _ (by simp; omega), set_other _ _ (by simp [hq])]

theorem bindFrom_at (moved : V → V) : ∀ (args : List Ref) (k : Nat) (m : Mem V) (i : Nat) (a : Ref), (∀ a ∈ args, ∃ q, a.loc = .obj q) →
    args[i]? = some a → (∀ b ∈ args.take i, b.loc = a.loc → b.lvalue = true ∨ b.const = true) →
    bindFrom moved k args m (.bound (k + i)) = m a.loc
  | [], _, _, _, _, _, h, _ => by simp at h
  | b :: as, k, m, 0, a, hr, h, _ => by
    simp only [List.getElem?_cons_zero, Option.some.injEq] at h
    subst h
    have ih := fun m' => bindFrom_lt moved as (k + 1) m' k (by omega) (fun c hc => hr c (by simp [hc]))
    rcases bindFrom_cons moved k b as m with ⟨_, h⟩ | ⟨_, h⟩ <;> rw [h] <;> exact (ih _).trans (set_same _ _ _)
  | b :: as, k, m, i + 1, a, hr, h, hd => by
    obtain ⟨q, hq⟩ := hr a (List.mem_of_getElem? h)
    have h' : as[i]? = some a := by simpa using h
    have ih := fun m' => bindFrom_at moved as (k + 1) m' i a (fun c hc => hr c (by simp [hc])) h'
      (fun c hc => hd c (by simp [List.take_succ_cons, hc]))
    rcases bindFrom_cons moved k b as m with ⟨_, h⟩ | ⟨hv, h⟩ <;> rw [h, show k + (i + 1) = k + 1 + i by omega, ih]
    · exact set_other _ _ (by simp [hq])
    · rw [set_other _ _ (by simp [hq])]
      refine set_other _ _ fun he => ?_
      have := hd b (by simp [List.take_succ_cons]) he.symm
      rcases this with h1 | h1 <;> simp [h1] at hv

theorem initParam_other {moved : V → V} {ps : List Param} {args : List Ref} (ha : ∀ a ∈ args, ∀ k, a.loc ≠ .param k) (m : Mem V) {p q : Nat} (h : q ≠ p) :
    initParam moved ps args m p (.param q) = m (.param q) := by
  rcases initParam_cases moved ps args m p with e | ⟨a, _, hx, ⟨_, e⟩ | ⟨hv, e⟩⟩
  · rw [e]
  · rw [e]; exact set_other _ _ (by simpa using h)
  · rw [e, set_other _ _ (by simpa using h)]
    exact set_other _ _ fun he => ha a (List.mem_of_getElem? hx) q he.symm

theorem enter_other {moved : V → V} {ps : List Param} {args : List Ref} (ha : ∀ a ∈ args, ∀ k, a.loc ≠ .param k) {q : Nat} :
    ∀ (order : List Nat) (m : Mem V), q ∉ order → enter moved ps args order m (.param q) = m (.param q)
  | [], _, _ => rfl
  | p :: l, m, h => by
    simp only [List.mem_cons, not_or] at h
    show enter moved ps args l (initParam moved ps args m p) (.param q) = _
    rw [enter_other ha l _ h.2, initParam_other ha m h.1]

theorem closureArgs_noparam {n : Nat} {lv cst : Bool} {rest : List Ref} (hr : ∀ a ∈ rest, ∃ k, a.loc = .obj k) :
    ∀ a ∈ closureArgs n lv cst rest, ∀ k, a.loc ≠ .param k := by
  intro a ha k
  unfold closureArgs at ha
  rcases List.mem_append.1 ha with h | h
  · obtain ⟨i, _, rfl⟩ := List.mem_map.1 h
    simp
  · obtain ⟨j, hj⟩ := hr a h
    rw [hj]; simp

theorem seen {moved : V → V} {ps : List Param} {n : Nat} {lv cst : Bool} {rest : List Ref} (hk : Keeps ps n lv cst)
    (hc : callable ps (closureArgs n lv cst rest)) (hr : ∀ a ∈ rest, ∃ k, a.loc = .obj k) {i : Nat} (hi : i < n) :
    ∀ (order : List Nat) (m : Mem V), order.Nodup → i ∈ order →
    ∃ l, target ps (closureArgs n lv cst rest) i = some l ∧ enter moved ps (closureArgs n lv cst rest) order m l = m (.bound i) := by
  intro order m hn hio
  have hlen : i < ps.length := by rw [hc.1]; simp [closureArgs]; omega
  have hp : ps[i]? = some ps[i] := List.getElem?_eq_getElem hlen
  rcases keeps_param hk hc hi hp with h | h
  · rw [h] at hp
    refine ⟨.param i, by simp [target, hp], ?_⟩
    induction order generalizing m with
    | nil => simp at hio
    | cons p l ih =>
      show enter moved ps _ l (initParam moved ps _ m p) (.param i) = _
      rcases List.nodup_cons.1 hn with ⟨hnp, hnl⟩
      by_cases hpi : p = i
      · subst hpi
        rw [enter_other (closureArgs_noparam hr) l _ hnp]
        have hv : (lv || cst) = true := by rcases hk with rfl | ⟨rfl, _⟩ <;> simp
        simp [initParam, hp, closureArgs_bound hi, hv, set_same]
      · rw [ih _ hnl (by simpa [Ne.symm hpi] using hio), initParam_keeps hk hr]
  · rw [h] at hp
    refine ⟨.bound i, by simp [target, hp, closureArgs_bound hi], enter_keeps hk hr order i m⟩

/-- **C57, aliasing.** Every call of such a closure begins with the values the arguments of `bind_front` had when it was called, in the first parameters of the function: whatever
the program and earlier calls have done since to the objects that were given to `bind_front`, whatever other arguments there are, in whatever order
the parameters are initialized. (An object given to `bind_front` twice must not be moved from by an earlier argument.) -/
theorem bound_seen {moved : V → V} {ps : List Param} {lv cst : Bool} {body : Body V ρ} (hb : body.compiles ps) {args : List Ref}
    (hk : cst = true ∨ (lv = true ∧ ∀ p ∈ ps.take args.length, p = .byValue ∨ p = .constRef))
    (ha : ∀ a ∈ args, ∃ k, a.loc = .obj k) {m0 m : Mem V} (h : After moved ps args.length lv cst body (bindFront moved args m0) m)
    {rest : List Ref} (hr : ∀ a ∈ rest, ∃ k, a.loc = .obj k) (hc : callable ps (closureArgs args.length lv cst rest))
    {order : List Nat} (ho : order.Perm (List.range ps.length)) {i : Nat} {a : Ref} (hi : args[i]? = some a)
    (hd : ∀ b ∈ args.take i, b.loc = a.loc → b.lvalue = true ∨ b.const = true) :
    ∃ l, target ps (closureArgs args.length lv cst rest) i = some l ∧
      enter moved ps (closureArgs args.length lv cst rest) order m l = m0 a.loc := by
  have hlt : i < args.length := by rw [List.getElem?_eq_some_iff] at hi; exact hi.1
  have hio : i ∈ order := by
    rw [ho.mem_iff, List.mem_range, hc.1]; simp [closureArgs]; omega
  obtain ⟨l, h1, h2⟩ := seen (moved := moved) hk hc hr hlt order m (ho.nodup_iff.2 List.nodup_range) hio
  refine ⟨l, h1, ?_⟩
  rw [h2, bound_stable hb hk h i]
  have := bindFrom_at moved args 0 m0 i a ha hi hd
  simpa [bindFront] using this

theorem initParam_bound {moved : V → V} {ps : List Param} {n : Nat} {lv cst : Bool} {rest : List Ref} (hr : ∀ a ∈ rest, ∃ k, a.loc = .obj k)
    (m : Mem V) {p i : Nat} (h : p ≠ i ∨ ps[p]? ≠ some .byValue) :
    initParam moved ps (closureArgs n lv cst rest) m p (.bound i) = m (.bound i) := by
  rcases initParam_cases moved ps (closureArgs n lv cst rest) m p with e | ⟨a, hp, ha, ⟨_, e⟩ | ⟨hv, e⟩⟩
  · rw [e]
  · rw [e]; exact set_other _ _ (by simp)
  · rw [e, set_other _ _ (by simp)]
    refine set_other _ _ fun he => ?_
    have := (closureArgs_loc hr ha he.symm).1
    rcases h with h | h
    · exact h this
    · exact h hp

/-- **C57, aliasing.** A call of any closure, also of an rvalue, begins with the values its members have, in the first parameters of the function, whatever other arguments there are and in whatever
order the parameters are initialized. -/
theorem members_seen {moved : V → V} {ps : List Param} {n : Nat} {lv cst : Bool} {rest : List Ref} (hr : ∀ a ∈ rest, ∃ k, a.loc = .obj k)
    (hc : callable ps (closureArgs n lv cst rest)) {order : List Nat} (ho : order.Perm (List.range ps.length)) {i : Nat} (hi : i < n) (m : Mem V) :
    ∃ l, target ps (closureArgs n lv cst rest) i = some l ∧ enter moved ps (closureArgs n lv cst rest) order m l = m (.bound i) := by
  have hlen : i < ps.length := by rw [hc.1]; simp [closureArgs]; omega
  have hp : ps[i]? = some ps[i] := List.getElem?_eq_getElem hlen
  have hio : i ∈ order := by rw [ho.mem_iff, List.mem_range]; exact hlen
  have hn := ho.nodup_iff.2 List.nodup_range
  clear ho
  by_cases hb : ps[i] = .byValue
  · rw [hb] at hp
    refine ⟨.param i, by simp [target, hp], ?_⟩
    induction order generalizing m with
    | nil => simp at hio
    | cons p l ih =>
      show enter moved ps _ l (initParam moved ps _ m p) (.param i) = _
      rcases List.nodup_cons.1 hn with ⟨hnp, hnl⟩
      by_cases hpi : p = i
      · subst hpi
        rw [enter_other (closureArgs_noparam hr) l _ hnp]
        have e : initParam moved ps (closureArgs n lv cst rest) m p = match lv || cst with
            | true => m.set (.param p) (m (.bound p))
            | false => (m.set (.bound p) (moved (m (.bound p)))).set (.param p) (m (.bound p)) := by
          simp only [initParam, hp, closureArgs_bound hi]
          rfl
        rw [e]
        cases lv || cst <;> exact set_same _ _ _
      · rw [ih _ (by simpa [Ne.symm hpi] using hio) hnl, initParam_bound hr m (.inl hpi)]
  · refine ⟨.bound i, ?_, ?_⟩
    · unfold target
      rw [hp]
      cases h : ps[i] <;> simp_all [closureArgs_bound hi]
    · clear hio hn
      induction order generalizing m with
      | nil => rfl
      | cons p l ih =>
        refine (ih _).trans (initParam_bound hr m ?_)
        by_cases hpi : p = i
        · subst hpi; right; rw [hp]; simpa using hb
        · exact .inl hpi

/-- An rvalue whose member is moved into the parameter: the parameter has the value. -/
example : ∃ l, target [.byValue] (closureArgs 1 false false []) 0 = some l ∧
    enter (fun _ => 0) [.byValue] (closureArgs 1 false false []) [0] (fun _ => 5) l = 5 :=
  members_seen (rest := []) (by simp) ⟨rfl, by simp [closureArgs, List.range_succ, accepts]⟩ (order := [0]) (.refl _) (i := 0) (by simp) _

/-! ### An execution -/

/-- `int f(int const &a, int &b) { b = 9; return a; }`, a function for functional.hpp:34. -/
def assigns : Body Nat Nat := .write 1 9 (.read 0 fun v => .ret (some v))

/-- Run a body for at most `n` steps (the call in functional.hpp:40, memfn.hpp:16). -/
def runFor (ps : List Param) (args : List Ref) : Nat → Body V ρ × Mem V → Body V ρ × Mem V
  | 0, x => x
  | n + 1, x => match step ps args x with
    | none => x
    | some y => runFor ps args n y

/-- What a finished body gives (the result of functional.hpp:40, memfn.hpp:16). -/
def result : Body V ρ × Mem V → Option ρ
  | (.ret r, _) => r
  | _ => none

theorem runFor_steps {ps : List Param} {args : List Ref} : ∀ (n : Nat) {x y : Body V ρ × Mem V}, Steps ps args x y → Steps ps args x (runFor ps args n y)
  | 0, _, _, h => h
  | n + 1, _, y, h => by
    unfold runFor
    split
    · exact h
    · rename_i z hz; exact runFor_steps n (.tail h hz)

theorem assigns_compiles : assigns.compiles [.constRef, .lvalueRef] := ⟨by simp, fun _ => trivial⟩

theorem one_callable : callable [.constRef, .lvalueRef] (closureArgs 1 true false [⟨.obj 0, true, false⟩]) := by
  refine ⟨rfl, ?_⟩
  simp [closureArgs, List.range_succ, accepts]

/-- `x = 5; auto g = bind_front<f>(x); x = 7; g(x);` -/
theorem one_history : After (fun _ => 0) [.constRef, .lvalueRef] 1 true false assigns (bindFront (fun _ => 0) [⟨.obj 0, true, false⟩] fun _ => 5)
    (runFor [.constRef, .lvalueRef] (closureArgs 1 true false [⟨.obj 0, true, false⟩]) 9
      (assigns, enter (fun _ => 0) [.constRef, .lvalueRef] (closureArgs 1 true false [⟨.obj 0, true, false⟩]) [0, 1]
        ((bindFront (fun _ => 0) [⟨.obj 0, true, false⟩] fun _ => 5).set (.obj 0) 7))).2 :=
  .call [⟨.obj 0, true, false⟩] [0, 1] (.change 0 7 (.refl _)) one_callable (by simp) (runFor_steps 9 .refl)

/-- After that `x` is 9, and the member of the closure still 5. -/
example : (runFor [.constRef, .lvalueRef] (closureArgs 1 true false [⟨.obj 0, true, false⟩]) 9
      (assigns, enter (fun _ => 0) [.constRef, .lvalueRef] (closureArgs 1 true false [⟨.obj 0, true, false⟩]) [0, 1]
        ((bindFront (fun _ => 0) [⟨.obj 0, true, false⟩] fun _ => 5).set (.obj 0) 7))).2 (.obj 0) = 9 ∧
    (runFor [.constRef, .lvalueRef] (closureArgs 1 true false [⟨.obj 0, true, false⟩]) 9
      (assigns, enter (fun _ => 0) [.constRef, .lvalueRef] (closureArgs 1 true false [⟨.obj 0, true, false⟩]) [0, 1]
        ((bindFront (fun _ => 0) [⟨.obj 0, true, false⟩] fun _ => 5).set (.obj 0) 7))).2 (.bound 0) = 5 :=
  ⟨by decide, bound_stable assigns_compiles (.inr ⟨rfl, by simp⟩) one_history 0⟩

/-- The next call begins with 5 in the first parameter. -/
example : ∃ (m : Mem Nat) (l : Loc), m (.obj 0) = 9 ∧
    target [.constRef, .lvalueRef] (closureArgs 1 true false [⟨.obj 0, true, false⟩]) 0 = some l ∧
    enter (fun _ => 0) [.constRef, .lvalueRef] (closureArgs 1 true false [⟨.obj 0, true, false⟩]) [1, 0] m l = 5 := by
  obtain ⟨l, hl⟩ := bound_seen (args := [⟨.obj 0, true, false⟩]) assigns_compiles (.inr ⟨rfl, by simp⟩) (by simp) one_history (by simp)
    one_callable (order := [1, 0]) (.swap 0 1 []) (i := 0) (a := ⟨.obj 0, true, false⟩) rfl (by simp)
  exact ⟨_, l, by decide, hl⟩

/-- **C57, aliasing.** What the two differ in: with `x = 5`, `bind_front<f>(x)(x)` for the `f` above gives 5, because the closure has a copy. `DICE_MEMFN(f, x)(x)` gives 9: the
parameter by reference to const is the variable that `f` changes. -/
theorem memfn_alias_refuted :
    result (runFor [.constRef, .lvalueRef] (closureArgs 1 true false [⟨.obj 0, true, false⟩]) 9
      (assigns, enter (fun _ => 0) [.constRef, .lvalueRef] (closureArgs 1 true false [⟨.obj 0, true, false⟩]) [0, 1]
        (bindFront (fun _ => 0) [⟨.obj 0, true, false⟩] fun _ => 5))) = some 5 ∧
    result (runFor [.constRef, .lvalueRef] (memfnArgs [0] [⟨.obj 0, true, false⟩]) 9
      (assigns, enter (fun _ => 0) [.constRef, .lvalueRef] (memfnArgs [0] [⟨.obj 0, true, false⟩]) [0, 1] fun _ => 5)) = some 9 := by
  decide

/-- **C57, aliasing.** `DICE_MEMFN` with variables: a call that moves nothing begins with the values the variables have at that moment, in the first parameters of the function. -/
theorem memfn_seen {moved : V → V} {ps : List Param} {vars : List Nat} {rest : List Ref} (hr : ∀ a ∈ rest, ∃ k, a.loc = .obj k)
    (hl : ∀ a ∈ rest, a.lvalue = true ∨ a.const = true) (hc : callable ps (memfnArgs vars rest)) {order : List Nat} (ho : order.Perm (List.range ps.length))
    {i x : Nat} (hi : vars[i]? = some x) (m : Mem V) :
    ∃ l, target ps (memfnArgs vars rest) i = some l ∧ enter moved ps (memfnArgs vars rest) order m l = m (.obj x) := by
  have hlt : i < vars.length := by rw [List.getElem?_eq_some_iff] at hi; exact hi.1
  have harg : (memfnArgs vars rest)[i]? = some ⟨.obj x, true, false⟩ := by
    unfold memfnArgs
    rw [List.getElem?_append_left (by simpa using hlt)]
    simp [hi]
  have hall : ∀ a ∈ memfnArgs vars rest, (a.lvalue || a.const) = true ∧ ∃ k, a.loc = .obj k := by
    intro a ha
    unfold memfnArgs at ha
    rcases List.mem_append.1 ha with h | h
    · obtain ⟨j, _, rfl⟩ := List.mem_map.1 h
      exact ⟨rfl, j, rfl⟩
    · exact ⟨by rcases hl a h with h' | h' <;> simp [h'], hr a h⟩
  have hobj : ∀ (order : List Nat) (m : Mem V), enter moved ps (memfnArgs vars rest) order m (.obj x) = m (.obj x) := by
    intro order
    induction order with
    | nil => intro m; rfl
    | cons p l ih =>
      intro m
      refine (ih _).trans ?_
      rcases initParam_cases moved ps (memfnArgs vars rest) m p with e | ⟨a, _, hx, ⟨_, e⟩ | ⟨hv, _⟩⟩
      · rw [e]
      · rw [e]; exact set_other _ _ (by simp)
      · rw [(hall a (List.mem_of_getElem? hx)).1] at hv; cases hv
  have hlen : i < ps.length := by rw [hc.1]; simp [memfnArgs]; omega
  have hp : ps[i]? = some ps[i] := List.getElem?_eq_getElem hlen
  have hio : i ∈ order := by rw [ho.mem_iff, List.mem_range]; exact hlen
  have hno : ∀ a ∈ memfnArgs vars rest, ∀ k, a.loc ≠ .param k := by
    intro a ha k
    obtain ⟨_, j, hj⟩ := hall a ha
    rw [hj]; simp
  by_cases hb : ps[i] = .byValue
  · rw [hb] at hp
    refine ⟨.param i, by simp [target, hp], ?_⟩
    have hn := ho.nodup_iff.2 List.nodup_range
    clear ho
    induction order generalizing m with
    | nil => simp at hio
    | cons p l ih =>
      show enter moved ps _ l (initParam moved ps _ m p) (.param i) = _
      rcases List.nodup_cons.1 hn with ⟨hnp, hnl⟩
      by_cases hpi : p = i
      · subst hpi
        rw [enter_other hno l _ hnp]
        simp [initParam, hp, harg, set_same]
      · rw [ih _ (by simpa [Ne.symm hpi] using hio) hnl]
        exact hobj [p] m
  · refine ⟨.obj x, ?_, hobj order m⟩
    unfold target
    rw [hp]
    cases h : ps[i] <;> simp_all

/-- `x = 7` is what the function sees. -/
example : ∃ l, target [.constRef, .lvalueRef] (memfnArgs [0] [⟨.obj 0, true, false⟩]) 0 = some l ∧
    enter (fun _ => 0) [.constRef, .lvalueRef] (memfnArgs [0] [⟨.obj 0, true, false⟩]) [1, 0] (fun _ => 7) l = 7 :=
  memfn_seen (x := 0) (by simp) (by simp) ⟨rfl, by simp [memfnArgs, accepts]⟩ (order := [1, 0]) (.swap 0 1 []) rfl _

end Verif.BindFront.Alias
