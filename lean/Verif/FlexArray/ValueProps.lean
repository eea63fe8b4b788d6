import Verif.FlexArray.ValueModel
import Verif.FlexArray.Props

/-! C72: `flex_array` as a value, and its element access. -/
namespace Verif.FlexArray

variable {α : Type}

/-! ### Specification -/

/-- What a program sees of its arrays: their elements. -/
abbrev Contents (α : Type) := Nat → Option (List (Option α))

/-- What an array contains after its elements were moved away: nothing in the modes with a growing buffer, else as many elements as
before, each as a move leaves it. -/
def leftBy (el : Elem α) (m : Mode) (xs : List (Option α)) : List (Option α) := match m with
  | .dynamic => []
  | _ => xs.map (Option.map el.movedFrom)

/-- The values after each operation. -/
def Spec (el : Elem α) (m : Mode) (c : Contents α) : Op α → Contents α
  | .put d a => set c d (some a.live)
  | .copyCtor d i _ _ => match c d, c i with
    | none, some xs => set c d (some xs)
    | _, _ => c
  | .moveCtor d i _ => match c d, c i with
    | none, some xs => set (set c i (some (leftBy el m xs))) d (some xs)
    | _, _ => c
  | .copyAssign d i _ _ => match c d, c i with
    | some _, some xs => set c d (some xs)
    | _, _ => c
  | .moveAssign d i _ => match c d, c i with
    | some _, some xs => if d = i then set c i (some (leftBy el m xs)) else set (set c i (some (leftBy el m xs))) d (some xs)
    | _, _ => c
  | .swap i j _ _ _ => match c i, c j with
    | some xs, some ys => set (set c i (some ys)) j (some xs)
    | _, _ => c
  | .destroy i => set c i none

/-- The values after a program. -/
def specExec (el : Elem α) (m : Mode) (c : Contents α) (ops : List (Op α)) : Contents α := ops.foldl (Spec el m) c

/-- Nothing throws in the operation. -/
def Op.quiet : Op α → Prop
  | .copyCtor _ _ t o | .copyAssign _ _ t o => t = none ∧ o = false
  | .moveCtor _ _ t | .moveAssign _ _ t => t = none
  | .swap _ _ t1 t2 t3 => t1 = none ∧ t2 = none ∧ t3 = none
  | _ => True

/-- Arrays that enter the program are as the other functions leave them. -/
def Op.wf (m : Mode) : Op α → Prop
  | .put _ a => Wf m a
  | _ => True

/-! ### Proofs -/

/-- What is seen of a state. -/
def seen (σ : Arrays α) : Contents α := fun i => (σ i).map FA.live

/-- All arrays are well-formed. -/
def AllWf (m : Mode) (σ : Arrays α) : Prop := ∀ i a, σ i = some a → Wf m a

theorem seen_set (σ : Arrays α) (i : Nat) (x : Option (FA α)) : seen (set σ i x) = set (seen σ) i (x.map FA.live) := by
  funext j; simp only [seen, set]; split <;> rfl

theorem allWf_set {m : Mode} {σ : Arrays α} (h : AllWf m σ) {i : Nat} {x : Option (FA α)} (hx : ∀ a, x = some a → Wf m a) :
    AllWf m (set σ i x) := by
  intro j a; simp only [set]; split
  · exact hx a
  · exact h j a

theorem moveCells_ok (el : Elem α) {m : Mode} {a : FA α} (h : Wf m a) :
    ∃ b, moveCells el m a none = .ok (a, b) ∧ b.live = leftBy el m a.live ∧ Wf m b := by
  cases m with
  | dynamic => exact ⟨⟨0, []⟩, rfl, rfl, rfl⟩
  | static n => exact ⟨_, rfl, by simp [FA.live, leftBy, List.map_take], by simpa [Wf] using h⟩
  | limited n => exact ⟨_, rfl, by simp [FA.live, leftBy, List.map_take], by simpa [Wf] using h⟩

theorem copyCells_ok (m : Mode) (a : FA α) : copyCells m a none false = .ok a := by cases m <;> rfl

theorem set_set (σ : Nat → Option β) (i : Nat) (x y : Option β) : set (set σ i x) i y = set σ i y := by
  funext j; simp only [set]; split <;> rfl

theorem step_spec (el : Elem α) {m : Mode} {σ : Arrays α} (h : AllWf m σ) {op : Op α} (hq : op.quiet) (hw : op.wf m) :
    ∃ σ', step el m σ op = .ok σ' ∧ seen σ' = Spec el m (seen σ) op ∧ AllWf m σ' := by
  cases op with
  | put d a => exact ⟨_, rfl, seen_set _ _ _, allWf_set h (by rintro _ ⟨⟩; exact hw)⟩
  | copyCtor d i thr oom =>
    obtain ⟨rfl, rfl⟩ := hq
    simp only [step, Spec]
    cases hd : σ d with
    | some b => exact ⟨σ, rfl, by simp [seen, hd], h⟩
    | none =>
      cases hi : σ i with
      | none => exact ⟨σ, rfl, by simp [seen, hd, hi], h⟩
      | some a =>
        refine ⟨set σ d (some a), by simp [copyCells_ok, Except.bind], ?_, allWf_set h (by rintro _ ⟨⟩; exact h i a hi)⟩
        rw [seen_set]; simp [seen, hd, hi]
  | moveCtor d i thr =>
    cases hq
    simp only [step, Spec]
    cases hd : σ d with
    | some b => exact ⟨σ, rfl, by simp [seen, hd], h⟩
    | none =>
      cases hi : σ i with
      | none => exact ⟨σ, rfl, by simp [seen, hd, hi], h⟩
      | some a =>
        obtain ⟨b, e, hb, hwb⟩ := moveCells_ok el (h i a hi)
        refine ⟨set (set σ i (some b)) d (some a), by simp [e, Except.bind], ?_,
          allWf_set (allWf_set h (by rintro _ ⟨⟩; exact hwb)) (by rintro _ ⟨⟩; exact h i a hi)⟩
        rw [seen_set, seen_set]; simp [seen, hd, hi, hb]
  | copyAssign d i thr oom =>
    obtain ⟨rfl, rfl⟩ := hq
    simp only [step, Spec]
    cases hd : σ d with
    | none => exact ⟨σ, rfl, by simp [seen, hd], h⟩
    | some b =>
      cases hi : σ i with
      | none => exact ⟨σ, rfl, by simp [seen, hd, hi], h⟩
      | some a =>
        refine ⟨set σ d (some a), by simp [copyCells_ok, Except.bind], ?_, allWf_set h (by rintro _ ⟨⟩; exact h i a hi)⟩
        rw [seen_set]; simp [seen, hd, hi]
  | moveAssign d i thr =>
    cases hq
    simp only [step, Spec, moveAssignTo]
    cases hd : σ d with
    | none => exact ⟨σ, rfl, by simp [seen, hd], h⟩
    | some b =>
      cases hi : σ i with
      | none => exact ⟨σ, rfl, by simp [seen, hd, hi], h⟩
      | some a =>
        obtain ⟨b, e, hb, hwb⟩ := moveCells_ok el (h i a hi)
        have hw1 : AllWf m (set σ i (some b)) := allWf_set h (by rintro _ ⟨⟩; exact hwb)
        by_cases hdi : d = i
        · refine ⟨set σ i (some b), by simp [e, Except.bind, hdi], ?_, hw1⟩
          rw [seen_set]; simp [seen, hi, hb, hdi]
        · refine ⟨set (set σ i (some b)) d (some a), by simp [e, Except.bind, hdi], ?_, allWf_set hw1 (by rintro _ ⟨⟩; exact h i a hi)⟩
          rw [seen_set, seen_set]; simp [seen, hd, hi, hb, hdi]
  | swap i j t1 t2 t3 =>
    obtain ⟨rfl, rfl, rfl⟩ := hq
    simp only [step, Spec, moveAssignTo]
    cases hi : σ i with
    | none => exact ⟨σ, rfl, by simp [seen, hi], h⟩
    | some a =>
      cases hj : σ j with
      | none => exact ⟨σ, rfl, by simp [seen, hi, hj], h⟩
      | some c =>
        obtain ⟨b, e, hb, hwb⟩ := moveCells_ok el (h i a hi)
        by_cases hij : i = j
        · subst hij
          obtain ⟨b', e', hb', hwb'⟩ := moveCells_ok el hwb
          have ha : a = c := by rw [hi] at hj; exact Option.some.inj hj
          subst ha
          refine ⟨set σ i (some a), ?_, ?_, allWf_set h (by rintro _ ⟨⟩; exact h i a hi)⟩
          · simp [e, Except.bind, set, e']
            rw [set_set, set_set]
          · rw [seen_set]; simp [seen, hi, set_set]
        · obtain ⟨c', e', hc', hwc'⟩ := moveCells_ok el (h j c hj)
          have hji : ¬ j = i := fun h => hij h.symm
          refine ⟨set (set σ i (some c)) j (some a), ?_, ?_,
            allWf_set (allWf_set h (by rintro _ ⟨⟩; exact h j c hj)) (by rintro _ ⟨⟩; exact h i a hi)⟩
          · simp only [e, Except.bind, set, hji, if_false, hj, e', hij]
            congr 1
            funext k
            by_cases h1 : k = j
            · simp [set, h1]
            · by_cases h2 : k = i <;> simp [set, h1, h2]
          · rw [seen_set, seen_set]; simp [seen, hi, hj]
  | destroy i => exact ⟨_, rfl, seen_set _ _ _, allWf_set h (by simp)⟩

/-! ### C72 -/

/-- **C72, partial.** In every program in which nothing throws: copies equal their source, which is unchanged; moves take over all
elements and leave the source with `leftBy`; swap exchanges, also an array with itself; other arrays are never affected. Missing:
copies that throw (they terminate the program, see below), and moving an array to itself, which may lose the elements. -/
theorem value_partial (el : Elem α) {m : Mode} {ops : List (Op α)} (hq : ∀ op ∈ ops, op.quiet) (hw : ∀ op ∈ ops, op.wf m) :
    ∃ σ, exec el m (fun _ => none) ops = .ok σ ∧ (fun i => (σ i).map FA.live) = specExec el m (fun _ => none) ops ∧
      ∀ i a, σ i = some a → Wf m a := by
  have key : ∀ (ops : List (Op α)) (σ : Arrays α), AllWf m σ → (∀ op ∈ ops, op.quiet) → (∀ op ∈ ops, op.wf m) →
      ∃ σ', exec el m σ ops = .ok σ' ∧ seen σ' = specExec el m (seen σ) ops ∧ AllWf m σ' := by
    intro ops
    induction ops with
    | nil => intro σ h _ _; exact ⟨σ, rfl, rfl, h⟩
    | cons op ops ih =>
      intro σ h h1 h2
      obtain ⟨σ₁, e₁, s₁, w₁⟩ := step_spec el h (h1 op (by simp)) (h2 op (by simp))
      obtain ⟨σ₂, e₂, s₂, w₂⟩ := ih σ₁ w₁ (fun o ho => h1 o (by simp [ho])) (fun o ho => h2 o (by simp [ho]))
      refine ⟨σ₂, by simp [exec, e₁, Except.bind, e₂], ?_, w₂⟩
      rw [s₂, s₁]; rfl
  exact key ops (fun _ => none) (by intro i a h; cases h) hq hw

example : ∃ σ, exec ⟨fun _ => 0⟩ (.limited 3) (fun _ => none)
      [.put 0 ⟨2, [some 5, some 6, none]⟩, .copyCtor 1 0 none false, .moveCtor 2 1 none, .swap 0 2 none none none,
       .swap 0 0 none none none, .moveAssign 1 0 none] = .ok σ ∧
    (fun i => (σ i).map FA.live) = specExec ⟨fun _ => 0⟩ (.limited 3) (fun _ => none)
      [.put 0 ⟨2, [some 5, some 6, none]⟩, .copyCtor 1 0 none false, .moveCtor 2 1 none, .swap 0 2 none none none,
       .swap 0 0 none none none, .moveAssign 1 0 none] ∧ ∀ i a, σ i = some a → Wf (.limited 3) a :=
  value_partial _ (by simp [Op.quiet]) (by simp [Op.wf, Wf])

/-- **C72.** When a copy ends the program: exactly if an element in the buffer, live or not, throws when copied, or memory for a growing
buffer runs out. -/
theorem copy_terminates_iff (m : Mode) (a : FA α) (thr : Option Nat) (oom : Bool) :
    copyCells m a thr oom = .error .terminate ↔ (∃ k, thr = some k ∧ k < a.data.length) ∨ (m = .dynamic ∧ oom = true) := by
  cases thr with
  | none => cases m <;> cases oom <;> simp [copyCells]
  | some k => cases m <;> cases oom <;> simp [copyCells] <;> split <;> simp_all

/-- **C72, refuted.** Running out of memory while copying an array without size limit ends the program, although copying the vector in it
would report that by an exception. -/
theorem copy_oom_refuted :
    exec (α := Nat) ⟨fun _ => 0⟩ .dynamic (fun _ => none) [.put 0 ⟨1, [some 5]⟩, .copyCtor 1 0 none true] = .error .terminate := rfl

/-- **C72, refuted.** An exception from the copy constructor of an element that is not even part of the array (the array was shrunk to
size 0) ends the program. -/
theorem copy_dead_throw_refuted : ∃ a : FA Nat, resize ⟨some 0, 0⟩ (.limited 1) ⟨1, [some 7]⟩ 0 = some (.ok a) ∧ a.live = [] ∧
    exec ⟨fun _ => 0⟩ (.limited 1) (fun _ => none) [.put 0 a, .copyCtor 1 0 (some 0) false] = .error .terminate :=
  ⟨⟨0, [some 7]⟩, rfl, rfl, rfl⟩

/-- **C72, refuted.** The source of a move is empty in the modes without size limit and keeps its size in the others. -/
theorem moved_from_size_refuted :
    (∃ σ, exec (α := Nat) ⟨fun _ => 0⟩ .dynamic (fun _ => none) [.put 0 ⟨2, [some 1, some 2]⟩, .moveCtor 1 0 none] = .ok σ ∧
      (σ 0).map FA.live = some []) ∧
    (∃ σ, exec (α := Nat) ⟨fun _ => 0⟩ (.limited 4) (fun _ => none) [.put 0 ⟨2, [some 1, some 2, none, none]⟩, .moveCtor 1 0 none] = .ok σ ∧
      (σ 0).map FA.live = some [some 0, some 0]) := ⟨⟨_, rfl, rfl⟩, ⟨_, rfl, rfl⟩⟩

theorem walk_eq (a : FA α) : ∀ n p, p + n ≤ a.data.length → walk a p n = some ((a.data.drop p).take n)
  | 0, _, _ => by simp [walk]
  | n + 1, p, h => by
    have hp : p < a.data.length := by omega
    have e : deref a p = some a.data[p] := by simp [deref, hp]
    rw [walk, e, Option.bind_some, walk_eq a n (p + 1) (by omega), Option.map_some]
    rw [List.drop_eq_getElem_cons hp, List.take_succ_cons]

theorem rwalk_eq (a : FA α) : ∀ n, n ≤ a.data.length → rwalk a n n = some (a.data.take n).reverse
  | 0, _ => by simp [rwalk]
  | n + 1, h => by
    have hp : n < a.data.length := by omega
    have e : rderef a (n + 1) = some a.data[n] := by simp [rderef, deref, hp]
    rw [rwalk, e, Option.bind_some, Nat.add_sub_cancel, rwalk_eq a n (by omega), Option.map_some]
    rw [List.take_succ_eq_append_getElem hp, List.reverse_append]; rfl

theorem wf_size_le {m : Mode} {a : FA α} (h : Wf m a) : a.size ≤ a.data.length := by
  cases m <;> simp only [Wf] at h <;> omega

/-- **C72.** In every reachable array: iterating visits the elements once each, in order; reverse iteration in the opposite order; the span
and the subscripts denote the same elements; nothing outside the buffer is read. -/
theorem access_spec {env : Env α} {m : Mode} {a : FA α} (h : Reach env m a) :
    traverse a = some a.live ∧ rtraverse a = some a.live.reverse ∧ toSpan m a = some a.live ∧
    (∀ i, i < a.size → ∃ x, subscript a i = some x ∧ a.live[i]? = some x) := by
  have hw := reach_wf h
  have hl := wf_size_le hw
  refine ⟨?_, ?_, ?_, ?_⟩
  · rw [traverse, walk_eq]
    · simp [beginPos, endPos, FA.live]
    · simpa [beginPos, endPos] using hl
  · rw [rtraverse]
    simp only [endPos, beginPos, Nat.zero_add, Nat.sub_zero]
    exact rwalk_eq a a.size hl
  · cases m with
    | static n => simp only [Wf] at hw; rw [toSpan, walk_eq] <;> simp [FA.live, hw]
    | limited n => rw [toSpan, walk_eq _ _ _ (by omega)]; simp [FA.live]
    | dynamic => simp only [Wf] at hw; rw [toSpan, walk_eq] <;> simp [FA.live, hw]
  · intro i hi
    have : i < a.data.length := by omega
    exact ⟨a.data[i], by simp [subscript, deref, this], by simp [FA.live, hi, this]⟩

example : rtraverse (α := Nat) ⟨2, [some 5, some 6, none]⟩ = some [some 6, some 5] := rfl

example : ∃ a, ofInit (α := Nat) ⟨none, 0⟩ (.limited 3) [5, 6] = .ok a ∧ traverse a = some a.live :=
  ⟨_, rfl, (access_spec (.ofInit (env := ⟨none, 0⟩) (m := .limited 3) (xs := [5, 6]) rfl)).1⟩

end Verif.FlexArray
