import Verif.TupleLife.Model

/-!
# C100: lifetimes of the elements of tuples

Constructors, assignments, swap and destruction of tuples with element operations that may throw.
-/

namespace Verif.TupleLife

variable {σ V A : Type}

/-! ### Specification -/

/-- The constructions `steps` are performed one after the other, from user state `u` to `u'`, none throws, and the results are the
given values. -/
inductive Made : List (σ → Option V × σ) → σ → List V → σ → Prop
  | nil (u) : Made [] u [] u
  | cons {s ss u v u' vs u''} : s u = (some v, u') → Made ss u' vs u'' → Made (s :: ss) u (v :: vs) u''

/-- The user's state after the values were destroyed, the last one first; the first one has position `k`. -/
def unwind (ops : Ops σ V A) (k : Nat) (vs : List V) (u : σ) : σ :=
  (vs.zipIdx k).foldr (fun p u => ops.destroy p.2 p.1 u) u

/-- The values `vs`, at positions from `k`, are moved from one after the other; the results are `new`, and `left` remains. -/
inductive Moved (ops : Ops σ V A) : Nat → List V → σ → List V → List V → σ → Prop
  | nil (k u) : Moved ops k [] u [] [] u
  | cons {k v vs u n l u' new left u''} : ops.move k v u = (some n, l, u') → Moved ops (k + 1) vs u' new left u'' →
      Moved ops k (v :: vs) u (n :: new) (l :: left) u''

/-- The values `old`, at positions from `k`, are assigned from `src` one after the other; the results are `new`. -/
inductive Assigned (ops : Ops σ V A) : Nat → List V → List V → σ → List V → σ → Prop
  | nil (k u) : Assigned ops k [] [] u [] u
  | cons {k v vs s ss u n u' new u''} : ops.copyAssign k v s u = (false, n, u') → Assigned ops (k + 1) vs ss u' new u'' →
      Assigned ops k (v :: vs) (s :: ss) u (n :: new) u''

/-- The values `old`, at positions from `k`, are move-assigned from `src` one after the other; the results are `new`, and `left`
remains in the sources. -/
inductive MoveAssigned (ops : Ops σ V A) : Nat → List V → List V → σ → List V → List V → σ → Prop
  | nil (k u) : MoveAssigned ops k [] [] u [] [] u
  | cons {k v vs s ss u n l u' new left u''} : ops.moveAssign k v s u = (false, n, l, u') →
      MoveAssigned ops (k + 1) vs ss u' new left u'' → MoveAssigned ops k (v :: vs) (s :: ss) u (n :: new) (l :: left) u''

/-- The values `vs`, at positions from `k`, are assigned to themselves one after the other with `f`; the results are `new`. -/
inductive SelfAssigned (f : Nat → V → σ → Bool × V × σ) : Nat → List V → σ → List V → σ → Prop
  | nil (k u) : SelfAssigned f k [] u [] u
  | cons {k v vs u n u' new u''} : f k v u = (false, n, u') → SelfAssigned f (k + 1) vs u' new u'' →
      SelfAssigned f k (v :: vs) u (n :: new) u''

/-- The objects of a tuple, and their values. -/
def ids (cs : List (Cell V)) : List Nat := cs.map Cell.id
/-- The values of the elements of a tuple. -/
def vals (cs : List (Cell V)) : List V := cs.map Cell.val

/-! ### Construction and destruction -/

theorem unwind_cons (ops : Ops σ V A) (k : Nat) (v : V) (vs : List V) (u : σ) :
    unwind ops k (v :: vs) u = ops.destroy k v (unwind ops (k + 1) vs u) := by
  simp [unwind]

theorem range'_cons (i n : Nat) : List.range' i (n + 1) = i :: List.range' (i + 1) n := by
  rw [List.range'_succ]

/-- **C100.** A constructor makes the elements from left to right. If none throws, the tuple has exactly these; if one throws, no
further one is made, those made are destroyed in reverse order, and the exception goes on. -/
theorem build_spec (ops : Ops σ V A) : ∀ (k : Nat) (steps : List (σ → Option V × σ)) (w : W σ),
    match build ops k steps w with
    | (some cs, w') => Made steps w.user (vals cs) w'.user ∧ ids cs = List.range' w.next steps.length ∧
        w'.next = w.next + steps.length ∧ w'.log = w.log ++ (List.range' w.next steps.length).map .made
    | (none, w') => ∃ pre s post vs u1 u2, steps = pre ++ s :: post ∧ Made pre w.user vs u1 ∧ s u1 = (none, u2) ∧
        w'.user = unwind ops k vs u2 ∧ w'.next = w.next + pre.length ∧
        w'.log = w.log ++ (List.range' w.next pre.length).map .made ++ (List.range' w.next pre.length).reverse.map .gone
  | k, [], w => by simp [build, vals, ids]; exact .nil _
  | k, s :: ss, w => by
    simp only [build]
    rcases hs : s w.user with ⟨_ | v, u⟩
    · exact ⟨[], s, ss, [], w.user, u, rfl, .nil _, hs, by simp [unwind], by simp, by simp⟩
    · have ih := build_spec ops (k + 1) ss ⟨u, w.next + 1, w.log ++ [.made w.next]⟩
      dsimp only
      revert ih
      generalize build ops (k + 1) ss ⟨u, w.next + 1, w.log ++ [.made w.next]⟩ = r
      rcases r with ⟨_ | cs, w'⟩
      · rintro ⟨pre, t, post, vs, u1, u2, h1, h2, h3, h4, h5, h6⟩
        refine ⟨s :: pre, t, post, v :: vs, u1, u2, by rw [h1]; rfl, .cons hs h2, h3, ?_, ?_, ?_⟩
        · rw [unwind_cons, ← h4]
        · simp only [h5, List.length_cons]; omega
        · simp only [h6, List.length_cons, range'_cons]; simp
      · rintro ⟨h1, h2, h3, h4⟩
        refine ⟨.cons hs h1, ?_, ?_, ?_⟩
        · simp only [List.length_cons, range'_cons, ids, List.map_cons] at h2 ⊢; rw [h2]
        · simp only [h3, List.length_cons]; omega
        · simp only [h4, List.length_cons, range'_cons]; simp

/-- **C100.** The destructor destroys the elements in reverse order. -/
theorem destroy_spec (ops : Ops σ V A) : ∀ (k : Nat) (cs : List (Cell V)) (w : W σ),
    destroyAll ops k cs w = ⟨unwind ops k (vals cs) w.user, w.next, w.log ++ (ids cs).reverse.map .gone⟩
  | k, [], w => by simp [destroyAll, unwind, vals, ids]
  | k, c :: cs, w => by
    simp only [destroyAll, destroy_spec ops (k + 1) cs w, vals, ids, List.map_cons, unwind_cons]
    simp

/-- **C100.** The move constructor moves from the elements from left to right. If one throws, those made are destroyed in reverse
order; the elements before it stay moved from, the ones behind it are untouched. -/
theorem move_spec (ops : Ops σ V A) : ∀ (k : Nat) (cs : List (Cell V)) (w : W σ),
    match moveAll ops k cs w with
    | (some ds, cs', w') => Moved ops k (vals cs) w.user (vals ds) (vals cs') w'.user ∧ ids cs' = ids cs ∧
        ids ds = List.range' w.next cs.length ∧ w'.next = w.next + cs.length ∧
        w'.log = w.log ++ (List.range' w.next cs.length).map .made
    | (none, cs', w') => ∃ pre c post new left l u1 u2, cs = pre ++ c :: post ∧ Moved ops k (vals pre) w.user new left u1 ∧
        ops.move (k + pre.length) c.val u1 = (none, l, u2) ∧ vals cs' = left ++ l :: vals post ∧ ids cs' = ids cs ∧
        w'.user = unwind ops k new u2 ∧ w'.next = w.next + pre.length ∧
        w'.log = w.log ++ (List.range' w.next pre.length).map .made ++ (List.range' w.next pre.length).reverse.map .gone
  | k, [], w => by simp [moveAll, vals, ids]; exact .nil _ _
  | k, c :: cs, w => by
    simp only [moveAll]
    rcases hs : ops.move k c.val w.user with ⟨_ | v, l, u⟩
    · exact ⟨[], c, cs, [], [], l, w.user, u, rfl, .nil _ _, hs, by simp [vals], by simp [ids], by simp [unwind], by simp, by simp⟩
    · have ih := move_spec ops (k + 1) cs ⟨u, w.next + 1, w.log ++ [.made w.next]⟩
      dsimp only
      revert ih
      generalize moveAll ops (k + 1) cs ⟨u, w.next + 1, w.log ++ [.made w.next]⟩ = r
      rcases r with ⟨_ | ds, cs', w'⟩
      · rintro ⟨pre, t, post, new, left, l', u1, u2, h1, h2, h3, h4, h4', h5, h6, h7⟩
        refine ⟨c :: pre, t, post, v :: new, l :: left, l', u1, u2, by rw [h1]; rfl, .cons hs h2, ?_, ?_, ?_, ?_, ?_, ?_⟩
        · rw [← h3]; congr 1; simp only [List.length_cons]; omega
        · simp only [vals, List.map_cons] at h4 ⊢; rw [h4]; rfl
        · simp only [ids, List.map_cons] at h4' ⊢; rw [h4']
        · rw [unwind_cons, ← h5]
        · simp only [h6, List.length_cons]; omega
        · simp only [h7, List.length_cons, range'_cons]; simp
      · rintro ⟨h1, h1', h2, h3, h4⟩
        refine ⟨.cons hs h1, ?_, ?_, ?_, ?_⟩
        · simp only [ids, List.map_cons] at h1' ⊢; rw [h1']
        · simp only [List.length_cons, range'_cons, ids, List.map_cons] at h2 ⊢; rw [h2]
        · simp only [h3, List.length_cons]; omega
        · simp only [h4, List.length_cons, range'_cons]; simp

/-! ### Assignment -/

/-- **C100.** Copy assignment assigns the elements from left to right; objects are neither made nor destroyed. If one throws, the
elements before it have their new values, it has what its assignment left, and those behind it are unchanged. -/
theorem copy_assign_spec (ops : Ops σ V A) : ∀ (k : Nat) (ds ss : List (Cell V)) (w : W σ), ds.length = ss.length →
    match copyAssignAll ops k ds ss w with
    | (false, ds', w') => Assigned ops k (vals ds) (vals ss) w.user (vals ds') w'.user ∧ ids ds' = ids ds ∧ w'.next = w.next ∧ w'.log = w.log
    | (true, ds', w') => ∃ pre d post spre s spost new v u1, ds = pre ++ d :: post ∧ ss = spre ++ s :: spost ∧ pre.length = spre.length ∧
        Assigned ops k (vals pre) (vals spre) w.user new u1 ∧ ops.copyAssign (k + pre.length) d.val s.val u1 = (true, v, w'.user) ∧
        vals ds' = new ++ v :: vals post ∧ ids ds' = ids ds ∧ w'.next = w.next ∧ w'.log = w.log
  | k, [], [], w, _ => by simp [copyAssignAll, vals, ids]; exact .nil _ _
  | k, [], _ :: _, w, h => by simp at h
  | k, _ :: _, [], w, h => by simp at h
  | k, d :: ds, s :: ss, w, h => by
    simp only [copyAssignAll]
    rcases hs : ops.copyAssign k d.val s.val w.user with ⟨_ | _, v, u⟩
    · have ih := copy_assign_spec ops (k + 1) ds ss { w with user := u } (by simpa using h)
      dsimp only
      revert ih
      rcases copyAssignAll ops (k + 1) ds ss { w with user := u } with ⟨_ | _, ds', w'⟩
      · rintro ⟨h1, h2, h3, h4⟩
        refine ⟨.cons hs h1, ?_, h3, h4⟩
        simp only [ids, List.map_cons] at h2 ⊢; rw [h2]
      · rintro ⟨pre, d', post, spre, s', spost, new, v', u1, h1, h2, h3, h4, h5, h6, h7, h8, h9⟩
        refine ⟨d :: pre, d', post, s :: spre, s', spost, v :: new, v', u1, by rw [h1]; rfl, by rw [h2]; rfl, by simp [h3], .cons hs h4, ?_, ?_,
          ?_, h8, h9⟩
        · rw [← h5]; congr 1; simp only [List.length_cons]; omega
        · simp only [vals, List.map_cons] at h6 ⊢; rw [h6]; rfl
        · simp only [ids, List.map_cons] at h7 ⊢; rw [h7]
    · exact ⟨[], d, ds, [], s, ss, [], v, w.user, rfl, rfl, rfl, .nil _ _, hs, by simp [vals], by simp [ids], rfl, rfl⟩

/-- **C100.** Move assignment, likewise; what remains in the sources. -/
theorem move_assign_spec (ops : Ops σ V A) : ∀ (k : Nat) (ds ss : List (Cell V)) (w : W σ), ds.length = ss.length →
    match moveAssignAll ops k ds ss w with
    | (false, ds', ss', w') => MoveAssigned ops k (vals ds) (vals ss) w.user (vals ds') (vals ss') w'.user ∧ ids ds' = ids ds ∧
        ids ss' = ids ss ∧ w'.next = w.next ∧ w'.log = w.log
    | (true, ds', ss', w') => ∃ pre d post spre s spost new left v l u1, ds = pre ++ d :: post ∧ ss = spre ++ s :: spost ∧
        pre.length = spre.length ∧ MoveAssigned ops k (vals pre) (vals spre) w.user new left u1 ∧
        ops.moveAssign (k + pre.length) d.val s.val u1 = (true, v, l, w'.user) ∧
        vals ds' = new ++ v :: vals post ∧ vals ss' = left ++ l :: vals spost ∧ ids ds' = ids ds ∧ ids ss' = ids ss ∧
        w'.next = w.next ∧ w'.log = w.log
  | k, [], [], w, _ => by simp [moveAssignAll, vals, ids]; exact .nil _ _
  | k, [], _ :: _, w, h => by simp at h
  | k, _ :: _, [], w, h => by simp at h
  | k, d :: ds, s :: ss, w, h => by
    simp only [moveAssignAll]
    rcases hs : ops.moveAssign k d.val s.val w.user with ⟨_ | _, v, l, u⟩
    · have ih := move_assign_spec ops (k + 1) ds ss { w with user := u } (by simpa using h)
      dsimp only
      revert ih
      rcases moveAssignAll ops (k + 1) ds ss { w with user := u } with ⟨_ | _, ds', ss', w'⟩
      · rintro ⟨h1, h2, h2', h3, h4⟩
        refine ⟨.cons hs h1, ?_, ?_, h3, h4⟩
        · simp only [ids, List.map_cons] at h2 ⊢; rw [h2]
        · simp only [ids, List.map_cons] at h2' ⊢; rw [h2']
      · rintro ⟨pre, d', post, spre, s', spost, new, left, v', l', u1, h1, h2, h3, h4, h5, h6, h6', h7, h7', h8, h9⟩
        refine ⟨d :: pre, d', post, s :: spre, s', spost, v :: new, l :: left, v', l', u1, by rw [h1]; rfl, by rw [h2]; rfl, by simp [h3],
          .cons hs h4, ?_, ?_, ?_, ?_, ?_, h8, h9⟩
        · rw [← h5]; congr 1; simp only [List.length_cons]; omega
        · simp only [vals, List.map_cons] at h6 ⊢; rw [h6]; rfl
        · simp only [vals, List.map_cons] at h6' ⊢; rw [h6']; rfl
        · simp only [ids, List.map_cons] at h7 ⊢; rw [h7]
        · simp only [ids, List.map_cons] at h7' ⊢; rw [h7']
    · exact ⟨[], d, ds, [], s, ss, [], [], v, l, w.user, rfl, rfl, rfl, .nil _ _, hs, by simp [vals], by simp [vals], by simp [ids], by simp [ids],
        rfl, rfl⟩

/-- **C100.** Assigning a tuple to itself assigns each element to itself, from left to right, until one throws. -/
theorem self_assign_spec (f : Nat → V → σ → Bool × V × σ) : ∀ (k : Nat) (cs : List (Cell V)) (w : W σ),
    match selfAll f k cs w with
    | (false, cs', w') => SelfAssigned f k (vals cs) w.user (vals cs') w'.user ∧ ids cs' = ids cs ∧ w'.next = w.next ∧ w'.log = w.log
    | (true, cs', w') => ∃ pre d post new v u1, cs = pre ++ d :: post ∧
        SelfAssigned f k (vals pre) w.user new u1 ∧ f (k + pre.length) d.val u1 = (true, v, w'.user) ∧
        vals cs' = new ++ v :: vals post ∧ ids cs' = ids cs ∧ w'.next = w.next ∧ w'.log = w.log
  | k, [], w => by simp [selfAll, vals, ids]; exact .nil _ _
  | k, d :: ds, w => by
    simp only [selfAll]
    rcases hs : f k d.val w.user with ⟨_ | _, v, u⟩
    · have ih := self_assign_spec f (k + 1) ds { w with user := u }
      dsimp only
      revert ih
      rcases selfAll f (k + 1) ds { w with user := u } with ⟨_ | _, ds', w'⟩
      · rintro ⟨h1, h2, h3, h4⟩
        refine ⟨.cons hs h1, ?_, h3, h4⟩
        simp only [ids, List.map_cons] at h2 ⊢; rw [h2]
      · rintro ⟨pre, d', post, new, v', u1, h1, h4, h5, h6, h7, h8, h9⟩
        refine ⟨d :: pre, d', post, v :: new, v', u1, by rw [h1]; rfl, .cons hs h4, ?_, ?_, ?_, h8, h9⟩
        · rw [← h5]; congr 1; simp only [List.length_cons]; omega
        · simp only [vals, List.map_cons] at h6 ⊢; rw [h6]; rfl
        · simp only [ids, List.map_cons] at h7 ⊢; rw [h7]
    · exact ⟨[], d, ds, [], v, w.user, rfl, .nil _ _, hs, by simp [vals], by simp [ids], rfl, rfl⟩

theorem self_ids (f : Nat → V → σ → Bool × V × σ) (cs : List (Cell V)) (w : W σ) :
    ids (selfAll f 0 cs w).2.1 = ids cs ∧ (selfAll f 0 cs w).2.2.next = w.next ∧ (selfAll f 0 cs w).2.2.log = w.log := by
  have := self_assign_spec f 0 cs w
  rcases h : selfAll f 0 cs w with ⟨_ | _, cs', w'⟩
  · rw [h] at this; exact ⟨this.2.1, this.2.2.1, this.2.2.2⟩
  · rw [h] at this
    obtain ⟨_, _, _, _, _, _, _, _, _, _, h1, h2, h3⟩ := this
    exact ⟨h1, h2, h3⟩

/-! ### Histories -/

/-- The objects that are alive: those of the tuples that exist. -/
def Live (m : Nat → Option (List (Cell V))) (i : Nat) : Prop := ∃ x cs, m x = some cs ∧ i ∈ ids cs

/-- The books are balanced: each number below `next` was made once and no other; those alive were not destroyed, the others once. -/
structure Ledger (L : Nat → Prop) (w : W σ) : Prop where
  made : ∀ i, w.log.count (.made i) = if i < w.next then 1 else 0
  live : ∀ i, L i → i < w.next ∧ w.log.count (.gone i) = 0
  dead : ∀ i, i < w.next → ¬ L i → w.log.count (.gone i) = 1
  future : ∀ i, w.next ≤ i → w.log.count (.gone i) = 0
  first : ∀ pre, pre <+: w.log → ∀ i, Ev.gone i ∈ pre → Ev.made i ∈ pre

theorem Ledger.congr {L L' : Nat → Prop} {w : W σ} (h : Ledger L w) (e : ∀ i, L i ↔ L' i) : Ledger L' w :=
  ⟨h.made, fun i hi => h.live i ((e i).2 hi), fun i hi hn => h.dead i hi (fun h' => hn ((e i).1 h')), h.future, h.first⟩

theorem Ledger.user {L : Nat → Prop} {w w' : W σ} (h : Ledger L w) (hn : w'.next = w.next) (hl : w'.log = w.log) : Ledger L w' :=
  ⟨fun i => by rw [hn, hl]; exact h.made i, fun i hi => by rw [hn, hl]; exact h.live i hi, fun i => by rw [hn, hl]; exact h.dead i,
    fun i => by rw [hn, hl]; exact h.future i, by rw [hl]; exact h.first⟩

theorem count_made_made (l : List Nat) (i : Nat) : (l.map Ev.made).count (.made i) = l.count i := by
  induction l with
  | nil => rfl
  | cons a l ih => simp only [List.map_cons, List.count_cons, ih]; congr 1; simp

theorem count_made_gone (l : List Nat) (i : Nat) : (l.map Ev.made).count (.gone i) = 0 := by
  induction l with
  | nil => rfl
  | cons a l ih => simp [List.count_cons, ih]

theorem count_gone_gone (l : List Nat) (i : Nat) : (l.map Ev.gone).count (.gone i) = l.count i := by
  induction l with
  | nil => rfl
  | cons a l ih => simp only [List.map_cons, List.count_cons, ih]; congr 1; simp

theorem count_gone_made (l : List Nat) (i : Nat) : (l.map Ev.gone).count (.made i) = 0 := by
  induction l with
  | nil => rfl
  | cons a l ih => simp [List.count_cons, ih]

theorem count_range' : ∀ (n a i : Nat), (List.range' a n).count i = if a ≤ i ∧ i < a + n then 1 else 0
  | 0, a, i => by
    have : ¬ (a ≤ i ∧ i < a + 0) := by omega
    rw [if_neg this]; rfl
  | n + 1, a, i => by
    rw [range'_cons, List.count_cons, count_range' n (a + 1) i]
    by_cases h : a = i
    · subst h
      have h1 : ¬ (a + 1 ≤ a ∧ a < a + 1 + n) := by omega
      have h2 : a ≤ a ∧ a < a + (n + 1) := by omega
      rw [if_neg h1, if_pos h2]; simp
    · have e : (a == i) = false := by simpa using h
      simp only [e]
      by_cases h' : a + 1 ≤ i ∧ i < a + 1 + n
      · have : a ≤ i ∧ i < a + (n + 1) := by omega
        simp [h', this]
      · have : ¬ (a ≤ i ∧ i < a + (n + 1)) := by omega
        simp [h', this]

/-- A beginning of `a ++ b` is one of `a`, or `a` with a beginning of `b`. -/
theorem prefix_append {α : Type} {pre a b : List α} (h : pre <+: a ++ b) : pre <+: a ∨ ∃ q, pre = a ++ q ∧ q <+: b := by
  rcases List.prefix_or_prefix_of_prefix h (List.prefix_append a b) with h1 | ⟨q, rfl⟩
  · exact .inl h1
  · exact .inr ⟨q, rfl, (List.prefix_append_right_inj a).1 h⟩

theorem Ledger.make {L : Nat → Prop} {w w' : W σ} (h : Ledger L w) {a : Nat} (hn : w'.next = w.next + a)
    (hl : w'.log = w.log ++ (List.range' w.next a).map .made) : Ledger (fun i => L i ∨ i ∈ List.range' w.next a) w' := by
  have hm : ∀ i, i ∈ List.range' w.next a ↔ w.next ≤ i ∧ i < w.next + a := fun i => by
    rw [List.mem_range']; constructor
    · rintro ⟨j, hj, rfl⟩; omega
    · rintro ⟨h1, h2⟩; exact ⟨i - w.next, by omega, by omega⟩
  refine ⟨fun i => ?_, fun i hi => ?_, fun i hi hnl => ?_, fun i hi => ?_, fun pre hp i hg => ?_⟩
  · rw [hl, List.count_append, count_made_made, count_range', h.made i, hn]
    by_cases h1 : i < w.next
    · have : ¬ (w.next ≤ i ∧ i < w.next + a) := by omega
      have : i < w.next + a := by omega
      simp [*]
    · by_cases h2 : i < w.next + a
      · have : w.next ≤ i := by omega
        simp [*]
      · simp [h1, h2]
  · rw [hl, List.count_append, count_made_gone, hn]
    rcases hi with hi | hi
    · have := h.live i hi; omega
    · have := (hm i).1 hi
      have := h.future i this.1
      omega
  · rw [hl, List.count_append, count_made_gone]
    rw [hm] at hnl
    have : i < w.next := by
      apply Classical.byContradiction
      intro hc
      exact hnl (.inr ⟨by omega, by omega⟩)
    have := h.dead i this (fun h' => hnl (.inl h'))
    omega
  · rw [hl, List.count_append, count_made_gone]
    have := h.future i (by omega)
    omega
  · rw [hl] at hp
    rcases prefix_append hp with hp | ⟨q, rfl, hq⟩
    · exact h.first pre hp i hg
    · rw [List.mem_append] at hg ⊢
      rcases hg with hg | hg
      · exact .inl (h.first _ (List.prefix_refl _) i hg)
      · have := hq.subset hg
        simp at this

theorem Ledger.drop {L : Nat → Prop} {w w' : W σ} (h : Ledger L w) {l : List Nat} (hd : l.Nodup) (hL : ∀ i ∈ l, L i) (hn : w'.next = w.next)
    (hl : w'.log = w.log ++ l.map .gone) : Ledger (fun i => L i ∧ i ∉ l) w' := by
  have hc : ∀ i, l.count i = if i ∈ l then 1 else 0 := fun i => by
    by_cases hi : i ∈ l
    · rw [if_pos hi]
      have h1 := List.nodup_iff_count.1 hd i
      have h2 := List.count_pos_iff.2 hi
      omega
    · rw [if_neg hi]; exact List.count_eq_zero.2 hi
  refine ⟨fun i => ?_, fun i hi => ?_, fun i hi hnl => ?_, fun i hi => ?_, fun pre hp i hg => ?_⟩
  · rw [hl, List.count_append, count_gone_made, h.made i, hn]; rfl
  · rw [hl, List.count_append, count_gone_gone, hn, hc, if_neg hi.2]
    have := h.live i hi.1; omega
  · rw [hl, List.count_append, count_gone_gone, hc]
    by_cases hil : i ∈ l
    · rw [if_pos hil]; have := (h.live i (hL i hil)).2; omega
    · rw [if_neg hil]
      have := h.dead i (by omega) (fun h' => hnl ⟨h', hil⟩)
      omega
  · rw [hl, List.count_append, count_gone_gone, hc]
    have hil : i ∉ l := fun hi' => by have := (h.live i (hL i hi')).1; omega
    rw [if_neg hil]
    have := h.future i (by omega)
    omega
  · rw [hl] at hp
    rcases prefix_append hp with hp | ⟨q, rfl, hq⟩
    · exact h.first pre hp i hg
    · rw [List.mem_append] at hg ⊢
      rcases hg with hg | hg
      · exact .inl (h.first _ (List.prefix_refl _) i hg)
      · have h1 := hq.subset hg
        simp only [List.mem_map, Ev.gone.injEq, exists_eq_right] at h1
        have h2 := (h.live i (hL i h1)).1
        have h3 := h.made i
        rw [if_pos h2] at h3
        exact .inl (List.count_pos_iff.1 (by omega))

/-- What holds in every state a program reaches. -/
structure Inv (n : Nat) (s : St σ V) : Prop where
  len : ∀ x cs, s.tuples x = some cs → cs.length = n
  nodup : ∀ x cs, s.tuples x = some cs → (ids cs).Nodup
  disj : ∀ x y cs ds, x ≠ y → s.tuples x = some cs → s.tuples y = some ds → ∀ i ∈ ids cs, i ∉ ids ds
  ledger : Ledger (Live s.tuples) s.w

theorem upd_same {m : Nat → Option (List (Cell V))} {x : Nat} {t : Option (List (Cell V))} : upd m x t x = t := by simp [upd]

theorem upd_other {m : Nat → Option (List (Cell V))} {x y : Nat} {t : Option (List (Cell V))} (h : y ≠ x) : upd m x t y = m y := by simp [upd, h]

theorem nodup_reverse' {l : List Nat} (h : l.Nodup) : l.reverse.Nodup := by
  rw [List.nodup_iff_count] at h ⊢
  intro i
  rw [List.count_reverse]
  exact h i

theorem nodup_range' (a n : Nat) : (List.range' a n).Nodup := by
  rw [List.nodup_iff_count]
  intro i
  rw [count_range']
  split <;> omega

theorem ids_length (cs : List (Cell V)) : (ids cs).length = cs.length := by simp [ids]

/-- Constructing a tuple of fresh objects under a free name. -/
theorem Inv.add {n : Nat} {s : St σ V} (h : Inv n s) {x : Nat} (hx : s.tuples x = none) {cs : List (Cell V)} {w' : W σ}
    (hi : ids cs = List.range' s.w.next n) (hn : w'.next = s.w.next + n)
    (hl : w'.log = s.w.log ++ (List.range' s.w.next n).map .made) : Inv n ⟨upd s.tuples x (some cs), w'⟩ := by
  have hlen : cs.length = n := by rw [← ids_length, hi]; simp
  have fresh : ∀ y ds, s.tuples y = some ds → ∀ i ∈ ids ds, i < s.w.next := fun y ds hy i hi' => (h.ledger.live i ⟨y, ds, hy, hi'⟩).1
  have hge : ∀ i ∈ ids cs, s.w.next ≤ i := fun i hi' => by rw [hi] at hi'; simp [List.mem_range'] at hi'; omega
  refine ⟨fun y ds hy => ?_, fun y ds hy => ?_, fun y z ds es hyz hy hz i hi' => ?_, ?_⟩
  · by_cases e : y = x
    · subst e; simp only [upd_same, Option.some.injEq] at hy; subst hy; exact hlen
    · simp only [upd_other e] at hy; exact h.len y ds hy
  · by_cases e : y = x
    · subst e; simp only [upd_same, Option.some.injEq] at hy; subst hy; rw [hi]; exact nodup_range' _ _
    · simp only [upd_other e] at hy; exact h.nodup y ds hy
  · by_cases e : y = x
    · subst e
      simp only [upd_same, Option.some.injEq] at hy; subst hy
      simp only [upd_other (Ne.symm hyz)] at hz
      intro hc
      have := fresh z es hz i hc
      have := hge i hi'
      omega
    · simp only [upd_other e] at hy
      by_cases e' : z = x
      · subst e'
        simp only [upd_same, Option.some.injEq] at hz; subst hz
        intro hc
        have := fresh y ds hy i hi'
        have := hge i hc
        omega
      · simp only [upd_other e'] at hz
        exact h.disj y z ds es hyz hy hz i hi'
  · refine (h.ledger.make (w' := w') (a := n) hn hl).congr fun i => ?_
    constructor
    · rintro (⟨y, ds, hy, hi'⟩ | hi')
      · refine ⟨y, ds, ?_, hi'⟩
        have : y ≠ x := fun e => by subst e; rw [hx] at hy; cases hy
        exact (upd_other this).trans hy
      · exact ⟨x, cs, upd_same, by rw [hi]; exact hi'⟩
    · rintro ⟨y, ds, hy, hi'⟩
      by_cases e : y = x
      · subst e; simp only [upd_same, Option.some.injEq] at hy; subst hy; right; rw [← hi]; exact hi'
      · left; simp only [upd_other e] at hy; exact ⟨y, ds, hy, hi'⟩

/-- Making objects and destroying them again. -/
theorem Ledger.none {L : Nat → Prop} {w w' : W σ} (h : Ledger L w) {a : Nat} (hn : w'.next = w.next + a)
    (hl : w'.log = w.log ++ (List.range' w.next a).map .made ++ (List.range' w.next a).reverse.map .gone) : Ledger L w' := by
  have h1 : Ledger (fun i => L i ∨ i ∈ List.range' w.next a) (⟨w.user, w.next + a, w.log ++ (List.range' w.next a).map .made⟩ : W σ) :=
    h.make (w' := ⟨w.user, w.next + a, w.log ++ (List.range' w.next a).map .made⟩) rfl rfl
  have h2 := h1.drop (w' := w') (l := (List.range' w.next a).reverse) (by
    exact nodup_reverse' <| nodup_range' _ _) (fun i hi => .inr (by simpa using hi)) hn hl
  refine h2.congr fun i => ?_
  constructor
  · rintro ⟨h3 | h3, h4⟩
    · exact h3
    · exact absurd (by simpa using h3) h4
  · intro h3
    refine ⟨.inl h3, fun h4 => ?_⟩
    have h5 := (h.live i h3).1
    simp only [List.mem_reverse, List.mem_range'] at h4
    obtain ⟨j, _, h6⟩ := h4
    omega

theorem Inv.construct {ops : Ops σ V A} {n : Nat} {s : St σ V} (h : Inv n s) {x : Nat} (hx : s.tuples x = none)
    {steps : List (σ → Option V × σ)} (hs : steps.length = n) : Inv n (construct ops x steps s) := by
  have := build_spec ops 0 steps s.w
  unfold TupleLife.construct
  revert this
  rcases build ops 0 steps s.w with ⟨_ | cs, w'⟩
  · rintro ⟨pre, t, post, vs, u1, u2, _, _, _, _, h5, h6⟩
    exact ⟨h.len, h.nodup, h.disj, h.ledger.none h5 h6⟩
  · rintro ⟨_, h2, h3, h4⟩
    rw [hs] at h2 h3 h4
    exact h.add hx h2 h3 h4

/-- Replacing tuples by ones with the same objects. -/
theorem Inv.same {n : Nat} {s : St σ V} (h : Inv n s) {m : Nat → Option (List (Cell V))} {w' : W σ}
    (hm : ∀ y, (m y).map ids = (s.tuples y).map ids) (hl : Ledger (Live s.tuples) w') : Inv n ⟨m, w'⟩ := by
  have get : ∀ y cs, m y = some cs → ∃ ds, s.tuples y = some ds ∧ ids ds = ids cs := fun y cs hy => by
    have := hm y
    rw [hy] at this
    cases hs : s.tuples y with
    | none => rw [hs] at this; cases this
    | some ds => rw [hs] at this; exact ⟨ds, rfl, (Option.some.inj this).symm⟩
  refine ⟨fun y cs hy => ?_, fun y cs hy => ?_, fun y z cs es hyz hy hz i hi => ?_, hl.congr fun i => ?_⟩
  · obtain ⟨ds, h1, h2⟩ := get y cs hy
    rw [← ids_length, ← h2, ids_length]; exact h.len y ds h1
  · obtain ⟨ds, h1, h2⟩ := get y cs hy
    rw [← h2]; exact h.nodup y ds h1
  · obtain ⟨ds, h1, h2⟩ := get y cs hy
    obtain ⟨fs, h3, h4⟩ := get z es hz
    rw [← h2] at hi; rw [← h4]
    exact h.disj y z ds fs hyz h1 h3 i hi
  · constructor
    · rintro ⟨y, ds, hy, hi⟩
      have := hm y
      rw [hy] at this
      cases hs : m y with
      | none => rw [hs] at this; cases this
      | some cs => rw [hs] at this; exact ⟨y, cs, hs, by rw [Option.some.inj this]; exact hi⟩
    · rintro ⟨y, cs, hy, hi⟩
      obtain ⟨ds, h1, h2⟩ := get y cs hy
      exact ⟨y, ds, h1, by rw [h2]; exact hi⟩

theorem same_upd {s : St σ V} {x : Nat} {cs cs' : List (Cell V)} (hx : s.tuples x = some cs) (h : ids cs' = ids cs) (y : Nat) :
    (upd s.tuples x (some cs') y).map ids = (s.tuples y).map ids := by
  by_cases e : y = x
  · subst e; rw [upd_same, hx]; simp [h]
  · rw [upd_other e]

theorem same_upd2 {s : St σ V} {x y : Nat} {cs cs' ds ds' : List (Cell V)} (hx : s.tuples x = some cs) (hy : s.tuples y = some ds)
    (h : ids cs' = ids cs) (h' : ids ds' = ids ds) (z : Nat) :
    (upd (upd s.tuples y (some ds')) x (some cs') z).map ids = (s.tuples z).map ids := by
  by_cases e : z = x
  · subst e; rw [upd_same, hx]; simp [h]
  · rw [upd_other e]; exact same_upd hy h' z

theorem moveAssign_ids (ops : Ops σ V A) {ds ss : List (Cell V)} {w : W σ} (hl : ds.length = ss.length) {r : Bool} {ds' ss' : List (Cell V)}
    {w' : W σ} (h : moveAssignAll ops 0 ds ss w = (r, ds', ss', w')) :
    ids ds' = ids ds ∧ ids ss' = ids ss ∧ w'.next = w.next ∧ w'.log = w.log := by
  have := move_assign_spec ops 0 ds ss w hl
  rw [h] at this
  cases r
  · exact ⟨this.2.1, this.2.2.1, this.2.2.2.1, this.2.2.2.2⟩
  · obtain ⟨_, _, _, _, _, _, _, _, _, _, _, _, _, _, _, _, _, _, h1, h2, h3, h4⟩ := this
    exact ⟨h1, h2, h3, h4⟩

/-- **C100.** `std::swap` of two tuples keeps the objects of both; it makes a temporary tuple, whose objects are destroyed again in
every case. -/
theorem swap_objects (ops : Ops σ V A) {a b : List (Cell V)} (hl : a.length = b.length) (w : W σ) :
    ids (swapAll ops a b w).2.1 = ids a ∧ ids (swapAll ops a b w).2.2.1 = ids b ∧
    ∃ k ≤ a.length, (swapAll ops a b w).2.2.2.next = w.next + k ∧
      (swapAll ops a b w).2.2.2.log = w.log ++ (List.range' w.next k).map .made ++ (List.range' w.next k).reverse.map .gone := by
  unfold swapAll
  have h1 := move_spec ops 0 a w
  revert h1
  rcases moveAll ops 0 a w with ⟨_ | t, a1, w1⟩
  · rintro ⟨pre, c, post, new, left, l, u1, u2, e1, _, _, _, e2, _, e3, e4⟩
    exact ⟨e2, rfl, pre.length, by rw [e1]; simp, e3, e4⟩
  · rintro ⟨_, e2, e3, e4, e5⟩
    have la : a1.length = b.length := by rw [← ids_length, e2, ids_length, hl]
    rcases hm : moveAssignAll ops 0 a1 b w1 with ⟨_ | _, a2, b2, w2⟩
    · obtain ⟨f1, f2, f3, f4⟩ := moveAssign_ids ops la hm
      have lb : b2.length = t.length := by
        rw [← ids_length b2, f2, ids_length, ← ids_length t, e3]; simp [hl]
      rcases hm2 : moveAssignAll ops 0 b2 t w2 with ⟨r, b3, t3, w3⟩
      obtain ⟨g1, g2, g3, g4⟩ := moveAssign_ids ops lb hm2
      simp only [hm, hm2, destroy_spec]
      refine ⟨f1.trans e2, g1.trans f2, a.length, Nat.le_refl _, by rw [g3, f3, e4], ?_⟩
      rw [g4, f4, e5, g2, e3]
    · obtain ⟨f1, f2, f3, f4⟩ := moveAssign_ids ops la hm
      simp only [hm, destroy_spec]
      refine ⟨f1.trans e2, f2, a.length, Nat.le_refl _, by rw [f3, e4], ?_⟩
      rw [f4, e5, e3]

example (ops : Ops σ Nat A) (w : W σ) : ids (swapAll ops [⟨0, 1⟩, ⟨1, 2⟩] [⟨2, 3⟩, ⟨3, 4⟩] w).2.1 = [0, 1] := (swap_objects ops (by rfl) w).1

/-- Only destructors change what `obs` shows; each adds the position it is called for. -/
structure Notes (ops : Ops σ V A) (obs : σ → List Nat) : Prop where
  destroy : ∀ k v u, obs (ops.destroy k v u) = obs u ++ [k]
  move : ∀ k v u, obs (ops.move k v u).2.2 = obs u
  assign : ∀ k v v' u, obs (ops.moveAssign k v v' u).2.2.2 = obs u

theorem destroyAll_notes {ops : Ops σ V A} {obs : σ → List Nat} (n : Notes ops obs) : ∀ (cs : List (Cell V)) (k : Nat) (w : W σ),
    obs (destroyAll ops k cs w).user = obs w.user ++ (List.range' k cs.length).reverse
  | [], k, w => by simp [destroyAll]
  | c :: cs, k, w => by
    simp only [destroyAll, n.destroy, destroyAll_notes n cs (k + 1) w, List.length_cons, List.range'_succ, List.reverse_cons,
      List.append_assoc]

theorem moveAll_notes {ops : Ops σ V A} {obs : σ → List Nat} (n : Notes ops obs) : ∀ (cs : List (Cell V)) (k : Nat) (w : W σ),
    match moveAll ops k cs w with
    | (some t, _, w') => obs w'.user = obs w.user ∧ t.length = cs.length ∧ w'.next = w.next + cs.length
    | (none, _, w') => ∃ j, w'.next = w.next + j ∧ obs w'.user = obs w.user ++ (List.range' k j).reverse
  | [], k, w => by simp [moveAll]
  | c :: cs, k, w => by
    have hm := n.move k c.val w.user
    unfold moveAll
    rcases hx : ops.move k c.val w.user with ⟨_ | v, l, u⟩
    · rw [hx] at hm
      exact ⟨0, by simp, by simpa using hm⟩
    · rw [hx] at hm
      have ih := moveAll_notes n cs (k + 1) ⟨u, w.next + 1, w.log ++ [.made w.next]⟩
      simp only at hm
      rcases hy : moveAll ops (k + 1) cs ⟨u, w.next + 1, w.log ++ [.made w.next]⟩ with ⟨_ | ds, cs', w'⟩
      · rw [hy] at ih
        obtain ⟨j, h1, h2⟩ := ih
        simp only at h1 h2
        simp only [hy]
        refine ⟨j + 1, by simp only [h1]; omega, ?_⟩
        simp only [n.destroy, h2, hm, List.range'_succ, List.reverse_cons, List.append_assoc]
      · rw [hy] at ih
        obtain ⟨h1, h2, h3⟩ := ih
        simp only at h1 h3
        simp only [hy]
        exact ⟨by simp only [h1, hm], by simp [h2], by simp only [h3, List.length_cons]; omega⟩

theorem moveAssign_notes {ops : Ops σ V A} {obs : σ → List Nat} (n : Notes ops obs) : ∀ (ds ss : List (Cell V)) (k : Nat) (w : W σ),
    obs (moveAssignAll ops k ds ss w).2.2.2.user = obs w.user
  | [], ss, k, w => by simp [moveAssignAll]
  | d :: ds, [], k, w => by simp [moveAssignAll]
  | d :: ds, s :: ss, k, w => by
    have hm := n.assign k d.val s.val w.user
    unfold moveAssignAll
    rcases hx : ops.moveAssign k d.val s.val w.user with ⟨_ | _, v, l, u⟩
    · rw [hx] at hm
      simp only at hm ⊢
      rw [moveAssign_notes n ds ss (k + 1)]
      exact hm
    · rw [hx] at hm; exact hm

/-- **C100.** The destructors that `std::swap` calls are those of the element types in their positions, each once for every
element of the temporary, last one first. -/
theorem swap_destroys {ops : Ops σ V A} {obs : σ → List Nat} (n : Notes ops obs) {a b : List (Cell V)} (hl : a.length = b.length)
    (w : W σ) : ∃ k, (swapAll ops a b w).2.2.2.next = w.next + k ∧
      obs (swapAll ops a b w).2.2.2.user = obs w.user ++ (List.range k).reverse := by
  unfold swapAll
  have h1 := moveAll_notes n a 0 w
  have h0 := move_spec ops 0 a w
  revert h0 h1
  rcases moveAll ops 0 a w with ⟨_ | t, a1, w1⟩
  · rintro ⟨j, e1, e2⟩ _
    exact ⟨j, e1, by rw [List.range_eq_range']; exact e2⟩
  · rintro ⟨h1, h2, h3⟩ ⟨_, e2, e3, _, _⟩
    have la : a1.length = b.length := by rw [← ids_length, e2, ids_length, hl]
    have q1 := moveAssign_notes n a1 b 0 w1
    rcases hm : moveAssignAll ops 0 a1 b w1 with ⟨_ | _, a2, b2, w2⟩
    · rw [hm] at q1
      obtain ⟨f1, f2, f3, f4⟩ := moveAssign_ids ops la hm
      have lb : b2.length = t.length := by
        rw [← ids_length b2, f2, ids_length, h2, hl]
      have q2 := moveAssign_notes n b2 t 0 w2
      rcases hm2 : moveAssignAll ops 0 b2 t w2 with ⟨r, b3, t3, w3⟩
      rw [hm2] at q2
      obtain ⟨g1, g2, g3, g4⟩ := moveAssign_ids ops lb hm2
      have lt : t3.length = a.length := by rw [← ids_length, g2, ids_length, h2]
      simp only at q1 q2
      simp only [hm, hm2]
      exact ⟨a.length, by simp only [destroy_spec]; rw [g3, f3, h3],
        by rw [destroyAll_notes n, q2, q1, h1, lt, List.range_eq_range']⟩
    · rw [hm] at q1
      obtain ⟨f1, f2, f3, f4⟩ := moveAssign_ids ops la hm
      simp only at q1
      simp only [hm]
      exact ⟨a.length, by simp only [destroy_spec]; rw [f3, h3],
        by rw [destroyAll_notes n, q1, h1, h2, List.range_eq_range']⟩

/-- Elements that note their destruction, and whose assignment throws at position 1. -/
example : ∃ ops : Ops (List Nat) Nat Unit, Notes ops id ∧ (swapAll ops [⟨0, 1⟩, ⟨1, 2⟩] [⟨2, 3⟩, ⟨3, 4⟩] ⟨[], 4, []⟩).1 = true ∧
    (swapAll ops [⟨0, 1⟩, ⟨1, 2⟩] [⟨2, 3⟩, ⟨3, 4⟩] ⟨[], 4, []⟩).2.2.2.user = [1, 0] :=
  ⟨{ dflt := fun _ u => (some 0, u), make := fun _ _ u => (some 0, u), makeAll := fun _ _ u => (some 0, u),
     copy := fun _ v u => (some v, u), move := fun _ v u => (some v, v, u), copyAssign := fun _ _ v u => (false, v, u),
     moveAssign := fun k _ v u => (k == 1, v, v, u), selfCopy := fun _ v u => (false, v, u), selfMove := fun _ v u => (false, v, u),
     destroy := fun k _ u => u ++ [k] }, ⟨fun _ _ _ => rfl, fun _ _ _ => rfl, fun _ _ _ _ => rfl⟩, by decide, by decide⟩

theorem dfltSteps_eq (ops : Ops σ V A) : ∀ n k, dfltSteps ops k n = (List.range' k n).map ops.dflt
  | 0, k => rfl
  | n + 1, k => by simp only [dfltSteps, range'_cons, List.map_cons, dfltSteps_eq ops n (k + 1)]

theorem uniformSteps_eq (ops : Ops σ V A) (args : List A) : ∀ n k, uniformSteps ops args k n = (List.range' k n).map fun i => ops.makeAll i args
  | 0, k => rfl
  | n + 1, k => by simp only [uniformSteps, range'_cons, List.map_cons, uniformSteps_eq ops args n (k + 1)]

theorem makeSteps_eq (ops : Ops σ V A) : ∀ (args : List A) k, makeSteps ops k args = (args.zipIdx k).map fun p => ops.make p.2 p.1
  | [], k => rfl
  | a :: as, k => by simp only [makeSteps, List.zipIdx_cons, List.map_cons, makeSteps_eq ops as (k + 1)]

theorem copySteps_eq (ops : Ops σ V A) : ∀ (cs : List (Cell V)) k, copySteps ops k cs = ((vals cs).zipIdx k).map fun p => ops.copy p.2 p.1
  | [], k => rfl
  | c :: cs, k => by
    have := copySteps_eq ops cs (k + 1)
    simp only [vals] at this
    simp only [copySteps, vals, List.zipIdx_cons, List.map_cons, this]

theorem Inv.step {ops : Ops σ V A} {n : Nat} {s s' : St σ V} (h : Inv n s) {o : Op A} (hs : step ops n s o = some s') : Inv n s' := by
  cases o with
  | dflt x =>
    simp only [TupleLife.step] at hs
    split at hs
    · cases hs
    · rename_i hc
      obtain rfl := Option.some.inj hs
      exact h.construct (Option.not_isSome_iff_eq_none.1 hc) (by simp [dfltSteps_eq])
  | individual x args =>
    simp only [TupleLife.step] at hs
    split at hs
    · cases hs
    · rename_i hc
      obtain rfl := Option.some.inj hs
      simp only [not_or, Option.not_isSome_iff_eq_none, ne_eq, Classical.not_not] at hc
      exact h.construct hc.1 (by simp [makeSteps_eq, hc.2])
  | uniform x args =>
    simp only [TupleLife.step] at hs
    split at hs
    · cases hs
    · rename_i hc
      obtain rfl := Option.some.inj hs
      exact h.construct (Option.not_isSome_iff_eq_none.1 hc) (by simp [uniformSteps_eq])
  | copy x y =>
    simp only [TupleLife.step] at hs
    cases hx : s.tuples x with
    | some _ => simp [hx] at hs
    | none =>
      cases hy : s.tuples y with
      | none => simp [hx, hy] at hs
      | some src =>
        simp only [hx, hy] at hs
        obtain rfl := Option.some.inj hs
        exact h.construct hx (by simp [copySteps_eq, vals, h.len y src hy])
  | move x y =>
    simp only [TupleLife.step] at hs
    cases hx : s.tuples x with
    | some _ => simp [hx] at hs
    | none =>
      cases hy : s.tuples y with
      | none => simp [hx, hy] at hs
      | some src =>
        have hxy : y ≠ x := fun e => by subst e; rw [hx] at hy; cases hy
        simp only [hx, hy] at hs
        have hm := move_spec ops 0 src s.w
        revert hs hm
        rcases moveAll ops 0 src s.w with ⟨_ | cs, src', w'⟩
        · intro hs
          obtain rfl := Option.some.inj hs
          rintro ⟨pre, c, post, new, left, l, u1, u2, _, _, _, _, e2, _, e3, e4⟩
          exact h.same (same_upd hy e2) (h.ledger.none e3 e4)
        · intro hs
          obtain rfl := Option.some.inj hs
          rintro ⟨_, e2, e3, e4, e5⟩
          rw [h.len y src hy] at e3 e4 e5
          have h1 : Inv n (⟨upd s.tuples y (some src'), s.w⟩ : St σ V) := h.same (same_upd hy e2) h.ledger
          exact h1.add ((upd_other (Ne.symm hxy)).trans hx) e3 e4 e5
  | copyAssign x y =>
    simp only [TupleLife.step] at hs
    split at hs
    · obtain ⟨cs, hx, rfl⟩ := Option.map_eq_some_iff.1 hs
      obtain ⟨h1, h2, h3⟩ := self_ids ops.selfCopy cs s.w
      exact h.same (same_upd hx h1) (h.ledger.user h2 h3)
    cases hx : s.tuples x with
    | none => simp [hx] at hs
    | some dst =>
      cases hy : s.tuples y with
      | none => simp [hx, hy] at hs
      | some src =>
        simp only [hx, hy] at hs
        obtain rfl := Option.some.inj hs
        have := copy_assign_spec ops 0 dst src s.w (by rw [h.len x dst hx, h.len y src hy])
        revert this
        rcases copyAssignAll ops 0 dst src s.w with ⟨_ | _, ds', w'⟩
        · rintro ⟨_, h2, h3, h4⟩
          exact h.same (same_upd hx h2) (h.ledger.user h3 h4)
        · rintro ⟨_, _, _, _, _, _, _, _, _, _, _, _, _, _, _, h2, h3, h4⟩
          exact h.same (same_upd hx h2) (h.ledger.user h3 h4)
  | moveAssign x y =>
    simp only [TupleLife.step] at hs
    split at hs
    · obtain ⟨cs, hx, rfl⟩ := Option.map_eq_some_iff.1 hs
      obtain ⟨h1, h2, h3⟩ := self_ids ops.selfMove cs s.w
      exact h.same (same_upd hx h1) (h.ledger.user h2 h3)
    cases hx : s.tuples x with
    | none => simp [hx] at hs
    | some dst =>
      cases hy : s.tuples y with
      | none => simp [hx, hy] at hs
      | some src =>
        simp only [hx, hy] at hs
        obtain rfl := Option.some.inj hs
        rcases hm : moveAssignAll ops 0 dst src s.w with ⟨r, ds', ss', w'⟩
        obtain ⟨h1, h2, h3, h4⟩ := moveAssign_ids ops (by rw [h.len x dst hx, h.len y src hy]) hm
        exact h.same (same_upd2 hx hy h1 h2) (h.ledger.user h3 h4)
  | swap x y =>
    simp only [TupleLife.step] at hs
    split at hs
    · cases hs
    cases hx : s.tuples x with
    | none => simp [hx] at hs
    | some a =>
      cases hy : s.tuples y with
      | none => simp [hx, hy] at hs
      | some b =>
        simp only [hx, hy] at hs
        obtain rfl := Option.some.inj hs
        obtain ⟨h1, h2, k, _, h3, h4⟩ := swap_objects ops (a := a) (b := b) (by rw [h.len x a hx, h.len y b hy]) s.w
        exact h.same (same_upd2 hx hy h1 h2) (h.ledger.none h3 h4)
  | destroy x =>
    simp only [TupleLife.step] at hs
    cases hx : s.tuples x with
    | none => simp [hx] at hs
    | some cs =>
      simp only [hx] at hs
      obtain rfl := Option.some.inj hs
      have keep : ∀ y ds, upd s.tuples x none y = some ds → y ≠ x ∧ s.tuples y = some ds := fun y ds hy => by
        by_cases e : y = x
        · subst e; rw [upd_same] at hy; cases hy
        · rw [upd_other e] at hy; exact ⟨e, hy⟩
      refine ⟨fun y ds hy => h.len y ds (keep y ds hy).2, fun y ds hy => h.nodup y ds (keep y ds hy).2,
        fun y z ds es hyz hy hz => h.disj y z ds es hyz (keep y ds hy).2 (keep z es hz).2, ?_⟩
      simp only [destroy_spec]
      refine (h.ledger.drop (w' := ⟨unwind ops 0 (vals cs) s.w.user, s.w.next, s.w.log ++ (ids cs).reverse.map .gone⟩) (l := (ids cs).reverse) (by exact nodup_reverse' <| h.nodup x cs hx)
        (fun i hi => ⟨x, cs, hx, by simpa using hi⟩) rfl rfl).congr fun i => ?_
      constructor
      · rintro ⟨⟨y, ds, hy, hi⟩, hn⟩
        have : y ≠ x := fun e => by
          subst e
          rw [hx] at hy
          obtain rfl := Option.some.inj hy
          exact hn (by simpa using hi)
        exact ⟨y, ds, by rw [upd_other this]; exact hy, hi⟩
      · rintro ⟨y, ds, hy, hi⟩
        obtain ⟨h1, h2⟩ := keep y ds hy
        exact ⟨⟨y, ds, h2, hi⟩, fun hc => h.disj y x ds cs h1 h2 hx i hi (by simpa using hc)⟩

theorem inv_start (n : Nat) (u : σ) : Inv n (start u : St σ V) := by
  refine ⟨fun x cs h => ?_, fun x cs h => ?_, fun x y cs ds _ h => ?_, ⟨fun i => by simp [start], fun i h => ?_, fun i h => ?_, fun i _ => by simp [start], fun pre h i hg => ?_⟩⟩
  · cases h
  · cases h
  · cases h
  · obtain ⟨x, cs, h, _⟩ := h; cases h
  · exact absurd h (Nat.not_lt_zero i)
  · simp only [start, List.prefix_nil] at h; subst h; cases hg

theorem inv_run {ops : Ops σ V A} {n : Nat} : ∀ {os : List (Op A)} {s s' : St σ V}, Inv n s → run ops n s os = some s' → Inv n s'
  | [], s, s', h, hr => by obtain rfl := Option.some.inj hr; exact h
  | o :: os, s, s', h, hr => by
    simp only [run, Option.bind_eq_some_iff] at hr
    obtain ⟨s1, h1, h2⟩ := hr
    exact inv_run (h.step h1) h2

/-- **C100.** In every program, whatever throws: each element object is made once and destroyed at most once; it belongs to exactly one
tuple, at one position, until it is destroyed, and every object of a tuple is alive; a tuple always has all its elements. -/
theorem history (ops : Ops σ V A) (n : Nat) (u : σ) {os : List (Op A)} {s : St σ V} (h : run ops n (start u) os = some s) :
    (∀ i, s.w.log.count (.made i) ≤ 1) ∧
    (∀ i, s.w.log.count (.gone i) = 0 ∨ s.w.log.count (.gone i) = 1 ∧ s.w.log.count (.made i) = 1) ∧
    (∀ i, (s.w.log.count (.made i) = 1 ∧ s.w.log.count (.gone i) = 0) ↔ ∃ x cs, s.tuples x = some cs ∧ i ∈ ids cs) ∧
    (∀ x cs, s.tuples x = some cs → cs.length = n ∧ (ids cs).Nodup) ∧
    (∀ x y cs ds i, s.tuples x = some cs → s.tuples y = some ds → i ∈ ids cs → i ∈ ids ds → x = y) := by
  have hi := inv_run (inv_start n u) h
  have l := hi.ledger
  refine ⟨fun i => by rw [l.made i]; split <;> omega, fun i => ?_, fun i => ?_, fun x cs hx => ⟨hi.len x cs hx, hi.nodup x cs hx⟩, ?_⟩
  · by_cases h1 : i < s.w.next
    · by_cases h2 : Live s.tuples i
      · exact .inl (l.live i h2).2
      · exact .inr ⟨l.dead i h1 h2, by rw [l.made i, if_pos h1]⟩
    · exact .inl (l.future i (by omega))
  · constructor
    · rintro ⟨h1, h2⟩
      rw [l.made i] at h1
      have h3 : i < s.w.next := by
        apply Classical.byContradiction
        intro hc
        rw [if_neg hc] at h1
        cases h1
      apply Classical.byContradiction
      intro hc
      have := l.dead i h3 hc
      omega
    · intro h1
      have := l.live i h1
      exact ⟨by rw [l.made i, if_pos this.1], this.2⟩
  · intro x y cs ds i hx hy h1 h2
    apply Classical.byContradiction
    intro hc
    exact hi.disj x y cs ds hc hx hy i h1 h2

/-- **C100.** When no tuple is left, every element object ever made has been destroyed exactly once: nothing leaks, also if operations
threw. -/
theorem no_leak (ops : Ops σ V A) (n : Nat) (u : σ) {os : List (Op A)} {s : St σ V} (h : run ops n (start u) os = some s)
    (hn : ∀ x, s.tuples x = none) (i : Nat) : s.w.log.count (.gone i) = s.w.log.count (.made i) := by
  have l := (inv_run (inv_start n u) h).ledger
  have hl : ¬ Live s.tuples i := by rintro ⟨x, cs, hx, _⟩; rw [hn x] at hx; cases hx
  rw [l.made i]
  by_cases h1 : i < s.w.next
  · rw [if_pos h1]; exact l.dead i h1 hl
  · rw [if_neg h1]; exact l.future i (by omega)

/-- **C100.** An object is made before it is destroyed: whenever it has been destroyed, it was made. -/
theorem made_first (ops : Ops σ V A) (n : Nat) (u : σ) {os : List (Op A)} {s : St σ V} (h : run ops n (start u) os = some s)
    {pre : List Ev} (hp : pre <+: s.w.log) (i : Nat) (hg : Ev.gone i ∈ pre) : Ev.made i ∈ pre :=
  (inv_run (inv_start n u) h).ledger.first pre hp i hg

example (ops : Ops σ V A) (n : Nat) (u : σ) {os : List (Op A)} {s : St σ V} (h : run ops n (start u) os = some s) (i : Nat) (hg : Ev.gone i ∈ s.w.log) : Ev.made i ∈ s.w.log :=
  made_first ops n u h (List.prefix_refl _) i hg

/-! ### Single operations -/

/-- The constructor that an operation calls, and the element constructions it stands for. -/
inductive Constructs (ops : Ops σ V A) (n : Nat) (s : St σ V) : Op A → Nat → List (σ → Option V × σ) → Prop
  | dflt (x) : Constructs ops n s (.dflt x) x ((List.range n).map ops.dflt)
  | individual (x args) : Constructs ops n s (.individual x args) x (args.zipIdx.map fun p => ops.make p.2 p.1)
  | uniform (x args) : Constructs ops n s (.uniform x args) x ((List.range n).map fun i => ops.makeAll i args)
  | copy (x y src) : s.tuples y = some src → Constructs ops n s (.copy x y) x ((vals src).zipIdx.map fun p => ops.copy p.2 p.1)

/-- **C100.** Constructing a tuple: either its elements are the results of the constructions, or there is no tuple, because one of the
constructions threw, and what had been made has been destroyed. Other tuples are as before, also the one copied from. -/
theorem constructor_spec (ops : Ops σ V A) (n : Nat) {s s' : St σ V} {o : Op A} (h : step ops n s o = some s') {x : Nat}
    {steps : List (σ → Option V × σ)} (hc : Constructs ops n s o x steps) :
    s.tuples x = none ∧ (∀ y, y ≠ x → s'.tuples y = s.tuples y) ∧
    ((∃ cs, s'.tuples x = some cs ∧ Made steps s.w.user (vals cs) s'.w.user) ∨
      (s'.tuples x = none ∧ ∃ pre t post vs u1 u2, steps = pre ++ t :: post ∧ Made pre s.w.user vs u1 ∧ t u1 = (none, u2) ∧
        s'.w.user = unwind ops 0 vs u2)) := by
  have key : s.tuples x = none ∧ s' = construct ops x steps s := by
    cases hc with
    | dflt x =>
      simp only [step, dfltSteps_eq, ← List.range_eq_range'] at h
      split at h
      · cases h
      · rename_i hc
        exact ⟨Option.not_isSome_iff_eq_none.1 hc, (Option.some.inj h).symm⟩
    | individual x args =>
      simp only [step, makeSteps_eq] at h
      split at h
      · cases h
      · rename_i hc
        simp only [not_or, Option.not_isSome_iff_eq_none] at hc
        exact ⟨hc.1, (Option.some.inj h).symm⟩
    | uniform x args =>
      simp only [step, uniformSteps_eq, ← List.range_eq_range'] at h
      split at h
      · cases h
      · rename_i hc
        exact ⟨Option.not_isSome_iff_eq_none.1 hc, (Option.some.inj h).symm⟩
    | copy x y src hy =>
      simp only [step, hy] at h
      cases hx : s.tuples x with
      | some _ => simp [hx] at h
      | none => simp only [hx, copySteps_eq] at h; exact ⟨rfl, (Option.some.inj h).symm⟩
  obtain ⟨hx, rfl⟩ := key
  have := build_spec ops 0 steps s.w
  unfold construct
  revert this
  rcases build ops 0 steps s.w with ⟨_ | cs, w'⟩
  · rintro ⟨pre, t, post, vs, u1, u2, h1, h2, h3, h4, _, _⟩
    exact ⟨hx, fun _ _ => rfl, .inr ⟨hx, pre, t, post, vs, u1, u2, h1, h2, h3, h4⟩⟩
  · rintro ⟨h1, _, _, _⟩
    exact ⟨hx, fun y hy => upd_other hy, .inl ⟨cs, upd_same, h1⟩⟩

/-- **C100.** Move construction, as the program sees it. -/
theorem move_step (ops : Ops σ V A) (n : Nat) {s s' : St σ V} {x y : Nat} (h : step ops n s (.move x y) = some s') :
    ∃ src src', s.tuples x = none ∧ s.tuples y = some src ∧ s'.tuples y = some src' ∧ ids src' = ids src ∧
    (∀ z, z ≠ x → z ≠ y → s'.tuples z = s.tuples z) ∧
    ((∃ ds, s'.tuples x = some ds ∧ Moved ops 0 (vals src) s.w.user (vals ds) (vals src') s'.w.user) ∨
      (s'.tuples x = none ∧ ∃ pre c post new left l u1 u2, vals src = pre ++ c :: post ∧ Moved ops 0 pre s.w.user new left u1 ∧
        ops.move pre.length c u1 = (none, l, u2) ∧ vals src' = left ++ l :: post ∧ s'.w.user = unwind ops 0 new u2)) := by
  simp only [step] at h
  cases hx : s.tuples x with
  | some _ => simp [hx] at h
  | none =>
    cases hy : s.tuples y with
    | none => simp [hx, hy] at h
    | some src =>
      have hxy : y ≠ x := fun e => by subst e; rw [hx] at hy; cases hy
      simp only [hx, hy] at h
      have hm := move_spec ops 0 src s.w
      revert h hm
      rcases moveAll ops 0 src s.w with ⟨_ | cs, src', w'⟩
      · intro h
        obtain rfl := Option.some.inj h
        rintro ⟨pre, c, post, new, left, l, u1, u2, e1, e2, e3, e4, e5, e6, _, _⟩
        refine ⟨src, src', rfl, rfl, upd_same, e5, fun z _ hz => upd_other hz, .inr ⟨(upd_other (Ne.symm hxy)).trans hx, vals pre, c.val, vals post,
          new, left, l, u1, u2, by rw [e1]; simp [vals], e2, ?_, e4, e6⟩⟩
        simpa [vals] using e3
      · intro h
        obtain rfl := Option.some.inj h
        rintro ⟨e1, e2, _, _, _⟩
        exact ⟨src, src', rfl, rfl, (upd_other hxy).trans upd_same, e2, fun z h1 h2 => (upd_other h1).trans (upd_other h2),
          .inl ⟨cs, upd_same, e1⟩⟩

/-- **C100.** Copy assignment, as the program sees it (`n` elements on both sides): no object is made or destroyed, and after an exception
the elements assigned so far keep their new values. -/
theorem copy_assign_step (ops : Ops σ V A) (n : Nat) (u : σ) {os : List (Op A)} {s s' : St σ V} (hr : run ops n (start u) os = some s)
    {x y : Nat} (hxy : x ≠ y) (h : step ops n s (.copyAssign x y) = some s') :
    ∃ dst src dst', s.tuples x = some dst ∧ s.tuples y = some src ∧ s'.tuples x = some dst' ∧ ids dst' = ids dst ∧
    (∀ z, z ≠ x → s'.tuples z = s.tuples z) ∧ s'.w.log = s.w.log ∧
    (Assigned ops 0 (vals dst) (vals src) s.w.user (vals dst') s'.w.user ∨
      ∃ pre d post spre c spost new v u1, vals dst = pre ++ d :: post ∧ vals src = spre ++ c :: spost ∧ pre.length = spre.length ∧
        Assigned ops 0 pre spre s.w.user new u1 ∧ ops.copyAssign pre.length d c u1 = (true, v, s'.w.user) ∧
        vals dst' = new ++ v :: post) := by
  have hi := inv_run (inv_start n u) hr
  simp only [step, if_neg hxy] at h
  cases hx : s.tuples x with
  | none => simp [hx] at h
  | some dst =>
    cases hy : s.tuples y with
    | none => simp [hx, hy] at h
    | some src =>
      simp only [hx, hy] at h
      obtain rfl := Option.some.inj h
      have := copy_assign_spec ops 0 dst src s.w (by rw [hi.len x dst hx, hi.len y src hy])
      revert this
      rcases copyAssignAll ops 0 dst src s.w with ⟨_ | _, ds', w'⟩
      · rintro ⟨h1, h2, h3, h4⟩
        exact ⟨dst, src, ds', rfl, rfl, upd_same, h2, fun z hz => upd_other hz, h4, .inl h1⟩
      · rintro ⟨pre, d, post, spre, c, spost, new, v, u1, e1, e2, e3, e4, e5, e6, e7, _, e9⟩
        refine ⟨dst, src, ds', rfl, rfl, upd_same, e7, fun z hz => upd_other hz, e9, .inr ⟨vals pre, d.val, vals post, vals spre, c.val, vals spost,
          new, v, u1, by rw [e1]; simp [vals], by rw [e2]; simp [vals], by simp [vals, e3], e4, ?_, e6⟩⟩
        simpa [vals] using e5

/-- **C100.** Move assignment, as the program sees it. -/
theorem move_assign_step (ops : Ops σ V A) (n : Nat) (u : σ) {os : List (Op A)} {s s' : St σ V} (hr : run ops n (start u) os = some s)
    {x y : Nat} (hxy : x ≠ y) (h : step ops n s (.moveAssign x y) = some s') :
    ∃ dst src dst' src', s.tuples x = some dst ∧ s.tuples y = some src ∧ s'.tuples x = some dst' ∧ s'.tuples y = some src' ∧
    ids dst' = ids dst ∧ ids src' = ids src ∧ (∀ z, z ≠ x → z ≠ y → s'.tuples z = s.tuples z) ∧ s'.w.log = s.w.log ∧
    (MoveAssigned ops 0 (vals dst) (vals src) s.w.user (vals dst') (vals src') s'.w.user ∨
      ∃ pre d post spre c spost new left v l u1, vals dst = pre ++ d :: post ∧ vals src = spre ++ c :: spost ∧ pre.length = spre.length ∧
        MoveAssigned ops 0 pre spre s.w.user new left u1 ∧ ops.moveAssign pre.length d c u1 = (true, v, l, s'.w.user) ∧
        vals dst' = new ++ v :: post ∧ vals src' = left ++ l :: spost) := by
  have hi := inv_run (inv_start n u) hr
  simp only [step, if_neg hxy] at h
  cases hx : s.tuples x with
  | none => simp [hx] at h
  | some dst =>
    cases hy : s.tuples y with
    | none => simp [hx, hy] at h
    | some src =>
      simp only [hx, hy] at h
      obtain rfl := Option.some.inj h
      have := move_assign_spec ops 0 dst src s.w (by rw [hi.len x dst hx, hi.len y src hy])
      revert this
      rcases moveAssignAll ops 0 dst src s.w with ⟨_ | _, ds', ss', w'⟩
      · rintro ⟨h1, h2, h2', h3, h4⟩
        exact ⟨dst, src, ds', ss', rfl, rfl, upd_same, (upd_other (Ne.symm hxy)).trans upd_same, h2, h2',
          fun z h1 h2 => (upd_other h1).trans (upd_other h2), h4, .inl h1⟩
      · rintro ⟨pre, d, post, spre, c, spost, new, left, v, l, u1, e1, e2, e3, e4, e5, e6, e6', e7, e7', _, e9⟩
        refine ⟨dst, src, ds', ss', rfl, rfl, upd_same, (upd_other (Ne.symm hxy)).trans upd_same, e7, e7',
          fun z h1 h2 => (upd_other h1).trans (upd_other h2), e9, .inr ⟨vals pre, d.val, vals post, vals spre, c.val, vals spost,
          new, left, v, l, u1, by rw [e1]; simp [vals], by rw [e2]; simp [vals], by simp [vals, e3], e4, ?_, e6, e6'⟩⟩
        simpa [vals] using e5

/-- **C100.** `a = a` and `a = std::move(a)`, as the program sees them: each element is assigned to itself with its own operator. -/
theorem self_assign_step (ops : Ops σ V A) (n : Nat) {s s' : St σ V} {x : Nat} {o : Op A} {f : Nat → V → σ → Bool × V × σ}
    (ho : o = .copyAssign x x ∧ f = ops.selfCopy ∨ o = .moveAssign x x ∧ f = ops.selfMove) (h : step ops n s o = some s') :
    ∃ cs cs', s.tuples x = some cs ∧ s'.tuples x = some cs' ∧ ids cs' = ids cs ∧ (∀ z, z ≠ x → s'.tuples z = s.tuples z) ∧ s'.w.log = s.w.log ∧
    (SelfAssigned f 0 (vals cs) s.w.user (vals cs') s'.w.user ∨
      ∃ pre d post new v u1, vals cs = pre ++ d :: post ∧ SelfAssigned f 0 pre s.w.user new u1 ∧ f pre.length d u1 = (true, v, s'.w.user) ∧
        vals cs' = new ++ v :: post) := by
  have h : (s.tuples x).map (fun cs => (⟨upd s.tuples x (some (selfAll f 0 cs s.w).2.1), (selfAll f 0 cs s.w).2.2⟩ : St σ V)) = some s' := by
    rcases ho with ⟨rfl, rfl⟩ | ⟨rfl, rfl⟩ <;> simpa only [step, if_true] using h
  obtain ⟨cs, hx, rfl⟩ := Option.map_eq_some_iff.1 h
  have hs := self_assign_spec f 0 cs s.w
  obtain ⟨h1, h2, h3⟩ := self_ids f cs s.w
  refine ⟨cs, _, hx, upd_same, h1, fun z hz => upd_other hz, h3, ?_⟩
  clear h1 h2 h3
  revert hs
  rcases selfAll f 0 cs s.w with ⟨_ | _, cs', w'⟩
  · exact fun hs => .inl hs.1
  · rintro ⟨pre, d, post, new, v, u1, e1, e4, e5, e6, _, _⟩
    refine .inr ⟨vals pre, d.val, vals post, new, v, u1, by rw [e1]; simp [vals], e4, ?_, e6⟩
    simpa [vals] using e5

/-- **C100.** If moves do not throw and carry the value over, whatever they leave behind, swapping exchanges the values. -/
theorem swap_spec (ops : Ops σ V A) (n : Nat) (u : σ) {os : List (Op A)} {s s' : St σ V} (hr : run ops n (start u) os = some s)
    (hm : ∀ k v u, (ops.move k v u).1 = some v) (ha : ∀ k v c u, (ops.moveAssign k v c u).1 = false ∧ (ops.moveAssign k v c u).2.1 = c)
    {x y : Nat} (h : step ops n s (.swap x y) = some s') :
    ∃ a b a' b', s.tuples x = some a ∧ s.tuples y = some b ∧ s'.tuples x = some a' ∧ s'.tuples y = some b' ∧
      vals a' = vals b ∧ vals b' = vals a ∧ ids a' = ids a ∧ ids b' = ids b ∧ ∀ z, z ≠ x → z ≠ y → s'.tuples z = s.tuples z := by
  have hi := inv_run (inv_start n u) hr
  have moved : ∀ {k vs u new left u'}, Moved ops k vs u new left u' → new = vs := by
    intro k vs u new left u' h
    induction h with
    | nil => rfl
    | @cons k v vs u n l u' new left u'' h1 _ ih =>
      have := hm k v u
      rw [h1] at this
      rw [ih, Option.some.inj this]
  have assigned : ∀ {k vs ss u new left u'}, MoveAssigned ops k vs ss u new left u' → new = ss := by
    intro k vs ss u new left u' h
    induction h with
    | nil => rfl
    | @cons k v vs c ss u n l u' new left u'' h1 _ ih =>
      have := (ha k v c u).2
      rw [h1] at this
      rw [ih, show n = c from this]
  have mv : ∀ cs w, ∃ ds cs' w', moveAll ops 0 cs w = (some ds, cs', w') ∧ vals ds = vals cs ∧ ds.length = cs.length ∧ cs'.length = cs.length := by
    intro cs w
    have := move_spec ops 0 cs w
    rcases hc : moveAll ops 0 cs w with ⟨_ | ds, cs', w'⟩
    · rw [hc] at this
      obtain ⟨pre, c, post, new, left, l, u1, u2, _, _, e, _⟩ := this
      have := hm (0 + pre.length) c.val u1
      rw [e] at this
      cases this
    · rw [hc] at this
      have e := moved this.1
      exact ⟨ds, cs', w', rfl, e, by simpa [vals] using congrArg List.length e, by simpa [ids] using congrArg List.length this.2.1⟩
  have as : ∀ ds ss w, ds.length = ss.length → ∃ ds' ss' w', moveAssignAll ops 0 ds ss w = (false, ds', ss', w') ∧ vals ds' = vals ss ∧
      ss'.length = ss.length := by
    intro ds ss w hl
    have := move_assign_spec ops 0 ds ss w hl
    rcases hc : moveAssignAll ops 0 ds ss w with ⟨_ | _, ds', ss', w'⟩
    · rw [hc] at this
      exact ⟨ds', ss', w', rfl, assigned this.1, by simpa [ids] using congrArg List.length this.2.2.1⟩
    · rw [hc] at this
      obtain ⟨pre, d, post, spre, c, spost, new, left, v, l, u1, _, _, _, _, e, _⟩ := this
      have := (ha (0 + pre.length) d.val c.val u1).1
      rw [e] at this
      cases this
  simp only [step] at h
  split at h
  · cases h
  rename_i hxy
  cases hx : s.tuples x with
  | none => simp [hx] at h
  | some a =>
    cases hy : s.tuples y with
    | none => simp [hx, hy] at h
    | some b =>
      simp only [hx, hy] at h
      obtain rfl := Option.some.inj h
      have hl : a.length = b.length := by rw [hi.len x a hx, hi.len y b hy]
      obtain ⟨o1, o2, _⟩ := swap_objects ops hl s.w
      refine ⟨a, b, _, _, rfl, rfl, upd_same, (upd_other (Ne.symm hxy)).trans upd_same, ?_, ?_, o1, o2, fun z h1 h2 => (upd_other h1).trans (upd_other h2)⟩
      all_goals
        obtain ⟨t, a1, w1, e1, v1, l1, l1'⟩ := mv a s.w
        obtain ⟨a2, b2, w2, e2, v2, l2⟩ := as a1 b w1 (by omega)
        obtain ⟨b3, t3, w3, e3, v3, l3⟩ := as b2 t w2 (by omega)
        simp only [swapAll, e1, e2, e3]
      · exact v2
      · rw [v3, v1]

/-- **C100.** `uniform_construct` never hands an element an argument another one has used up: if making an element depends only on the
position and the arguments, so does the tuple. -/
theorem uniform_values (ops : Ops σ V A) (n : Nat) {s s' : St σ V} {x : Nat} {args : List A} (f : Nat → List A → V)
    (hf : ∀ k u, (ops.makeAll k args u).1 = some (f k args)) (h : step ops n s (.uniform x args) = some s') :
    ∃ cs, s'.tuples x = some cs ∧ vals cs = (List.range n).map fun k => f k args := by
  obtain ⟨_, _, ⟨cs, h1, h2⟩ | ⟨_, pre, t, post, vs, u1, u2, h1, _, h2, _⟩⟩ := constructor_spec ops n h (.uniform x args)
  · refine ⟨cs, h1, ?_⟩
    have : ∀ (l : List Nat) u vs u', Made (l.map fun i => ops.makeAll i args) u vs u' → vs = l.map fun k => f k args := by
      intro l
      induction l with
      | nil => intro u vs u' h; cases h; rfl
      | cons k l ih =>
        intro u vs u' h
        cases h with
        | cons h1 h2 =>
          have := hf k u
          rw [show ops.makeAll k args u = _ from h1] at this
          rw [ih _ _ _ h2, Option.some.inj this]; rfl
    exact this _ _ _ _ h2
  · exfalso
    have : t ∈ (List.range n).map fun i => ops.makeAll i args := by rw [h1]; simp
    obtain ⟨k, _, rfl⟩ := List.mem_map.1 this
    have := hf k u1
    rw [show ops.makeAll k args u1 = _ from h2] at this
    cases this

/-! ### Examples -/

/-- Elements are numbers; the state counts down, and the operation that finds 0 throws and starts the count again at 100. A move leaves 0. -/
def countdown : Ops Nat Nat Nat where
  dflt _ u := if u = 0 then (none, 100) else (some 7, u - 1)
  make _ a u := if u = 0 then (none, 100) else (some a, u - 1)
  makeAll k as u := if u = 0 then (none, 100) else (some (as.sum + k), u - 1)
  copy _ v u := if u = 0 then (none, 100) else (some v, u - 1)
  move _ v u := if u = 0 then (none, v, 100) else (some v, 0, u - 1)
  copyAssign _ d v u := if u = 0 then (true, d, 100) else (false, v, u - 1)
  moveAssign _ d v u := if u = 0 then (true, d, v, 100) else (false, v, 0, u - 1)
  selfCopy _ v u := if u = 0 then (true, v, 100) else (false, v, u - 1)
  selfMove _ _ u := if u = 0 then (true, 0, 100) else (false, 0, u - 1)
  destroy _ _ u := u

/-- The values of a tuple after a program. -/
def valuesAfter (n u : Nat) (os : List (Op Nat)) (x : Nat) : Option (List Nat) :=
  (run countdown n (start u) os).bind fun s => (s.tuples x).map vals

/-- The log of a program. -/
def logAfter (n u : Nat) (os : List (Op Nat)) : Option (List Ev) := (run countdown n (start u) os).map fun s => s.w.log

/-- **C100.** Assignment of tuples gives only the basic guarantee: after an exception the target has elements of both tuples. (A copy made first
and swapped would have kept the old value.) -/
theorem strong_guarantee_refuted :
    ∃ (os : List (Op Nat)) (s s' : St Nat Nat), run countdown 3 (start 7) os = some s ∧ step countdown 3 s (.copyAssign 0 1) = some s' ∧
      (s.tuples 0).map vals = some [1, 2, 3] ∧ (s.tuples 1).map vals = some [4, 5, 6] ∧ (s'.tuples 0).map vals = some [4, 2, 3] := by
  refine ⟨[.individual 0 [1, 2, 3], .individual 1 [4, 5, 6]], _, _, rfl, rfl, rfl, rfl, rfl⟩

/-- **C100.** Move construction that throws does not leave its source as it was: the elements moved from are lost with the new tuple. -/
theorem move_strong_guarantee_refuted :
    ∃ (os : List (Op Nat)) (s s' : St Nat Nat), run countdown 3 (start 5) os = some s ∧ step countdown 3 s (.move 1 0) = some s' ∧
      (s.tuples 0).map vals = some [1, 2, 3] ∧ (s'.tuples 0).map vals = some [0, 0, 3] ∧ s'.tuples 1 = none := by
  refine ⟨[.individual 0 [1, 2, 3]], _, _, rfl, rfl, rfl, rfl, rfl⟩

/-- A constructor throws at the third element: the two made are destroyed, the second one first. -/
example : logAfter 3 2 [.dflt 0] = some [.made 0, .made 1, .gone 1, .gone 0] := rfl
/-- `build_spec`, both cases, and `destroy_spec`. -/
example : valuesAfter 3 9 [.dflt 0] 0 = some [7, 7, 7] ∧ valuesAfter 3 2 [.dflt 0] 0 = none ∧
    logAfter 2 9 [.dflt 0, .destroy 0] = some [.made 0, .made 1, .gone 1, .gone 0] := ⟨rfl, rfl, rfl⟩
/-- `history` and `no_leak` with an exception in between. -/
example : logAfter 2 5 [.individual 0 [1, 2], .copy 1 0, .copy 2 0, .destroy 0, .destroy 1] =
    some [.made 0, .made 1, .made 2, .made 3, .made 4, .gone 4, .gone 1, .gone 0, .gone 3, .gone 2] := rfl
example : ∃ s, run countdown 2 (start 5) [.individual 0 [1, 2], .copy 1 0, .copy 2 0, .destroy 0, .destroy 1] = some s ∧ ∀ x, s.tuples x = none := by
  refine ⟨_, rfl, fun x => ?_⟩
  simp only [upd]
  split
  · rfl
  · split
    · rfl
    · rename_i h1 h2
      simp [construct, build, upd, copySteps, makeSteps, countdown, start, h1, h2]
/-- `constructor_spec`, `uniform_values`. -/
example : Constructs countdown 2 (start 3) (.uniform 0 [4, 5]) 0 [countdown.makeAll 0 [4, 5], countdown.makeAll 1 [4, 5]] := .uniform 0 [4, 5]
example : valuesAfter 3 9 [.uniform 0 [4, 5]] 0 = some [9, 10, 11] := rfl
/-- `move_step`, `copy_assign_step`, `move_assign_step`. -/
example : valuesAfter 2 9 [.individual 0 [1, 2], .move 1 0] 0 = some [0, 0] ∧ valuesAfter 2 9 [.individual 0 [1, 2], .move 1 0] 1 = some [1, 2] := ⟨rfl, rfl⟩
example : valuesAfter 2 9 [.individual 0 [1, 2], .individual 1 [3, 4], .copyAssign 0 1] 0 = some [3, 4] ∧
    valuesAfter 2 9 [.individual 0 [1, 2], .individual 1 [3, 4], .moveAssign 0 1] 1 = some [0, 0] ∧
    valuesAfter 2 5 [.individual 0 [1, 2], .individual 1 [3, 4], .moveAssign 0 1] 1 = some [0, 4] := ⟨rfl, rfl, rfl⟩
/-- `self_assign_step`. -/
example : valuesAfter 2 9 [.individual 0 [1, 2], .copyAssign 0 0] 0 = some [1, 2] ∧ valuesAfter 2 9 [.individual 0 [1, 2], .moveAssign 0 0] 0 = some [0, 0] ∧
    valuesAfter 2 3 [.individual 0 [1, 2], .copyAssign 0 0] 0 = some [1, 2] := ⟨rfl, rfl, rfl⟩
/-- `swap_spec`: elements that never throw meet its hypotheses; a swap that throws half way exchanges nothing whole. -/
example : let o : Ops Unit Nat Nat := {
      dflt := fun _ u => (some 0, u), make := fun _ a u => (some a, u), makeAll := fun _ xs u => (some xs.sum, u),
      copy := fun _ v u => (some v, u), move := fun _ v u => (some v, 0, u), copyAssign := fun _ _ v u => (false, v, u),
      moveAssign := fun _ d v u => (false, v, d, u), selfCopy := fun _ v u => (false, v, u), selfMove := fun _ v u => (false, v, u), destroy := fun _ _ u => u }
    (∀ k v u, (o.move k v u).1 = some v) ∧ (∀ k v c u, (o.moveAssign k v c u).1 = false ∧ (o.moveAssign k v c u).2.1 = c) ∧
    (run o 2 (start ()) [.individual 0 [1, 2], .individual 1 [3, 4], .swap 0 1]).isSome = true := ⟨fun _ _ _ => rfl, fun _ _ _ _ => ⟨rfl, rfl⟩, rfl⟩
example : valuesAfter 2 99 [.individual 0 [1, 2], .individual 1 [3, 4], .swap 0 1] 0 = some [3, 4] ∧
    valuesAfter 2 7 [.individual 0 [1, 2], .individual 1 [3, 4], .swap 0 1] 0 = some [3, 0] ∧
    valuesAfter 2 7 [.individual 0 [1, 2], .individual 1 [3, 4], .swap 0 1] 1 = some [0, 4] := ⟨rfl, rfl, rfl⟩

end Verif.TupleLife
