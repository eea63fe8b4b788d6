import Verif.StaticString.AccessModel
import Verif.StaticString.Props

/-! C73: element access, comparison, output and allocators of `basic_static_string`. -/
namespace Verif.StaticString

/-! ### Element access -/

theorem charPtr_eq {t : Traits} {heap s} (h : Owns t heap s) {i : Nat} (hi : i < s.size) :
    charPtr t.w heap s i = .ok (((cellsOf heap s).drop (i * t.w)).take t.w) := by
  rcases h with ⟨h1, h2⟩ | ⟨p, b, h1, h2, h3, h4, h5, h6⟩
  · omega
  · have : (i + 1) * t.w ≤ s.size * t.w := Nat.mul_le_mul_right _ hi
    simp [charPtr, cellsOf, h1, h2, h6, this]

theorem walk_eq {t : Traits} {heap s} (h : Owns t heap s) : ∀ n p, p + n = s.size →
    ∃ cs, walk t.w heap s p n = .ok cs ∧ cs.length = n ∧ (∀ c ∈ cs, c.length = t.w) ∧
      cs.flatten = (cellsOf heap s).drop (p * t.w)
  | 0, p, hp => by
    refine ⟨[], rfl, rfl, by simp, ?_⟩
    have := (read_owns h).2
    have hp' : p = s.size := by omega
    subst hp'
    rw [List.drop_of_length_le (by omega)]; rfl
  | n + 1, p, hp => by
    obtain ⟨cs, e, hl, hc, hf⟩ := walk_eq h n (p + 1) (by omega)
    have hlen := (read_owns h).2
    have hle : (p + 1) * t.w ≤ s.size * t.w := Nat.mul_le_mul_right _ (by omega)
    refine ⟨((cellsOf heap s).drop (p * t.w)).take t.w :: cs, ?_, by simp [hl], ?_, ?_⟩
    · simp only [walk, charPtr_eq h (show p < s.size by omega), Except.bind, e]
    · intro c hc'
      rcases List.mem_cons.1 hc' with rfl | hc'
      · rw [List.length_take, List.length_drop, hlen]
        rw [Nat.add_mul, Nat.one_mul] at hle; omega
      · exact hc c hc'
    · rw [List.flatten_cons, hf, Nat.add_mul, Nat.one_mul, ← List.drop_drop, List.take_append_drop]

theorem walk_get {t : Traits} {heap s} (h : Owns t heap s) : ∀ n p cs, p + n ≤ s.size → walk t.w heap s p n = .ok cs → ∀ k, k < n →
    ∃ c, cs[k]? = some c ∧ charPtr t.w heap s (p + k) = .ok c
  | 0, _, _, _, _, k, hk => by omega
  | n + 1, p, cs, hp, e, k, hk => by
    have e' := charPtr_eq h (show p < s.size by omega)
    simp only [walk, e', Except.bind] at e
    split at e
    · cases e
    · rename_i cs' e''
      cases e
      cases k with
      | zero => exact ⟨_, rfl, e'⟩
      | succ k =>
        obtain ⟨c, h1, h2⟩ := walk_get h n (p + 1) cs' (by omega) e'' k (by omega)
        exact ⟨c, by simpa using h1, by rw [show p + (k + 1) = p + 1 + k by omega]; exact h2⟩

theorem walk_append {w : Nat} {heap : Nat → Option Buf} {s : Str} : ∀ n p, walk w heap s p (n + 1) =
    (walk w heap s p n).bind fun cs => (charPtr w heap s (p + n)).bind fun c => .ok (cs ++ [c])
  | 0, p => by
    simp only [walk, Except.bind, Nat.add_zero]
    cases charPtr w heap s p <;> rfl
  | n + 1, p => by
    rw [walk, walk_append n (p + 1)]
    conv => rhs; rw [walk]
    rw [show p + 1 + n = p + (n + 1) by omega]
    cases charPtr w heap s p with
    | error e => rfl
    | ok c =>
      simp only [Except.bind]
      cases walk w heap s (p + 1) n with
      | error e => rfl
      | ok cs =>
        simp only
        cases charPtr w heap s (p + (n + 1)) <;> rfl

theorem rwalk_eq {t : Traits} {heap s} (h : Owns t heap s) : ∀ n, n ≤ s.size →
    ∃ cs, walk t.w heap s 0 n = .ok cs ∧ rwalk t.w heap s n = .ok cs.reverse
  | 0, _ => ⟨[], rfl, rfl⟩
  | n + 1, hn => by
    obtain ⟨cs, e, e'⟩ := rwalk_eq h n (by omega)
    have ec := charPtr_eq h (show n < s.size by omega)
    refine ⟨cs ++ [((cellsOf heap s).drop (n * t.w)).take t.w], ?_, ?_⟩
    · rw [walk_append, e, Nat.zero_add]; simp only [Except.bind, ec]
    · simp only [rwalk, ec, Except.bind, e', List.reverse_append, List.reverse_cons, List.reverse_nil, List.nil_append, List.cons_append]

/-- **C73.** In every state reached by a legal history, for characters of any width: iterating over a string visits `size()` characters which
together are its bytes in order; reverse iteration visits them in the opposite order; `s[k]` is the `k`-th of them, and asserts beyond the
end; `front` and `back` are the first and the last one, and assert if the string is empty. -/
theorem access_spec {t : Traits} (hw : 0 < t.w) {ops : List Op} (hl : LegalRun t init ops) :
    ∃ σ, run t init ops = .ok σ ∧ ∀ i s, σ.strs i = some s → ∃ bytes chars,
      view t.w σ i = some (some bytes) ∧ traverse t.w σ.heap s = .ok chars ∧ rtraverse t.w σ.heap s = .ok chars.reverse ∧
      chars.flatten = bytes ∧ chars.length = s.size ∧ (∀ c ∈ chars, c.length = t.w) ∧
      (∀ k, charAt t.w σ.heap s k = match chars[k]? with | some c => .ok c | none => .error .assertion) ∧
      (front t.w σ.heap s = match chars.head? with | some c => .ok c | none => .error .assertion) ∧
      (back t.w σ.heap s = match chars.getLast? with | some c => .ok c | none => .error .assertion) ∧
      (isEmpty s = true ↔ bytes = []) := by
  obtain ⟨σ, st, e, h, _, _⟩ := run_ok hw (inv_init t) (abs_init t) hl
  refine ⟨σ, e, ?_⟩
  intro i s hs
  have ho := h.owns i s hs
  obtain ⟨hr, hlen⟩ := read_owns ho
  obtain ⟨cs, e1, hl1, hc, hf⟩ := walk_eq ho s.size 0 (by omega)
  obtain ⟨cs', e2, e3⟩ := rwalk_eq ho s.size (Nat.le_refl _)
  rw [e1] at e2; cases e2
  have hat : ∀ k, charAt t.w σ.heap s k = match cs[k]? with | some c => .ok c | none => .error .assertion := by
    intro k
    by_cases hk : k < s.size
    · obtain ⟨c, h1, h2⟩ := walk_get ho s.size 0 cs (by omega) e1 k hk
      rw [h1, charAt, if_pos hk]; rw [Nat.zero_add] at h2; exact h2
    · have : cs[k]? = none := by simp; omega
      rw [this, charAt, if_neg hk]
  refine ⟨cellsOf σ.heap s, cs, by simp [view, hs, hr], e1, e3, by simpa using hf, hl1, hc, hat, ?_, ?_, ?_⟩
  · rw [List.head?_eq_getElem?, front, ← hat 0]
    by_cases h0 : 0 < s.size
    · rw [if_pos h0]
    · rw [if_neg h0, charAt, if_neg h0]
  · rw [List.getLast?_eq_getElem?, back, hl1, ← hat]
    by_cases h0 : 0 < s.size
    · rw [if_pos h0]
    · rw [if_neg h0, charAt, if_neg (by omega)]
  · rw [isEmpty, decide_eq_true_iff]
    constructor
    · intro h0; rw [h0, Nat.zero_mul] at hlen; exact List.eq_nil_of_length_eq_zero hlen
    · intro h0; rw [h0] at hlen
      rcases Nat.eq_zero_or_pos s.size with h1 | h1
      · exact h1
      · have := Nat.mul_pos h1 hw; simp at hlen; omega

example : LegalRun ⟨false, true, true, 2⟩ init [.view 0 [97, 0, 98, 0] 0 false, .copy 1 0 false, .move 2 0] := by
  simp [LegalRun, Legal, step, mkView, init, read, memcpyFresh]

/-! ### Comparison -/

/-- All bytes are initialised. -/
def Written (st : Vals) : Prop := ∀ i x, st i = some x → ∃ y : List Nat, x = y.map some

theorem written_upd {st : Vals} (h : Written st) {i : Nat} {x : Option (List Cell)} (hx : ∀ y, x = some y → ∃ z : List Nat, y = z.map some) :
    Written (upd st i x) := by
  intro j y; simp only [upd]; split
  · exact hx y
  · exact h j y

theorem written_step {st st' : Vals} {op : Op} (hs : SpecStep id st op st') (h : Written st) : Written st' := by
  cases hs with
  | skip => exact h
  | empty => exact written_upd h (by rintro _ ⟨⟩; exact ⟨[], rfl⟩)
  | view => exact written_upd h (by rintro _ ⟨⟩; exact ⟨_, rfl⟩)
  | copy hd hi => exact written_upd h (by rintro _ ⟨⟩; exact h _ _ hi)
  | copyAssign hi hj => exact written_upd h (by rintro _ ⟨⟩; exact h _ _ hj)
  | move hd hi => exact written_upd (written_upd h (by rintro _ ⟨⟩; exact h _ _ hi)) (by rintro _ ⟨⟩; exact ⟨[], rfl⟩)
  | moveAssign hi hj => exact written_upd (written_upd h (by rintro _ ⟨⟩; exact h _ _ hj)) (by rintro _ ⟨⟩; exact h _ _ hi)
  | moveAssignCopy hi hj => exact written_upd (written_upd h (by rintro _ ⟨⟩; exact h _ _ hj)) (by rintro _ ⟨⟩; exact h _ _ hj)
  | swap hi hj => exact written_upd (written_upd h (by rintro _ ⟨⟩; exact h _ _ hj)) (by rintro _ ⟨⟩; exact h _ _ hi)
  | @write _ k b _ hi _ =>
    obtain ⟨y, rfl⟩ := h _ _ hi
    exact written_upd h (by rintro _ ⟨⟩; exact ⟨y.set k b, by rw [List.map_set]⟩)
  | destroy => exact written_upd h (by simp)

theorem written_run {ops : List Op} {st st' : Vals} (hs : SpecRun id st ops st') (h : Written st) : Written st' := by
  induction hs with
  | nil => exact h
  | cons h1 _ ih => exact ih (written_step h1 h)

/-- The order of two lists of bytes: that of the first two that differ, a proper prefix first. -/
def bytesOrder (x y : List Nat) (o : Ordering) : Prop :=
  (o = .lt ↔ x < y) ∧ (o = .eq ↔ x = y) ∧ (o = .gt ↔ y < x)

theorem order_eq (x : List Nat) : bytesOrder x x .eq := by
  simp [bytesOrder, List.lt_irrefl]

theorem order_lt {x y : List Nat} (h : x < y) : bytesOrder x y .lt := by
  refine ⟨by simp [h], ?_, ?_⟩
  · simp only [reduceCtorEq, false_iff]; rintro rfl; exact List.lt_irrefl _ h
  · simp only [reduceCtorEq, false_iff]; exact List.lt_asymm h

theorem order_gt {x y : List Nat} (h : y < x) : bytesOrder x y .gt := by
  refine ⟨?_, ?_, by simp [h]⟩
  · simp only [reduceCtorEq, false_iff]; exact List.lt_asymm h
  · simp only [reduceCtorEq, false_iff]; rintro rfl; exact List.lt_irrefl _ h

theorem order_cons {a : Nat} {x y : List Nat} {o : Ordering} (h : bytesOrder x y o) : bytesOrder (a :: x) (a :: y) o := by
  simpa [bytesOrder, List.cons_lt_cons_iff] using h

theorem viewCompare_cons {a : Nat} {x y : List Nat} : viewCompare (some a :: x.map some) (some a :: y.map some) =
    viewCompare (x.map some) (y.map some) := by
  simp [viewCompare, Nat.succ_min_succ, compareN]

theorem viewCompare_spec : ∀ x y : List Nat, ∃ o, viewCompare (x.map some) (y.map some) = .ok o ∧ bytesOrder x y o
  | [], [] => ⟨.eq, rfl, order_eq _⟩
  | [], b :: y => ⟨.lt, by simp [viewCompare, compareN, Except.bind], order_lt (by simp)⟩
  | a :: x, [] => ⟨.gt, by simp [viewCompare, compareN, Except.bind], order_gt (by simp)⟩
  | a :: x, b :: y => by
    by_cases hab : a = b
    · subst hab
      obtain ⟨o, e, h⟩ := viewCompare_spec x y
      exact ⟨o, by simp only [List.map_cons, viewCompare_cons]; exact e, order_cons h⟩
    · by_cases hlt : a < b
      · exact ⟨.lt, by simp [viewCompare, Nat.succ_min_succ, compareN, hab, hlt, Except.bind],
          order_lt (by rw [List.cons_lt_cons_iff]; exact .inl hlt)⟩
      · exact ⟨.gt, by simp [viewCompare, Nat.succ_min_succ, compareN, hab, hlt, Except.bind],
          order_gt (by rw [List.cons_lt_cons_iff]; exact .inl (by omega))⟩

theorem viewEq_spec (x y : List Nat) : viewEq (x.map some) (y.map some) = .ok (decide (x = y)) := by
  obtain ⟨o, e, h⟩ := viewCompare_spec x y
  simp only [viewEq, e, Except.bind]
  by_cases hl : x.length = y.length
  · simp only [List.length_map, hl, ne_eq, not_true_eq_false, if_false]
    congr 1; rw [decide_eq_decide]; exact h.2.1
  · have : x ≠ y := by rintro rfl; exact hl rfl
    simp [hl, this]

/-- **C73, partial.** For one-byte characters, in every state reached by a legal history: every string holds initialised bytes `bytes i`;
`<=>` is their lexicographic order as unsigned numbers and `==` is equality, between two strings and with a view; printing writes exactly
these bytes, padded to the field width. Missing: wider characters, whose contents are wrong (`wide_refuted`). -/
theorem compare_print_partial {t : Traits} (hw : t.w = 1) {ops : List Op} (hl : LegalRun t init ops) :
    ∃ σ, run t init ops = .ok σ ∧ ∃ bytes : Nat → List Nat, ∀ i s, σ.strs i = some s →
      view 1 σ i = some (some ((bytes i).map some)) ∧
      (∀ j o, σ.strs j = some o →
        (∃ r, strCmp σ.heap s o = .ok r ∧ bytesOrder (bytes i) (bytes j) r) ∧
        strEq σ.heap s o = .ok (decide (bytes i = bytes j))) ∧
      (∀ y : List Nat,
        (∃ r, strCmpView σ.heap s y = .ok r ∧ bytesOrder (bytes i) y r) ∧
        strEqView σ.heap s y = .ok (decide (bytes i = y))) ∧
      (∀ os : Stream, ∃ os', insert σ.heap os s = .ok os' ∧ os'.width = 0 ∧ os'.fill = os.fill ∧ os'.left = os.left ∧
        os'.text = os.text ++
          (if os.left then (bytes i).map some ++ List.replicate (os.width - (bytes i).length) (some os.fill)
           else List.replicate (os.width - (bytes i).length) (some os.fill) ++ (bytes i).map some)) := by
  obtain ⟨σ, st, e, hs, hv⟩ := contents_partial hw hl
  have hwr : Written st := written_run hs (by intro i x h; cases h)
  refine ⟨σ, e, fun i => ((st i).getD []).map (Option.getD · 0), ?_⟩
  have hb : ∀ i s, σ.strs i = some s → read 1 σ.heap s = some ((((st i).getD []).map (Option.getD · 0)).map some) := by
    intro i s hi
    have := hv i
    simp only [view, hi, Option.map_some] at this
    cases hst : st i with
    | none => rw [hst] at this; cases this
    | some x =>
      rw [hst] at this
      obtain ⟨y, rfl⟩ := hwr i x hst
      have this := Option.some.inj this
      rw [this]
      simp [Function.comp_def]
  intro i s hi
  refine ⟨by simp only [view, hi, Option.map_some, hb i s hi], ?_, ?_, ?_⟩
  · intro j o hj
    simp only [strCmp, strEq, withView, hb i s hi, hb j o hj]
    exact ⟨viewCompare_spec _ _, viewEq_spec _ _⟩
  · intro y
    simp only [strCmpView, strEqView, withView, hb i s hi]
    exact ⟨viewCompare_spec _ _, viewEq_spec _ _⟩
  · intro os
    refine ⟨insertView os ((((st i).getD []).map (Option.getD · 0)).map some), by simp only [insert, withView, hb i s hi], rfl, rfl, rfl, ?_⟩
    simp only [insertView, List.length_map]

example : ∃ σ, run ⟨false, false, false, 1⟩ init [.view 0 [97, 98] 7 false, .view 1 [97, 200] 8 false] = .ok σ ∧
    ∃ s o, σ.strs 0 = some s ∧ σ.strs 1 = some o ∧ strCmp σ.heap s o = .ok .lt ∧ strEqView σ.heap s [97, 98] = .ok true :=
  ⟨_, rfl, _, _, rfl, rfl, rfl, rfl⟩

/-! ### Allocators -/

/-- **C73.** A copy uses the allocator of its source, whatever `select_on_container_copy_construction` of the allocator says; a move
construction too. -/
theorem copy_alloc {t : Traits} {σ σ' : State} {d i : Nat} {fail : Bool} {o s : Str} (hd : σ.strs d = none) (hi : σ.strs i = some o)
    (h : step t σ (.copy d i fail) = .ok σ' ∨ step t σ (.move d i) = .ok σ') (hs : σ'.strs d = some s) : s.alloc = o.alloc := by
  have hdi : d ≠ i := by rintro rfl; rw [hd] at hi; cases hi
  rcases h with h | h
  · simp only [step, hd, hi] at h
    split at h
    · cases h
    · split at h
      · cases h; rw [hd] at hs; cases hs
      · rename_i hm
        cases h
        simp only [upd, if_true] at hs
        cases hs
        simp only [mkView] at hm
        split at hm
        · cases hm; rfl
        · split at hm
          · cases hm
          · cases hm; rfl
  · simp only [step, hd, hi] at h
    cases h
    simp only [upd, hdi, if_false, if_true] at hs
    cases hs; rfl

/-- **C73.** Copy assignment takes the allocator of the source exactly if the traits say so; move assignment likewise; swap exchanges the
allocators. -/
theorem assign_alloc {t : Traits} {σ σ' : State} {i j : Nat} {fail : Bool} {s o s' : Str} (hij : i ≠ j) (hi : σ.strs i = some s)
    (hj : σ.strs j = some o) (hs : σ'.strs i = some s') :
    (step t σ (.copyAssign i j fail) = .ok σ' → s'.alloc = if t.pocca then o.alloc else s.alloc) ∧
    (step t σ (.moveAssign i j fail) = .ok σ' → s'.alloc = if t.pocma then o.alloc else s.alloc) ∧
    (step t σ (.swap i j) = .ok σ' → s'.alloc = o.alloc) := by
  have hc : ∀ (heap : Nat → Option Buf) n (x y : Str) r, copyAssignFrom t heap n x y fail = .ok r → r.2.2.alloc = x.alloc := by
    intro heap n x y r h
    simp only [copyAssignFrom] at h
    split at h
    · cases h
    · split at h
      · cases h; rfl
      · split at h
        · cases h; rfl
        · split at h
          · cases h
          · cases h; rfl
  refine ⟨?_, ?_, ?_⟩
  · intro h
    simp only [step, hi, hj, hij, if_false, copyAssign] at h
    split at h
    · cases h
    · rename_i x e
      cases h
      simp only [upd, if_true] at hs
      cases hs
      split at e
      · rename_i hp; rw [if_pos hp]; exact hc _ _ _ _ _ e
      · rename_i hp; rw [if_neg hp]; exact hc _ _ _ _ _ e
  · intro h
    simp only [step, hi, hj, hij, if_false, moveAssign] at h
    split at h
    · cases h
    · rename_i x e
      cases h
      simp only [upd, hij, if_false, if_true] at hs
      cases hs
      split at e
      · rename_i hp; cases e; rw [if_pos hp]
      · rename_i hp
        rw [if_neg hp]
        split at e
        · cases e; rfl
        · split at e
          · cases e
          · rename_i e'
            cases e; exact hc _ _ _ _ _ e'
  · intro h
    simp only [step, hi, hj] at h
    cases h
    simp only [upd, hij, if_false, if_true] at hs
    cases hs; rfl

example : ∃ σ σ' s', run ⟨true, false, false, 1⟩ init [.empty 0 7, .view 1 [65] 8 false] = .ok σ ∧
    step ⟨true, false, false, 1⟩ σ (.copyAssign 0 1 false) = .ok σ' ∧ σ'.strs 0 = some s' ∧ s'.alloc = 8 :=
  ⟨_, _, _, rfl, rfl, rfl, rfl⟩

end Verif.StaticString
