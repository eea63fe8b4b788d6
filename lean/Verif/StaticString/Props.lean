import Verif.StaticString.Model

/-! Properties C21 and C22 of `basic_static_string`. -/
namespace Verif.StaticString

/-! ### Specification

Strings as values: no heap, no allocators. `cp` is what copying does to the contents; a correct string has `cp = id`. -/

abbrev Vals := Nat → Option (List Cell)

inductive SpecStep (cp : List Cell → List Cell) : Vals → Op → Vals → Prop
  /-- nothing happens: the operation threw, or names a string that does not exist -/
  | skip {st op} (h : match op with
      | .empty d _ => st d ≠ none
      | .view d _ _ fail => st d ≠ none ∨ fail = true
      | .copy d i fail => st d ≠ none ∨ st i = none ∨ fail = true
      | .copyAssign i j _ => st i = none ∨ st j = none ∨ i = j
      | .move d i => st d ≠ none ∨ st i = none
      | .moveAssign i j _ => st i = none ∨ st j = none
      | .swap i j => st i = none ∨ st j = none
      | .write i _ _ => st i = none
      | .destroy i => st i = none) : SpecStep cp st op st
  | empty {st d a} (h : st d = none) : SpecStep cp st (.empty d a) (upd st d (some []))
  | view {st d src a f} (h : st d = none) : SpecStep cp st (.view d src a f) (upd st d (some (cp (src.map some))))
  | copy {st d i f x} (hd : st d = none) (hi : st i = some x) : SpecStep cp st (.copy d i f) (upd st d (some (cp x)))
  | copyAssign {st i j f x y} (hi : st i = some y) (hj : st j = some x) (hij : i ≠ j) :
      SpecStep cp st (.copyAssign i j f) (upd st i (some (cp x)))
  | move {st d i x} (hd : st d = none) (hi : st i = some x) :
      SpecStep cp st (.move d i) (upd (upd st d (some x)) i (some []))
  /-- the target holds the characters of the source; the source is exchanged -/
  | moveAssign {st i j f x y} (hi : st i = some y) (hj : st j = some x) (hij : i ≠ j) :
      SpecStep cp st (.moveAssign i j f) (upd (upd st i (some x)) j (some y))
  /-- ... or copied from -/
  | moveAssignCopy {st i j f x y} (hi : st i = some y) (hj : st j = some x) (hij : i ≠ j) :
      SpecStep cp st (.moveAssign i j f) (upd (upd st i (some (cp x))) j (some x))
  | swap {st i j x y} (hi : st i = some y) (hj : st j = some x) :
      SpecStep cp st (.swap i j) (upd (upd st i (some x)) j (some y))
  | write {st i k b x} (hi : st i = some x) (hk : k < x.length) :
      SpecStep cp st (.write i k b) (upd st i (some (x.set k (some b))))
  | destroy {st i x} (hi : st i = some x) : SpecStep cp st (.destroy i) (upd st i none)

/-- The histories for which the claims hold: no self move, no write out of bounds, views made of whole characters, all
allocators equal if they are declared to be always equal; and, because of two defects, no allocation failure during an
assignment, and no copy assignment that propagates an unequal allocator to a non-empty string. -/
def Legal (t : Traits) (σ : State) : Op → Prop
  | .empty _ a => t.alwaysEqual = true → a = 0
  | .view _ src a _ => (t.alwaysEqual = true → a = 0) ∧ src.length % t.w = 0
  | .copyAssign i j fail => ∀ s o, σ.strs i = some s → σ.strs j = some o → i ≠ j →
      (fail = true → o.size = 0) ∧ (t.pocca = true → s.size ≠ 0 → s.alloc = o.alloc)
  | .moveAssign i j fail => i ≠ j ∧ ∀ s o, σ.strs i = some s → σ.strs j = some o →
      fail = true → t.pocma = false → t.alwaysEqual = false → s.alloc ≠ o.alloc → o.size = 0
  | .write i k _ => ∀ s, σ.strs i = some s → k < s.size * t.w
  | _ => True

/-- All operations of a history are legal. -/
def LegalRun (t : Traits) : State → List Op → Prop
  | _, [] => True
  | σ, op :: ops => Legal t σ op ∧ ∀ σ', step t σ op = .ok σ' → LegalRun t σ' ops

/-! ### Invariant -/

/-- What a string knows about its buffer. -/
def Owns (t : Traits) (heap : Nat → Option Buf) (s : Str) : Prop :=
  (s.data = none ∧ s.size = 0) ∨
  ∃ p b, s.data = some p ∧ heap p = some b ∧ b.alloc = s.alloc ∧ b.n = s.size ∧ s.size ≠ 0 ∧ b.bytes.length = s.size * t.w

structure InvC (t : Traits) (heap : Nat → Option Buf) (next : Nat) (strs : Nat → Option Str) : Prop where
  owns : ∀ i s, strs i = some s → Owns t heap s
  disj : ∀ i j s o p, strs i = some s → strs j = some o → s.data = some p → o.data = some p → i = j
  fresh : ∀ p, next ≤ p → heap p = none
  noleak : ∀ p b, heap p = some b → ∃ i s, strs i = some s ∧ s.data = some p
  eqal : t.alwaysEqual = true → ∀ i s, strs i = some s → s.alloc = 0

abbrev Inv (t : Traits) (σ : State) : Prop := InvC t σ.heap σ.next σ.strs

theorem upd_self {β : Type} (f : Nat → β) (i : Nat) (x : β) : upd f i x i = x := by simp [upd]

theorem upd_ne {β : Type} (f : Nat → β) {i j : Nat} (x : β) (h : j ≠ i) : upd f i x j = f j := by simp [upd, h]

/-- Contents of a string that owns its buffer. -/
def cellsOf (heap : Nat → Option Buf) (s : Str) : List Cell :=
  match s.data with
  | none => []
  | some p => match heap p with
    | none => []
    | some b => b.bytes

theorem read_owns {t : Traits} {heap s} (h : Owns t heap s) :
    read t.w heap s = some (cellsOf heap s) ∧ (cellsOf heap s).length = s.size * t.w := by
  rcases h with ⟨h1, h2⟩ | ⟨p, b, h1, h2, h3, h4, h5, h6⟩
  · simp [read, cellsOf, h1, h2]
  · have : b.bytes.take (s.size * t.w) = b.bytes := List.take_of_length_le (by omega)
    simp [read, cellsOf, h1, h2, h6, this]

/-- The effect of copying contents: the first `n` bytes of `n` characters survive. -/
def trunc (w : Nat) (x : List Cell) : List Cell := memcpyFresh w (x.length / w) x

theorem trunc_one (x : List Cell) : trunc 1 x = x := by
  simp [trunc, memcpyFresh]

theorem memcpyFresh_length {w n : Nat} {src : List Cell} (hw : 0 < w) (h : src.length = n * w) :
    (memcpyFresh w n src).length = n * w := by
  have : n ≤ n * w := Nat.le_mul_of_pos_right n hw
  simp [memcpyFresh, h]; omega

/-- The abstraction: every string exists in the specification, with exactly its contents. -/
def AbsC (t : Traits) (heap : Nat → Option Buf) (strs : Nat → Option Str) (st : Vals) : Prop :=
  ∀ i, (strs i).map (read t.w heap) = (st i).map some

abbrev Abs (t : Traits) (σ : State) (st : Vals) : Prop := AbsC t σ.heap σ.strs st

/-- Freeing the buffer of a string. -/
theorem free_owned {t : Traits} {σ : State} (h : Inv t σ) {i s p} (hs : σ.strs i = some s) (hp : s.data = some p) :
    free σ.heap s.alloc (some p) s.size = .ok (upd σ.heap p none) := by
  rcases h.owns i s hs with ⟨h1, h2⟩ | ⟨q, b, h1, h2, h3, h4, h5, h6⟩
  · rw [h1] at hp; cases hp
  · rw [h1] at hp; cases hp
    simp [free, h2, h3, h4]

theorem read_congr {w : Nat} {heap heap' : Nat → Option Buf} {s : Str} (h : ∀ p, s.data = some p → heap' p = heap p) :
    read w heap' s = read w heap s := by
  unfold read
  cases hd : s.data with
  | none => rfl
  | some p => simp only []; rw [h p hd]

theorem owns_congr {t : Traits} {heap heap' : Nat → Option Buf} {s : Str} (h : ∀ p, s.data = some p → heap' p = heap p)
    (ho : Owns t heap s) : Owns t heap' s := by
  rcases ho with ho | ⟨p, b, h1, h2, h3⟩
  · exact .inl ho
  · exact .inr ⟨p, b, h1, by rw [h p h1, h2], h3⟩

/-- Free the buffer of a string, if it has one. -/
def freed (heap : Nat → Option Buf) (s : Str) : Nat → Option Buf :=
  match s.data with
  | none => heap
  | some p => upd heap p none

theorem freed_other {t : Traits} {σ : State} (h : Inv t σ) {i j s o} (hs : σ.strs i = some s) (ho : σ.strs j = some o)
    (hij : j ≠ i) : ∀ p, o.data = some p → freed σ.heap s p = σ.heap p := by
  intro p hp
  unfold freed
  cases hd : s.data with
  | none => rfl
  | some q =>
    refine upd_ne _ _ ?_
    rintro rfl
    exact hij (h.disj j i o s _ ho hs hp hd)

theorem abs_some {t : Traits} {σ : State} {st : Vals} (ha : Abs t σ st) {i s} (hs : σ.strs i = some s) :
    ∃ x, st i = some x ∧ read t.w σ.heap s = some x := by
  have := ha i
  simp only [hs, Option.map_some] at this
  cases hx : st i with
  | none => simp [hx] at this
  | some x => exact ⟨x, rfl, by simpa [hx] using this⟩

theorem abs_none {t : Traits} {σ : State} {st : Vals} (ha : Abs t σ st) {i} : st i = none ↔ σ.strs i = none := by
  have := ha i
  cases hx : st i <;> cases hs : σ.strs i <;> simp [hx, hs] at this ⊢

theorem drop_ok {t : Traits} {σ : State} {st : Vals} (h : Inv t σ) (ha : Abs t σ st) {i s} (hs : σ.strs i = some s)
    (r : Option Str) (hr : ∀ s', r = some s' → s'.data = none ∧ s'.size = 0 ∧ (t.alwaysEqual = true → s'.alloc = 0)) :
    InvC t (freed σ.heap s) (σ.next) (upd σ.strs i r) ∧
    AbsC t (freed σ.heap s) (upd σ.strs i r) (upd st i (r.map fun _ => [])) := by
  refine ⟨⟨?_, ?_, ?_, ?_, ?_⟩, ?_⟩
  · intro j o ho
    by_cases hij : j = i
    · subst hij
      rw [upd_self] at ho
      exact .inl ⟨(hr o ho).1, (hr o ho).2.1⟩
    · rw [upd_ne _ _ hij] at ho
      exact owns_congr (freed_other h hs ho hij) (h.owns j o ho)
  · intro j k a b p hj hk hpa hpb
    by_cases hji : j = i
    · subst hji; rw [upd_self] at hj; rw [(hr a hj).1] at hpa; cases hpa
    · by_cases hki : k = i
      · subst hki; rw [upd_self] at hk; rw [(hr b hk).1] at hpb; cases hpb
      · rw [upd_ne _ _ hji] at hj; rw [upd_ne _ _ hki] at hk
        exact h.disj j k a b p hj hk hpa hpb
  · intro p hp
    have := h.fresh p hp
    cases hd : s.data with
    | none => simp only [freed, hd]; exact this
    | some q =>
      simp only [freed, hd, upd]; split
      · rfl
      · exact this
  · intro p b hb
    have hb' : σ.heap p = some b ∧ s.data ≠ some p := by
      cases hd : s.data with
      | none => simp only [freed, hd] at hb; exact ⟨hb, by simp⟩
      | some q =>
        simp only [freed, hd, upd] at hb
        split at hb
        · cases hb
        · rename_i hpq
          exact ⟨hb, by simp; exact fun e => hpq e.symm⟩
    obtain ⟨j, o, hj, hp⟩ := h.noleak p b hb'.1
    refine ⟨j, o, ?_, hp⟩
    rw [upd_ne]
    · exact hj
    · rintro rfl
      rw [hs] at hj; cases hj
      exact hb'.2 hp
  · intro he j o ho
    by_cases hij : j = i
    · subst hij
      rw [upd_self] at ho
      exact (hr o ho).2.2 he
    · rw [upd_ne _ _ hij] at ho
      exact h.eqal he j o ho
  · intro j
    by_cases hij : j = i
    · subst hij
      simp only [upd_self]
      cases r with
      | none => rfl
      | some s' =>
        have := hr s' rfl
        simp [read, this.1, this.2.1]
    · simp only [upd_ne _ _ hij]
      have := ha j
      rw [← this]
      cases ho : σ.strs j with
      | none => rfl
      | some o => simp only [Option.map_some]; rw [read_congr (freed_other h hs ho hij)]

theorem put_ok {t : Traits} {σ : State} {st : Vals} (h : Inv t σ) (ha : Abs t σ st) {i : Nat}
    (hs : ∀ s, σ.strs i = some s → s.data = none) {a n : Nat} {cells : List Cell} (hn : n ≠ 0)
    (hl : cells.length = n * t.w) (hq : t.alwaysEqual = true → a = 0) :
    InvC t (upd σ.heap σ.next (some ⟨a, n, cells⟩)) (σ.next + 1) (upd σ.strs i (some ⟨some σ.next, n, a⟩)) ∧
    AbsC t (upd σ.heap σ.next (some ⟨a, n, cells⟩)) (upd σ.strs i (some ⟨some σ.next, n, a⟩))
      (upd st i (some cells)) := by
  have old : ∀ j o, σ.strs j = some o → ∀ p, o.data = some p →
      p ≠ σ.next ∧ upd σ.heap σ.next (some ⟨a, n, cells⟩) p = σ.heap p := by
    intro j o ho p hp
    have : p ≠ σ.next := by
      rintro rfl
      rcases h.owns j o ho with ⟨h1, _⟩ | ⟨q, b, h1, h2, _⟩
      · rw [h1] at hp; cases hp
      · rw [h1] at hp; cases hp
        rw [h.fresh _ (Nat.le_refl _)] at h2; cases h2
    exact ⟨this, upd_ne _ _ this⟩
  refine ⟨⟨?_, ?_, ?_, ?_, ?_⟩, ?_⟩
  · intro j o ho
    by_cases hij : j = i
    · subst hij
      rw [upd_self] at ho; cases ho
      exact .inr ⟨_, _, rfl, upd_self _ _ _, rfl, rfl, hn, hl⟩
    · rw [upd_ne _ _ hij] at ho
      exact owns_congr (fun p hp => (old j o ho p hp).2) (h.owns j o ho)
  · intro j k x y p hj hk hpx hpy
    by_cases hji : j = i
    · by_cases hki : k = i
      · rw [hji, hki]
      · subst hji
        rw [upd_self] at hj; cases hj; cases hpx
        rw [upd_ne _ _ hki] at hk
        exact absurd rfl (old k y hk _ hpy).1
    · rw [upd_ne _ _ hji] at hj
      by_cases hki : k = i
      · subst hki
        rw [upd_self] at hk; cases hk; cases hpy
        exact absurd rfl (old j x hj _ hpx).1
      · rw [upd_ne _ _ hki] at hk
        exact h.disj j k x y p hj hk hpx hpy
  · intro p hp
    have hp' : σ.next + 1 ≤ p := hp
    show upd σ.heap σ.next _ p = none
    rw [upd_ne _ _ (by omega)]
    exact h.fresh p (by omega)
  · intro p b hb
    by_cases hp : p = σ.next
    · subst hp
      exact ⟨i, _, upd_self _ _ _, rfl⟩
    · simp only [upd_ne _ _ hp] at hb
      obtain ⟨j, o, hj, hpo⟩ := h.noleak p b hb
      refine ⟨j, o, ?_, hpo⟩
      rw [upd_ne]
      · exact hj
      · rintro rfl
        rw [hs o hj] at hpo; cases hpo
  · intro he j o ho
    by_cases hij : j = i
    · subst hij
      rw [upd_self] at ho; cases ho
      exact hq he
    · rw [upd_ne _ _ hij] at ho
      exact h.eqal he j o ho
  · intro j
    by_cases hij : j = i
    · subst hij
      simp only [upd_self, Option.map_some]
      have : cells.take (n * t.w) = cells := List.take_of_length_le (by omega)
      simp [read, upd_self, hl, this]
    · simp only [upd_ne _ _ hij]
      have := ha j
      rw [← this]
      cases ho : σ.strs j with
      | none => rfl
      | some o => simp only [Option.map_some]; rw [read_congr (fun p hp => (old j o ho p hp).2)]

theorem put0_ok {t : Traits} {σ : State} {st : Vals} (h : Inv t σ) (ha : Abs t σ st) {i : Nat} (hs : σ.strs i = none)
    {a : Nat} (hq : t.alwaysEqual = true → a = 0) :
    InvC t σ.heap σ.next (upd σ.strs i (some ⟨none, 0, a⟩)) ∧
    AbsC t σ.heap (upd σ.strs i (some ⟨none, 0, a⟩)) (upd st i (some [])) := by
  refine ⟨⟨?_, ?_, h.fresh, ?_, ?_⟩, ?_⟩
  · intro j o ho
    by_cases hij : j = i
    · subst hij; rw [upd_self] at ho; cases ho; exact .inl ⟨rfl, rfl⟩
    · rw [upd_ne _ _ hij] at ho; exact h.owns j o ho
  · intro j k x y p hj hk hpx hpy
    by_cases hji : j = i
    · subst hji; rw [upd_self] at hj; cases hj; cases hpx
    · by_cases hki : k = i
      · subst hki; rw [upd_self] at hk; cases hk; cases hpy
      · rw [upd_ne _ _ hji] at hj; rw [upd_ne _ _ hki] at hk; exact h.disj j k x y p hj hk hpx hpy
  · intro p b hb
    obtain ⟨j, o, hj, hp⟩ := h.noleak p b hb
    refine ⟨j, o, ?_, hp⟩
    rw [upd_ne]
    · exact hj
    · rintro rfl; rw [hs] at hj; cases hj
  · intro he j o ho
    by_cases hij : j = i
    · subst hij; rw [upd_self] at ho; cases ho; exact hq he
    · rw [upd_ne _ _ hij] at ho; exact h.eqal he j o ho
  · intro j
    by_cases hij : j = i
    · subst hij; simp [upd_self, read]
    · simp only [upd_ne _ _ hij]; exact ha j

/-- Exchanging the buffers of two strings, with any allocators that are still the right ones. -/
theorem swap_ok {t : Traits} {σ : State} {st : Vals} (h : Inv t σ) (ha : Abs t σ st) {i j : Nat} {s o : Str} {x y}
    (hs : σ.strs i = some s) (ho : σ.strs j = some o) (hij : i ≠ j) (hx : st i = some x) (hy : st j = some y)
    (a b : Nat) (hA : a = o.alloc) (hB : b = s.alloc) :
    InvC t σ.heap σ.next (upd (upd σ.strs i (some { o with alloc := a })) j (some { s with alloc := b })) ∧
    AbsC t σ.heap (upd (upd σ.strs i (some { o with alloc := a })) j (some { s with alloc := b }))
      (upd (upd st i (some y)) j (some x)) := by
  subst hA hB
  have hat : ∀ k u, upd (upd σ.strs i (some o)) j (some s) k = some u →
      (k = j ∧ u = s) ∨ (k = i ∧ k ≠ j ∧ u = o) ∨ (k ≠ i ∧ k ≠ j ∧ σ.strs k = some u) := by
    intro k u hk
    by_cases hkj : k = j
    · subst hkj; rw [upd_self] at hk; cases hk; exact .inl ⟨rfl, rfl⟩
    · rw [upd_ne _ _ hkj] at hk
      by_cases hki : k = i
      · subst hki; rw [upd_self] at hk; cases hk; exact .inr (.inl ⟨rfl, hkj, rfl⟩)
      · rw [upd_ne _ _ hki] at hk; exact .inr (.inr ⟨hki, hkj, hk⟩)
  refine ⟨⟨?_, ?_, h.fresh, ?_, ?_⟩, ?_⟩
  · intro k u hk
    rcases hat k u hk with ⟨rfl, rfl⟩ | ⟨rfl, _, rfl⟩ | ⟨_, _, hk⟩
    · exact h.owns i _ hs
    · exact h.owns j _ ho
    · exact h.owns k u hk
  · intro k l u v p hk hl hpu hpv
    rcases hat k u hk with ⟨rfl, rfl⟩ | ⟨rfl, _, rfl⟩ | ⟨hki, hkj, hk⟩ <;>
      rcases hat l v hl with ⟨h1, rfl⟩ | ⟨h1, _, rfl⟩ | ⟨hli, hlj, hl⟩
    · exact h1.symm
    · exact absurd (h.disj _ _ _ _ p hs ho hpu hpv) hij
    · exact absurd (h.disj _ _ _ _ p hl hs hpv hpu) hli
    · exact absurd (h.disj _ _ _ _ p hs ho hpv hpu) hij
    · exact h1.symm
    · exact absurd (h.disj _ _ _ _ p hl ho hpv hpu) hlj
    · exact absurd (h.disj _ _ _ _ p ‹σ.strs k = some u› hs hpu hpv) hki
    · exact absurd (h.disj _ _ _ _ p ‹σ.strs k = some u› ho hpu hpv) hkj
    · exact h.disj k l u v p ‹σ.strs k = some u› hl hpu hpv
  · intro p b hb
    obtain ⟨k, u, hk, hp⟩ := h.noleak p b hb
    by_cases hki : k = i
    · subst hki; rw [hs] at hk; cases hk
      exact ⟨j, _, upd_self _ _ _, hp⟩
    · by_cases hkj : k = j
      · subst hkj; rw [ho] at hk; cases hk
        exact ⟨i, _, by rw [upd_ne _ _ hij, upd_self], hp⟩
      · exact ⟨k, u, by rw [upd_ne _ _ hkj, upd_ne _ _ hki]; exact hk, hp⟩
  · intro he k u hk
    rcases hat k u hk with ⟨rfl, rfl⟩ | ⟨rfl, _, rfl⟩ | ⟨_, _, hk⟩
    · exact h.eqal he i _ hs
    · exact h.eqal he j _ ho
    · exact h.eqal he k u hk
  · intro k
    have hi := ha i
    have hj := ha j
    simp only [hs, ho, hx, hy, Option.map_some] at hi hj
    by_cases hkj : k = j
    · subst hkj; simp only [upd_self, Option.map_some]; exact hi
    · by_cases hki : k = i
      · subst hki; simp only [upd_ne _ _ hkj, upd_self, Option.map_some]; exact hj
      · simp only [upd_ne _ _ hkj, upd_ne _ _ hki]; exact ha k

theorem mkView_ok {t : Traits} (hw : 0 < t.w) {σ : State} {st : Vals} (h : Inv t σ) (ha : Abs t σ st) {d a : Nat}
    {src : List Cell} {fail : Bool} (hd : σ.strs d = none) (hm : src.length % t.w = 0) (hq : t.alwaysEqual = true → a = 0) :
    (∃ h' n s, mkView t σ.heap σ.next src a fail = some (h', n, s) ∧ InvC t (h') (n) (upd σ.strs d (some s)) ∧
      AbsC t (h') (upd σ.strs d (some s)) (upd st d (some (trunc t.w src)))) ∨
    (mkView t σ.heap σ.next src a fail = none ∧ fail = true) := by
  have hlen : src.length = src.length / t.w * t.w := by
    have := Nat.div_add_mod src.length t.w
    rw [hm, Nat.mul_comm] at this; omega
  by_cases hn : src.length / t.w = 0
  · have : src = [] := by
      rw [hn] at hlen; simp at hlen; exact hlen
    subst this
    refine .inl ⟨_, _, _, by simp only [mkView, hn, if_true]; rfl, ?_⟩
    have e : trunc t.w [] = [] := by simp [trunc, memcpyFresh]
    rw [e]
    exact put0_ok h ha hd hq
  · by_cases hf : fail = true
    · exact .inr ⟨by simp [mkView, hn, hf], hf⟩
    · refine .inl ⟨_, _, _, by simp only [mkView, hn, hf, if_false]; rfl, ?_⟩
      exact put_ok h ha (by rw [hd]; simp) hn (memcpyFresh_length hw hlen) hq

/-- `copy_assign_from_other` on a string whose buffer belongs to the allocator it has when it is freed. -/
theorem copyAssignFrom_ok {t : Traits} (hw : 0 < t.w) {σ : State} {st : Vals} (h : Inv t σ) (ha : Abs t σ st)
    {i j : Nat} {s o : Str} {x} {fail : Bool} (hs : σ.strs i = some s) (ho : σ.strs j = some o) (hij : i ≠ j)
    (hx : st j = some x) (a : Nat) (hA : s.size ≠ 0 → a = s.alloc) (hq : t.alwaysEqual = true → a = 0)
    (hf : fail = true → o.size = 0) :
    ∃ h' n s', copyAssignFrom t σ.heap σ.next { s with alloc := a } o fail = .ok (h', n, s') ∧
      InvC t (h') (n) (upd σ.strs i (some s')) ∧ AbsC t (h') (upd σ.strs i (some s')) (upd st i (some (trunc t.w x))) := by
  have hfree : (if s.size = 0 then Except.ok σ.heap else free σ.heap a s.data s.size) = .ok (freed σ.heap s) := by
    rcases h.owns i s hs with ⟨h1, h2⟩ | ⟨p, b, h1, h2, h3, h4, h5, h6⟩
    · simp [h2, freed, h1]
    · rw [if_neg h5, hA h5, h1, free_owned h hs h1]; simp [freed, h1]
  have hdrop := drop_ok h ha hs (some ⟨none, 0, a⟩) (by intro s' e; cases e; exact ⟨rfl, rfl, hq⟩)
  have hoj : upd σ.strs i (some (⟨none, 0, a⟩ : Str)) j = some o := by rw [upd_ne _ _ (Ne.symm hij)]; exact ho
  have hown := hdrop.1.owns j o hoj
  have hread := read_owns hown
  have hxo : x = cellsOf (freed σ.heap s) o := by
    have h2 := hdrop.2 j
    rw [hoj, upd_ne _ _ (Ne.symm hij), hx, Option.map_some, hread.1] at h2
    simpa using h2.symm
  simp only [copyAssignFrom, hfree]
  by_cases hos : o.size = 0
  · have : x = [] := by
      rw [hxo]; have := hread.2; rw [hos] at this; simpa using this
    subst this
    simp only [hos, if_true]
    refine ⟨_, _, _, rfl, ?_⟩
    have e : trunc t.w [] = [] := by simp [trunc, memcpyFresh]
    rw [e]
    exact hdrop
  · have hff : fail = false := by cases fail <;> simp_all
    simp only [hos, hff, if_false, hread.1, Bool.false_eq_true]
    refine ⟨_, _, _, rfl, ?_⟩
    have hput := put_ok (σ := ⟨freed σ.heap s, σ.next, upd σ.strs i (some ⟨none, 0, a⟩)⟩) hdrop.1 hdrop.2 (i := i) (a := a) (n := o.size)
      (cells := memcpyFresh t.w o.size (cellsOf (freed σ.heap s) o))
      (by intro s' e; dsimp only at e; rw [upd_self] at e; cases e; rfl) hos (memcpyFresh_length hw hread.2) hq
    have e1 : ∀ {β : Type} (f : Nat → β) (u v : β), upd (upd f i u) i v = upd f i v := by
      intro β f u v; funext k; simp only [upd]; split <;> rfl
    have e2 : trunc t.w x = memcpyFresh t.w o.size (cellsOf (freed σ.heap s) o) := by
      rw [← hxo]
      simp only [trunc]
      rw [hxo, hread.2, Nat.mul_div_cancel _ hw]
    rw [e1, e1] at hput
    rw [e2]
    exact hput

/-- **C21/C22, one step.** A legal operation neither corrupts memory nor fails an assertion, and does to the contents what
the value semantics says. -/
theorem step_ok {t : Traits} (hw : 0 < t.w) {σ : State} {st : Vals} (h : Inv t σ) (ha : Abs t σ st) {op : Op}
    (hl : Legal t σ op) :
    ∃ σ' st', step t σ op = .ok σ' ∧ Inv t σ' ∧ Abs t σ' st' ∧ SpecStep (trunc t.w) st op st' := by
  cases op with
  | empty d a =>
    simp only [step]
    cases hd : σ.strs d with
    | some s => exact ⟨σ, st, rfl, h, ha, .skip (by simp only [ne_eq, abs_none ha, hd]; simp)⟩
    | none =>
      have := put0_ok h ha hd hl
      exact ⟨_, _, rfl, this.1, this.2, .empty ((abs_none ha).2 hd)⟩
  | view d src a fail =>
    simp only [step]
    cases hd : σ.strs d with
    | some s => exact ⟨σ, st, rfl, h, ha, .skip (by simp only [ne_eq, abs_none ha, hd]; simp)⟩
    | none =>
      rcases mkView_ok hw h ha (src := src.map some) (fail := fail) (a := a) hd (by simpa using hl.2) hl.1 with
        ⟨h', n, s, e, h1, h2⟩ | ⟨e, hf⟩
      · simp only [e]; exact ⟨_, _, rfl, h1, h2, .view ((abs_none ha).2 hd)⟩
      · simp only [e]; exact ⟨σ, st, rfl, h, ha, .skip (.inr hf)⟩
  | copy d i fail =>
    simp only [step]
    cases hd : σ.strs d with
    | some s => exact ⟨σ, st, rfl, h, ha, .skip (by simp only [ne_eq, abs_none ha, hd]; simp)⟩
    | none =>
      cases hi : σ.strs i with
      | none => exact ⟨σ, st, rfl, h, ha, .skip (by simp only [ne_eq, abs_none ha, hi]; simp)⟩
      | some o =>
        obtain ⟨x, hx, hr⟩ := abs_some ha hi
        have hro := read_owns (h.owns i o hi)
        have hxo : x = cellsOf σ.heap o := by rw [hr] at hro; simpa using hro.1
        simp only [hr]
        rcases mkView_ok hw h ha (src := x) (fail := fail) (a := o.alloc) hd
          (by rw [hxo, hro.2]; exact Nat.mul_mod_left _ _) (fun he => h.eqal he i o hi) with
          ⟨h', n, s, e, h1, h2⟩ | ⟨e, hf⟩
        · simp only [e]; exact ⟨_, _, rfl, h1, h2, .copy ((abs_none ha).2 hd) hx⟩
        · simp only [e]; exact ⟨σ, st, rfl, h, ha, .skip (.inr (.inr hf))⟩
  | copyAssign i j fail =>
    simp only [step]
    cases hi : σ.strs i with
    | none => exact ⟨σ, st, rfl, h, ha, .skip (by simp only [abs_none ha, hi]; simp)⟩
    | some s =>
      cases hj : σ.strs j with
      | none => exact ⟨σ, st, rfl, h, ha, .skip (by simp only [abs_none ha, hj]; simp)⟩
      | some o =>
        by_cases hij : i = j
        · dsimp only; rw [if_pos hij]; exact ⟨σ, st, rfl, h, ha, .skip (.inr (.inr hij))⟩
        · simp only [hij, if_false]
          obtain ⟨x, hx, _⟩ := abs_some ha hj
          obtain ⟨y, hy, _⟩ := abs_some ha hi
          have hl' := hl s o hi hj hij
          by_cases hp : t.pocca = true
          · obtain ⟨h', n, s', e, h1, h2⟩ := copyAssignFrom_ok hw h ha hi hj hij hx o.alloc
              (fun hsz => (hl'.2 hp hsz).symm) (fun he => h.eqal he j o hj) hl'.1
            simp only [copyAssign, hp, if_true, e]
            exact ⟨_, _, rfl, h1, h2, .copyAssign hy hx hij⟩
          · obtain ⟨h', n, s', e, h1, h2⟩ := copyAssignFrom_ok hw h ha hi hj hij hx s.alloc
              (fun _ => rfl) (fun he => h.eqal he i s hi) hl'.1
            have e' : copyAssign t σ.heap σ.next s o fail = .ok (h', n, s') := by
              simp only [copyAssign, hp, if_false, Bool.false_eq_true]; exact e
            simp only [e']
            exact ⟨_, _, rfl, h1, h2, .copyAssign hy hx hij⟩
  | move d i =>
    simp only [step]
    cases hd : σ.strs d with
    | some s => exact ⟨σ, st, rfl, h, ha, .skip (by simp only [ne_eq, abs_none ha, hd]; simp)⟩
    | none =>
      cases hi : σ.strs i with
      | none => exact ⟨σ, st, rfl, h, ha, .skip (by simp only [ne_eq, abs_none ha, hi]; simp)⟩
      | some o =>
        have hdi : d ≠ i := by rintro rfl; rw [hd] at hi; cases hi
        obtain ⟨x, hx, _⟩ := abs_some ha hi
        have h0 := put0_ok h ha hd (a := o.alloc) (fun he => h.eqal he i o hi)
        have h1 := swap_ok (σ := ⟨σ.heap, σ.next, upd σ.strs d (some ⟨none, 0, o.alloc⟩)⟩) h0.1 h0.2 (i := d) (j := i) (s := ⟨none, 0, o.alloc⟩) (o := o) (x := []) (y := x)
          (upd_self _ _ _) (by simp only []; rw [upd_ne _ _ (Ne.symm hdi)]; exact hi) hdi (upd_self _ _ _)
          (by rw [upd_ne _ _ (Ne.symm hdi)]; exact hx) o.alloc o.alloc rfl rfl
        have e1 : ∀ {β : Type} (f : Nat → β) (u v w : β), upd (upd (upd f d u) d v) i w = upd (upd f d v) i w := by
          intro β f u v w; funext k; simp only [upd]; split
          · rfl
          · split <;> rfl
        simp only [e1] at h1
        exact ⟨_, _, rfl, h1.1, h1.2, .move ((abs_none ha).2 hd) hx⟩
  | moveAssign i j fail =>
    simp only [step]
    cases hi : σ.strs i with
    | none => exact ⟨σ, st, rfl, h, ha, .skip (by simp only [abs_none ha, hi]; simp)⟩
    | some s =>
      cases hj : σ.strs j with
      | none => exact ⟨σ, st, rfl, h, ha, .skip (by simp only [abs_none ha, hj]; simp)⟩
      | some o =>
        obtain ⟨hij, hl'⟩ := hl
        simp only [hij, if_false]
        obtain ⟨x, hx, _⟩ := abs_some ha hj
        obtain ⟨y, hy, _⟩ := abs_some ha hi
        by_cases hp : t.pocma = true
        · simp only [moveAssign, hp, if_true]
          have h1 := swap_ok h ha hi hj hij hy hx _ _ rfl rfl
          exact ⟨_, _, rfl, h1.1, h1.2, .moveAssign hy hx hij⟩
        · by_cases hq : t.alwaysEqual = true ∨ s.alloc = o.alloc
          · simp only [moveAssign, hp, hq, if_true, if_false, Bool.false_eq_true]
            have he : s.alloc = o.alloc := by
              rcases hq with hq | hq
              · rw [h.eqal hq i s hi, h.eqal hq j o hj]
              · exact hq
            have h1 := swap_ok h ha hi hj hij hy hx s.alloc o.alloc he he.symm
            exact ⟨_, _, rfl, h1.1, h1.2, .moveAssign hy hx hij⟩
          · have hq1 : t.alwaysEqual = false := by
              cases h' : t.alwaysEqual with
              | false => rfl
              | true => exact absurd (.inl h') hq
            have hq2 : s.alloc ≠ o.alloc := fun e => hq (.inr e)
            obtain ⟨h', n, s', e, h1, h2⟩ := copyAssignFrom_ok hw h ha hi hj hij hx s.alloc
              (fun _ => rfl) (fun he => h.eqal he i s hi)
              (fun hf => hl' s o hi hj hf (by simpa using hp) hq1 hq2)
            have e' : moveAssign t σ.heap σ.next s o fail = .ok (h', n, s', o) := by
              simp only [moveAssign, hp, hq, if_false, Bool.false_eq_true]
              have e2 : copyAssignFrom t σ.heap σ.next s o fail = .ok (h', n, s') := e
              rw [e2]
            simp only [e']
            have e3 : ∀ {β : Type} (f : Nat → β) (u v : β), f j = v → upd (upd f i u) j v = upd f i u := by
              intro β f u v hv; funext k; simp only [upd]
              by_cases hk : k = j
              · subst hk; simp [Ne.symm hij, hv]
              · simp [hk]
            refine ⟨_, _, rfl, ?_, ?_, .moveAssignCopy hy hx hij⟩
            · rw [e3 _ _ _ hj]; exact h1
            · rw [e3 _ _ _ hj, e3 _ _ _ hx]; exact h2
  | swap i j =>
    simp only [step]
    cases hi : σ.strs i with
    | none => exact ⟨σ, st, rfl, h, ha, .skip (by simp only [abs_none ha, hi]; simp)⟩
    | some s =>
      cases hj : σ.strs j with
      | none => exact ⟨σ, st, rfl, h, ha, .skip (by simp only [abs_none ha, hj]; simp)⟩
      | some o =>
        obtain ⟨x, hx, _⟩ := abs_some ha hj
        obtain ⟨y, hy, _⟩ := abs_some ha hi
        by_cases hij : i = j
        · subst hij
          rw [hi] at hj; cases hj
          rw [hx] at hy; cases hy
          have e : ∀ {β : Type} (f : Nat → β) (u : β), f i = u → upd (upd f i u) i u = f := by
            intro β f u hu; funext k; simp only [upd]; split
            · rename_i hk; rw [hk, hu]
            · rfl
          refine ⟨_, _, rfl, ?_, ?_, .swap hx hx⟩
          · rw [e _ _ hi]; exact h
          · rw [e _ _ hi, e _ _ hx]; exact ha
        · have h1 := swap_ok h ha hi hj hij hy hx _ _ rfl rfl
          exact ⟨_, _, rfl, h1.1, h1.2, .swap hy hx⟩
  | write i k b =>
    simp only [step]
    cases hi : σ.strs i with
    | none => exact ⟨σ, st, rfl, h, ha, .skip (by simp only [abs_none ha, hi])⟩
    | some s =>
      have hk : k < s.size * t.w := hl s hi
      obtain ⟨x, hx, hr⟩ := abs_some ha hi
      rcases h.owns i s hi with ⟨h1, h2⟩ | ⟨p, bf, h1, h2, h3, h4, h5, h6⟩
      · rw [h2] at hk; simp at hk
      · have hcell : cellsOf σ.heap s = bf.bytes := by simp [cellsOf, h1, h2]
        have hro := read_owns (h.owns i s hi)
        have hxb : x = bf.bytes := by rw [hr, hcell] at hro; simpa using hro.1
        simp only [hk, not_true_eq_false, if_false, h1, h2]
        have oth : ∀ j o, σ.strs j = some o → j ≠ i → ∀ q, o.data = some q →
            upd σ.heap p (some { bf with bytes := bf.bytes.set k (some b) }) q = σ.heap q := by
          intro j o hj hji q hq
          refine upd_ne _ _ ?_
          rintro rfl
          exact hji (h.disj j i o s _ hj hi hq h1)
        refine ⟨_, _, rfl, ⟨?_, h.disj, ?_, ?_, h.eqal⟩, ?_, .write hx (by rw [hxb, h6]; exact hk)⟩
        · intro j o hj
          by_cases hji : j = i
          · subst hji
            rw [hi] at hj; cases hj
            exact .inr ⟨p, _, h1, upd_self _ _ _, h3, h4, h5, by simpa using h6⟩
          · exact owns_congr (oth j o hj hji) (h.owns j o hj)
        · intro q hq
          have : q ≠ p := by
            rintro rfl
            rw [h.fresh _ hq] at h2; cases h2
          dsimp only; rw [upd_ne _ _ this]; exact h.fresh q hq
        · intro q b' hb'
          by_cases hqp : q = p
          · subst hqp; exact ⟨i, s, hi, h1⟩
          · simp only [upd_ne _ _ hqp] at hb'
            exact h.noleak q b' hb'
        · intro j
          by_cases hji : j = i
          · subst hji
            simp only [hi, Option.map_some, upd_self]
            have : (bf.bytes.set k (some b)).take (s.size * t.w) = bf.bytes.set k (some b) :=
              List.take_of_length_le (by simp [h6])
            simp [read, h1, upd_self, h6, this, hxb]
          · have hv := ha j
            rw [upd_ne _ _ hji, ← hv]
            cases hj : σ.strs j with
            | none => rfl
            | some o => simp only [Option.map_some]; rw [read_congr (oth j o hj hji)]
  | destroy i =>
    simp only [step]
    cases hi : σ.strs i with
    | none => exact ⟨σ, st, rfl, h, ha, .skip (by simp only [abs_none ha, hi])⟩
    | some s =>
      obtain ⟨x, hx, _⟩ := abs_some ha hi
      have e : destroyStr σ.heap s = .ok (freed σ.heap s) := by
        cases hd : s.data with
        | none => simp [destroyStr, freed, hd]
        | some p => simp only [destroyStr, freed, hd]; exact free_owned h hi hd
      simp only [e]
      have h1 := drop_ok h ha hi none (by simp)
      exact ⟨_, _, rfl, h1.1, h1.2, .destroy hx⟩

/-! ### Histories -/

/-- A history of the value semantics. -/
inductive SpecRun (cp : List Cell → List Cell) : Vals → List Op → Vals → Prop
  | nil {st} : SpecRun cp st [] st
  | cons {st st' st'' op ops} (h : SpecStep cp st op st') (t : SpecRun cp st' ops st'') : SpecRun cp st (op :: ops) st''

theorem run_ok {t : Traits} (hw : 0 < t.w) : ∀ {ops : List Op} {σ : State} {st : Vals}, Inv t σ → Abs t σ st →
    LegalRun t σ ops → ∃ σ' st', run t σ ops = .ok σ' ∧ Inv t σ' ∧ Abs t σ' st' ∧ SpecRun (trunc t.w) st ops st'
  | [], σ, st, h, ha, _ => ⟨σ, st, rfl, h, ha, .nil⟩
  | op :: ops, σ, st, h, ha, hl => by
    obtain ⟨σ1, st1, e, h1, ha1, hs1⟩ := step_ok hw h ha hl.1
    obtain ⟨σ2, st2, e2, h2, ha2, hs2⟩ := run_ok hw h1 ha1 (hl.2 σ1 e)
    exact ⟨σ2, st2, by simp only [run, e]; exact e2, h2, ha2, .cons hs1 hs2⟩

example : (∃ σ', run ⟨false, false, false, 2⟩ init [] = .ok σ') ∧ LegalRun ⟨false, false, false, 2⟩ init [.view 0 [104, 0, 105, 0] 7 false, .copy 1 0 false] :=
  ⟨⟨_, rfl⟩, by simp [LegalRun, Legal, step, mkView, init, read, copyAssign, copyAssignFrom, free, upd, destroyStr, memcpyFresh]⟩

theorem inv_init (t : Traits) : Inv t init :=
  ⟨by simp [init], by simp [init], by simp [init], by simp [init], by simp [init]⟩

theorem abs_init (t : Traits) : Abs t init (fun _ => none) := by intro i; rfl

/-- **C21, partial.** For one-byte characters, over every legal history, every string holds exactly the characters that value
semantics gives it, and looking at it is defined. Missing: wider characters (see `wide_refuted`), histories in which an
allocation fails during an assignment (`assign_failure_refuted`). -/
theorem contents_partial {t : Traits} (hw : t.w = 1) {ops : List Op} (hl : LegalRun t init ops) :
    ∃ σ st, run t init ops = .ok σ ∧ SpecRun id (fun _ => none) ops st ∧ ∀ i, view 1 σ i = (st i).map some := by
  obtain ⟨σ, st, e, _, ha, hs⟩ := run_ok (by omega) (inv_init t) (abs_init t) hl
  have hid : trunc t.w = id := by funext x; rw [hw, trunc_one]; rfl
  rw [hid] at hs
  refine ⟨σ, st, e, hs, ?_⟩
  intro i
  have := ha i
  rw [hw] at this; exact this

example : LegalRun ⟨false, false, false, 1⟩ init
    [.view 0 [104, 105] 7 false, .view 1 [98, 121, 101] 8 false, .copy 2 0 true, .copyAssign 0 1 false, .move 3 1, .destroy 0] := by
  simp [LegalRun, Legal, step, mkView, init, read, copyAssign, copyAssignFrom, free, upd, destroyStr, memcpyFresh]

/-- **C21.** For characters of any width: copying keeps the size, but only the first `n` of the `n * w` bytes. -/
theorem contents_any_width {t : Traits} (hw : 0 < t.w) {ops : List Op} (hl : LegalRun t init ops) :
    ∃ σ st, run t init ops = .ok σ ∧
      SpecRun (fun x => x.take (x.length / t.w) ++ List.replicate (x.length / t.w * t.w - x.length / t.w) none)
        (fun _ => none) ops st ∧ ∀ i, view t.w σ i = (st i).map some := by
  obtain ⟨σ, st, e, _, ha, hs⟩ := run_ok hw (inv_init t) (abs_init t) hl
  exact ⟨σ, st, e, hs, ha⟩

/-- **C22, partial.** Over every legal history there is no double free, no free through an unequal allocator or with the
wrong size, no invalid read, no failed assertion; and when all strings are destroyed no buffer is left. Missing: histories
with failing allocations in assignments and propagation of unequal allocators on copy assignment. -/
theorem memory_safe_partial {t : Traits} (hw : 0 < t.w) {ops : List Op} (hl : LegalRun t init ops) :
    ∃ σ, run t init ops = .ok σ ∧ ((∀ i, σ.strs i = none) → ∀ p, σ.heap p = none) := by
  obtain ⟨σ, st, e, h, _, _⟩ := run_ok hw (inv_init t) (abs_init t) hl
  refine ⟨σ, e, ?_⟩
  intro hn p
  cases hp : σ.heap p with
  | none => rfl
  | some b =>
    obtain ⟨i, s, hi, _⟩ := h.noleak p b hp
    rw [hn i] at hi; cases hi

/-- A legal history with copies, moves between unequal allocators, swaps and a failing copy construction. -/
example : LegalRun ⟨false, false, false, 1⟩ init
    [.view 0 [104, 105] 7 false, .view 1 [98, 121, 101] 8 false, .copy 2 0 true, .copyAssign 0 1 false, .move 3 1,
     .moveAssign 0 3 false, .swap 0 3, .destroy 0, .destroy 1, .destroy 3] := by
  simp [LegalRun, Legal, step, mkView, init, read, copyAssign, copyAssignFrom, free, upd, moveAssign, destroyStr, memcpyFresh]

/-- **C21, refuted for wide characters.** A `static_u16string` made from the two characters `"ab"` contains one character
and one uninitialised one. -/
theorem wide_refuted : ∃ σ, run ⟨false, true, true, 2⟩ init [.view 0 [97, 0, 98, 0] 0 false] = .ok σ ∧
    view 2 σ 0 = some (some [some 97, some 0, none, none]) := ⟨_, rfl, rfl⟩

/-- **C22, refuted.** If the allocation in a copy assignment throws, the target keeps a pointer to its freed buffer:
destroying it frees the buffer twice. -/
theorem assign_failure_refuted :
    run ⟨false, true, true, 1⟩ init [.view 0 [1, 2] 0 false, .view 1 [3, 4] 0 false, .copyAssign 0 1 true, .destroy 0]
      = .error .doubleFree := rfl

/-- **C22, refuted.** A copy assignment that propagates an unequal allocator frees the old buffer through the new
allocator. -/
theorem pocca_refuted :
    run ⟨true, true, false, 1⟩ init [.view 0 [1, 2] 7 false, .view 1 [3, 4] 8 false, .copyAssign 0 1 false]
      = .error .wrongAllocator := rfl

end Verif.StaticString
