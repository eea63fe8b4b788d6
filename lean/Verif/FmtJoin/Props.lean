import Verif.FmtJoin.Model

namespace Verif.FmtJoin

variable {σ α : Type}

/-! ## Specification -/

/-- The characters a caller sees in a separator. -/
def Sep.text : Sep → List Char
  | .range s => s
  | .char c => [c]
  | .literal s => s

/-- Texts with a separator between consecutive ones. -/
def joined (sep : List Char) : List (List Char) → List Char
  | [] => []
  | [t] => t
  | t :: u :: ts => t ++ sep ++ joined sep (u :: ts)

/-- No NUL within a string literal. -/
def Sep.Plain : Sep → Prop
  | .literal s => '\x00' ∉ s
  | _ => True

/-! ## Lemmas -/

theorem put_shared (b : Buf) (pos : Nat) (c : Char) : put true b pos c = (b ++ [c], pos + 1) := rfl

theorem putAll_shared (b : Buf) (pos : Nat) (s : List Char) : putAll true b pos s = (b ++ s, pos + s.length) := by
  induction s generalizing b pos with
  | nil => simp [putAll]
  | cons c cs ih => simp only [putAll, put_shared, ih]; simp; omega

theorem put_end (sh : Bool) (b : Buf) (c : Char) : put sh b b.length c = (b ++ [c], b.length + 1) := by
  cases sh <;> simp [put]

theorem putAll_end (sh : Bool) (b : Buf) (s : List Char) : putAll sh b b.length s = (b ++ s, b.length + s.length) := by
  induction s generalizing b with
  | nil => simp [putAll]
  | cons c cs ih =>
    have := ih (b ++ [c])
    simp only [List.length_append, List.length_singleton] at this
    simp only [putAll, put_end, this]
    simp; omega

theorem cstr_plain {s : List Char} (h : '\x00' ∉ s) : cstr s = s := by
  unfold cstr
  induction s with
  | nil => rfl
  | cons c cs ih =>
    simp only [List.mem_cons, not_or] at h
    rw [List.takeWhile_cons, if_pos (decide_eq_true (Ne.symm h.1)), ih h.2]

/-- The contexts in which a separator is written correctly: sinks, or the separator is a range and the context is at the end. -/
def Good (sep : Sep) (x : Ctx) : Prop := (x.shared = true ∨ (x.pos = x.buf.length ∧ ∃ s, sep = .range s))

theorem writeElem_spec {f : Formatter σ α} {st : σ} {a : α} {sep : Sep} {x : Ctx} {t : List Char} (hx : Good sep x)
    (ht : f.text st a = some t) :
    ∃ p, writeElem f st a x = ⟨⟨x.shared, x.buf ++ t, p⟩, false⟩ ∧ Good sep ⟨x.shared, x.buf ++ t, p⟩ := by
  unfold writeElem
  rw [ht]
  obtain ⟨sh, b, pos⟩ := x
  rcases hx with h | ⟨h, s, hs⟩
  · simp only at h; subst h
    exact ⟨pos + t.length, by simp only [putAll_shared], .inl rfl⟩
  · simp only at h; subst h
    exact ⟨b.length + t.length, by simp only [putAll_end], .inr ⟨by simp, s, hs⟩⟩

theorem writeSep_spec {sep : Sep} (hp : sep.Plain) {x : Ctx} (hx : Good sep x) :
    ∃ p, writeSep sep x = ⟨x.shared, x.buf ++ sep.text, p⟩ ∧ Good sep ⟨x.shared, x.buf ++ sep.text, p⟩ := by
  obtain ⟨sh, b, pos⟩ := x
  rcases hx with h | ⟨h, s, rfl⟩
  · simp only at h; subst h
    cases sep with
    | range s => exact ⟨pos + s.length, by simp only [writeSep, putAll_shared, Sep.text], .inl rfl⟩
    | char c => exact ⟨pos, by simp only [writeSep, put_shared, Sep.text], .inl rfl⟩
    | literal s => exact ⟨pos, by simp only [writeSep, putAll_shared, Sep.text, cstr_plain hp], .inl rfl⟩
  · simp only at h; subst h
    exact ⟨b.length + s.length, by simp only [writeSep, putAll_end, Sep.text], .inr ⟨by simp [Sep.text], s, rfl⟩⟩

/-- What the loop appends: every remaining text preceded by the separator. -/
theorem formatRest_spec {f : Formatter σ α} {st : σ} {sep : Sep} (hp : sep.Plain) (text : α → List Char) :
    ∀ (as : List α), (∀ a ∈ as, f.text st a = some (text a)) → ∀ x, Good sep x →
      ∃ p, formatRest f st sep as x = ⟨⟨x.shared, x.buf ++ (as.map fun a => sep.text ++ text a).flatten, p⟩, false⟩
  | [], _, x, _ => ⟨x.pos, by simp [formatRest]⟩
  | a :: as, ha, x, hx => by
    obtain ⟨p1, e1, g1⟩ := writeSep_spec hp hx
    obtain ⟨p2, e2, g2⟩ := writeElem_spec (sep := sep) g1 (ha a (by simp))
    obtain ⟨p3, e3⟩ := formatRest_spec hp text as (fun b hb => ha b (by simp [hb])) _ g2
    refine ⟨p3, ?_⟩
    simp only [formatRest, e1, e2, e3]
    simp [List.append_assoc]

theorem joined_cons (sep t : List Char) : ∀ ts : List (List Char), joined sep (t :: ts) = t ++ (ts.map (sep ++ ·)).flatten
  | [] => by simp [joined]
  | u :: ts => by rw [joined, joined_cons sep u ts]; simp [List.append_assoc]

/-! ## C54 -/

/-- Decimal digits; `+` is a format specification. -/
def digits : Formatter Bool Nat where
  parse
    | [] => some (false, [])
    | '+' :: s => some (true, s)
    | s => some (false, s)
  text plus n := if n < 10 then some ((if plus then ['+'] else []) ++ [Char.ofNat (48 + n)]) else none

/-- **C54.** Into any context with a shared sink (all of `std::format`, `std::format_to`, `std::formatted_size`, ...): exactly the formatted
elements, in order, separated by the separator, are appended to what is already there. For every range, every separator, every formatter and
format specification that does not throw for these elements. -/
theorem format_joins {f : Formatter σ α} {st : σ} {sep : Sep} (hp : sep.Plain) {range : List α} {text : α → List Char}
    (ht : ∀ a ∈ range, f.text st a = some (text a)) {x : Ctx} (hx : x.shared = true) :
    (format f st sep range x).threw = false ∧
    (format f st sep range x).ctx.buf = x.buf ++ joined sep.text (range.map text) := by
  cases range with
  | nil => simp [format, joined]
  | cons a as =>
    obtain ⟨p1, e1, g1⟩ := writeElem_spec (sep := sep) (.inl hx) (ht a (by simp))
    obtain ⟨p2, e2⟩ := formatRest_spec hp text as (fun b hb => ht b (by simp [hb])) _ g1
    simp only [format, e1, e2, List.map_cons, joined_cons, List.map_map]
    simp [List.append_assoc, Function.comp_def]

example : (∀ a ∈ [1, 2, 3], digits.text true a = some ['+', Char.ofNat (48 + a)]) ∧ (Sep.char ';').Plain ∧
    (format digits true (.char ';') [1, 2, 3] ⟨true, ['['], 1⟩).ctx.buf = "[+1;+2;+3".toList := by
  refine ⟨?_, ?_, by decide⟩
  · intro a ha; simp at ha; rcases ha with rfl | rfl | rfl <;> decide
  · simp [Sep.Plain]

/-- **C54.** With a range as separator it is also correct for output iterators which have a position of their own. -/
theorem format_joins_positional {f : Formatter σ α} {st : σ} {s : List Char} {range : List α} {text : α → List Char}
    (ht : ∀ a ∈ range, f.text st a = some (text a)) {x : Ctx} (hx : x.pos = x.buf.length) :
    (format f st (.range s) range x).threw = false ∧
    (format f st (.range s) range x).ctx.buf = x.buf ++ joined s (range.map text) := by
  have hp : (Sep.range s).Plain := trivial
  cases range with
  | nil => simp [format, joined]
  | cons a as =>
    obtain ⟨p1, e1, g1⟩ := writeElem_spec (sep := .range s) (.inr ⟨hx, s, rfl⟩) (ht a (by simp))
    obtain ⟨p2, e2⟩ := formatRest_spec hp text as (fun b hb => ht b (by simp [hb])) _ g1
    simp only [format, e1, e2, List.map_cons, joined_cons, List.map_map]
    simp [List.append_assoc, Function.comp_def, Sep.text]

example : (format digits true (.range [',', ' ']) [1, 2, 3] ⟨false, ['['], 1⟩).ctx.buf = "[+1, +2, +3".toList := by decide

example : (∀ a ∈ [1, 2, 3], digits.text true a = some ['+', Char.ofNat (48 + a)]) ∧ (Sep.literal [',', ' ']).Plain ∧
    (format digits true (.literal [',', ' ']) [1, 2, 3] ⟨true, ['['], 1⟩).ctx.buf = "[+1, +2, +3".toList := by
  refine ⟨?_, ?_, by decide⟩
  · intro a ha; simp at ha; rcases ha with rfl | rfl | rfl <;> decide
  · simp [Sep.Plain]

/-- **C54, refuted** for single characters and such iterators: the separator is overwritten by the next element. -/
theorem char_positional_refuted :
    (format digits false (.char ',') [1, 2] ⟨false, [], 0⟩).ctx.buf = "12".toList := by decide

/-- **C54, refuted** for string literals with a NUL in them: only the part before it is written. -/
theorem literal_nul_refuted :
    (format digits false (.literal ['a', '\x00', 'b']) [1, 2] ⟨true, [], 0⟩).ctx.buf = "1a2".toList := by decide

/-- What is between the texts is what the pointer shows, in general. -/
theorem writeSep_literal {s : List Char} {x : Ctx} (hx : x.shared = true) :
    (writeSep (.literal s) x).buf = x.buf ++ s.takeWhile (· ≠ '\x00') := by
  obtain ⟨sh, b, pos⟩ := x
  simp only at hx
  subst hx
  simp only [writeSep, putAll_shared, cstr]

/-- Nothing after an embedded NUL is written. -/
example : (writeSep (.literal [',', '\x00', ' ']) ⟨true, ['['], 1⟩).buf = ['[', ','] := by decide

/-- **C54.** Nothing is written for an empty range, whatever the separator and the kind of iterator. -/
theorem format_empty (f : Formatter σ α) (st : σ) (sep : Sep) (x : Ctx) : format f st sep [] x = ⟨x, false⟩ := rfl

example : format digits true (.char ';') [] ⟨true, ['['], 1⟩ = ⟨⟨true, ['['], 1⟩, false⟩ := by decide

/-- **C54.** The same range joined by a character, by the string of that character and by a literal of it: same output. -/
theorem separators_agree {f : Formatter σ α} {st : σ} {c : Char} (hc : c ≠ '\x00') (range : List α) {x : Ctx} (hx : x.shared = true)
    {text : α → List Char} (ht : ∀ a ∈ range, f.text st a = some (text a)) :
    (format f st (.char c) range x).ctx.buf = (format f st (.range [c]) range x).ctx.buf ∧
    (format f st (.literal [c]) range x).ctx.buf = (format f st (.range [c]) range x).ctx.buf := by
  have h1 := (format_joins (sep := .char c) trivial ht hx).2
  have h2 := (format_joins (sep := .range [c]) trivial ht hx).2
  have h3 := (format_joins (sep := .literal [c]) (by simp [Sep.Plain]; exact fun h => hc h.symm) ht hx).2
  exact ⟨h1.trans h2.symm, h3.trans h2.symm⟩

example : (∀ a ∈ [4, 5], digits.text false a = some [Char.ofNat (48 + a)]) ∧ (',' : Char) ≠ '\x00' := by
  refine ⟨?_, by decide⟩
  intro a ha; simp at ha; rcases ha with rfl | rfl <;> decide

/-- Splitting the range: nothing between the parts but one separator, if neither is empty. -/
theorem joined_append (sep : List Char) : ∀ (xs ys : List (List Char)), xs ≠ [] → ys ≠ [] →
    joined sep (xs ++ ys) = joined sep xs ++ sep ++ joined sep ys
  | [], _, h, _ => absurd rfl h
  | [t], [], _, h => absurd rfl h
  | [t], u :: us, _, _ => rfl
  | t :: t' :: ts, ys, _, h => by
    have := joined_append sep (t' :: ts) ys (by simp) h
    simp only [List.cons_append] at this ⊢
    rw [joined, this, joined]
    simp [List.append_assoc]

example : joined [','] [['a'], ['b']] = "a,b".toList ∧ joined [','] ([['a'], ['b']] ++ [['c']]) = "a,b,c".toList := by decide

/-- The text has the elements' characters and one separator less than there are elements. -/
theorem joined_length (sep : List Char) : ∀ ts : List (List Char),
    (joined sep ts).length = (ts.map List.length).sum + (ts.length - 1) * sep.length
  | [] => by simp [joined]
  | t :: ts => by
    rw [joined_cons]
    have : (ts.map (sep ++ ·)).flatten.length = (ts.map List.length).sum + ts.length * sep.length := by
      induction ts with
      | nil => simp
      | cons u us ih => simp only [List.map_cons, List.flatten_cons, List.length_append, ih, List.sum_cons, List.length_cons,
          Nat.succ_mul]; omega
    simp only [List.length_append, this, List.map_cons, List.sum_cons, List.length_cons, Nat.add_sub_cancel]
    omega

example : (joined [',', ' '] [['a'], ['b', 'c'], []]).length = 3 + 2 * 2 := by decide

/-- **C54.** If formatting some element throws, the exception leaves `format`; what has been written is the text of the elements before it,
each followed by the separator. -/
theorem format_throws {f : Formatter σ α} {st : σ} {sep : Sep} (hp : sep.Plain) {before after : List α} {bad : α} {text : α → List Char}
    (ht : ∀ a ∈ before, f.text st a = some (text a)) (hbad : f.text st bad = none) {x : Ctx} (hx : x.shared = true) :
    (format f st sep (before ++ bad :: after) x).threw = true ∧
    (format f st sep (before ++ bad :: after) x).ctx.buf = x.buf ++ (before.map fun a => text a ++ sep.text).flatten := by
  have hbadE : ∀ y : Ctx, writeElem f st bad y = ⟨y, true⟩ := fun y => by simp only [writeElem, hbad]
  have rest : ∀ (bs : List α), (∀ a ∈ bs, f.text st a = some (text a)) → ∀ y : Ctx, Good sep y →
      (formatRest f st sep (bs ++ bad :: after) y).threw = true ∧
      (formatRest f st sep (bs ++ bad :: after) y).ctx.buf = y.buf ++ sep.text ++ (bs.map fun a => text a ++ sep.text).flatten := by
    intro bs
    induction bs with
    | nil =>
      intro _ y hy
      obtain ⟨p1, e1, g1⟩ := writeSep_spec hp hy
      simp only [List.nil_append, formatRest, e1, hbadE]
      simp
    | cons b bs ih =>
      intro hb y hy
      obtain ⟨p1, e1, g1⟩ := writeSep_spec hp hy
      obtain ⟨p2, e2, g2⟩ := writeElem_spec (sep := sep) g1 (hb b (by simp))
      obtain ⟨r1, r2⟩ := ih (fun a ha => hb a (by simp [ha])) _ g2
      simp only [List.cons_append, formatRest, e1, e2]
      refine ⟨r1, ?_⟩
      rw [r2]
      simp [List.append_assoc]
  cases before with
  | nil => simp only [List.nil_append, format, hbadE]; simp
  | cons b bs =>
    obtain ⟨p1, e1, g1⟩ := writeElem_spec (sep := sep) (.inl hx) (ht b (by simp))
    obtain ⟨r1, r2⟩ := rest bs (fun a ha => ht a (by simp [ha])) _ g1
    simp only [List.cons_append, format, e1]
    refine ⟨r1, ?_⟩
    rw [r2]
    simp [List.append_assoc]

example : digits.text false 77 = none ∧
    (format digits false (.char '-') [4, 5, 77, 6] ⟨true, [], 0⟩).ctx.buf = "4-5-".toList := by decide

/-- The elements the caller means: those of the container when formatting, or those given. -/
def Arg.elems (s : Store α) : Arg α → List α
  | .lvalue loc => s loc
  | .rvalue l => l
  | .initList l => l

/-- **C54.** `std::format("{:spec}", fmt_join(r, sep))`: if the elements' formatter accepts the specification and the elements, the result is the
joined texts of the elements under this specification; lvalue ranges are read when formatting, temporaries and initializer lists are kept. -/
theorem stdFormat_joins {f : Formatter σ α} {spec : List Char} {st : σ} (hs : f.parse spec = some (st, [])) {store : Store α} {r : Arg α}
    {sep : Sep} (hp : sep.Plain) {text : α → List Char} (ht : ∀ a ∈ r.elems store, f.text st a = some (text a)) :
    stdFormat f spec store (fmtJoin r sep) = some (joined sep.text ((r.elems store).map text)) := by
  have he : (fmtJoin r sep).range.elems store = r.elems store := by cases r <;> rfl
  have hsep : (fmtJoin r sep).separator = sep := by cases r <;> rfl
  have h := format_joins hp ht (x := ⟨true, [], 0⟩) rfl
  simp only [stdFormat, parse, hs, he, hsep, h.1, h.2, List.nil_append]

/-- **C54.** Specifications the elements' formatter rejects are rejected. -/
theorem stdFormat_rejects {f : Formatter σ α} {spec : List Char} (hs : f.parse spec = none) (store : Store α) (j : Joiner α) :
    stdFormat f spec store j = none := by simp only [stdFormat, parse, hs]

example : digits.parse ['+'] = some (true, []) ∧ stdFormat digits ['+'] (fun _ => [7, 8]) (fmtJoin (.lvalue 0) (.char '|')) = some "+7|+8".toList ∧
    stdFormat digits [] (fun _ => []) (fmtJoin (.initList [1, 2]) (.range ['-', '>'])) = some "1->2".toList := by decide

end Verif.FmtJoin
