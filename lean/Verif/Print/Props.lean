import Verif.Print.Model

/-! Properties C66 and C67 of format_to_ostream.hpp and dbg.hpp. -/
namespace Verif.Print

variable {ε : Type}

/-- How many characters the buffer accepts of a text. -/
def Fits (s : Stream) (n : Nat) : Prop := ∀ r, s.room = some r → n ≤ r

def exampleStream : Stream := ⟨"a".toList, some 4, true, 0, false⟩

example : Fits exampleStream 3 ∧ ¬ Fits exampleStream 5 := by simp [Fits, exampleStream]

theorem putAll_failed (s : Stream) : ∀ cs, putAll s true cs = s
  | [] => rfl
  | _ :: _ => rfl

/-- What is left of a limit after some characters. -/
def lessRoom (r : Option Nat) (n : Nat) : Option Nat := r.map (· - n)

theorem putAll_eq : ∀ (cs : List Char) (s : Stream), ∃ n ≤ cs.length,
    putAll s false cs = { s with text := s.text ++ cs.take n, room := lessRoom s.room n } ∧
    (∀ m, m ≤ cs.length → Fits s m → m ≤ n) ∧ Fits s n
  | [], s => ⟨0, by simp, by cases s with | mk t r => cases r <;> simp [putAll, lessRoom], by simp, by simp [Fits]⟩
  | c :: cs, s => by
    cases hr : s.room with
    | none =>
      obtain ⟨n, hn, e, hm, hf⟩ := putAll_eq cs { s with text := s.text ++ [c], room := none }
      refine ⟨n + 1, by simpa using hn, ?_, ?_, by simp [Fits, hr]⟩
      · simp only [putAll, sputc, hr, Bool.not_true]
        rw [e]
        simp [lessRoom]
      · intro m hm' _
        have : m - 1 ≤ n := hm (m - 1) (by simp at hm'; omega) (by simp [Fits])
        omega
    | some r =>
      cases r with
      | zero =>
        refine ⟨0, by simp, ?_, ?_, by simp [Fits]⟩
        · simp only [putAll, sputc, hr, Bool.not_false, putAll_failed]
          cases s; simp_all [lessRoom]
        · intro m _ hf
          exact hf 0 hr
      | succ r =>
        obtain ⟨n, hn, e, hm, hf⟩ := putAll_eq cs { s with text := s.text ++ [c], room := some r }
        refine ⟨n + 1, by simpa using hn, ?_, ?_, ?_⟩
        · simp only [putAll, sputc, hr, Bool.not_true]
          rw [e]
          simp [lessRoom]
        · intro m hm' hf'
          have h1 := hf' (r + 1) hr
          have : m - 1 ≤ n := hm (m - 1) (by simp at hm'; omega) (by simp only [Fits, Option.some.injEq]; rintro _ rfl; omega)
          omega
        · intro x hx
          rw [hr] at hx
          injection hx with hx
          have := hf r rfl
          omega

theorem putAll_fits {cs : List Char} {s : Stream} (h : Fits s cs.length) :
    putAll s false cs = { s with text := s.text ++ cs, room := lessRoom s.room cs.length } := by
  obtain ⟨n, hn, e, hm, -⟩ := putAll_eq cs s
  have : n = cs.length := Nat.le_antisymm hn (hm _ (Nat.le_refl _) h)
  rw [e, this, List.take_length]

/-! ## operator<< -/

/-- **C66.** The operator is only there for values that can be formatted and have no other `operator<<`. -/
theorem shift_applicable (f o : Bool) : applicable f o = true ↔ f = true ∧ o = false := by
  cases f <;> cases o <;> simp [applicable]

example : applicable true false = true ∧ applicable true true = false ∧ applicable false false = false := by decide

/-- **C66.** `stream << value` appends exactly the text `std::format("{}", value)` if the buffer has room for it; nothing else about the
stream changes, except for the room. -/
theorem shift_appends (s : Stream) (kept : Nat) {cs : List Char} (h : Fits s cs.length) :
    shift s kept (.text cs : Formatted ε) = ({ s with text := s.text ++ cs, room := lessRoom s.room cs.length }, .ok ()) := by
  simp only [shift, formatTo, putAll_fits h]

example : shift exampleStream 0 (.text "bcd".toList : Formatted Nat) = (⟨"abcd".toList, some 1, true, 0, false⟩, .ok ()) := rfl

/-- **C66.** Whatever happens, all that is added to the stream is a beginning of what the formatter produced, and an exception of the
formatter, and no other, reaches the caller. -/
theorem shift_prefix (s : Stream) (kept : Nat) (f : Formatted ε) :
    (∃ p, p <+: (match f with | .text cs => cs | .throws cs _ => cs) ∧ (shift s kept f).1.text = s.text ++ p) ∧
    ((shift s kept f).2 = .ok () ↔ ∃ cs, f = .text cs) ∧ ∀ e, (shift s kept f).2 = .error e ↔ ∃ cs, f = .throws cs e := by
  cases f with
  | text cs =>
    obtain ⟨n, -, e, -⟩ := putAll_eq cs s
    refine ⟨⟨cs.take n, List.take_prefix .., ?_⟩, by simp [shift, formatTo], by simp [shift, formatTo]⟩
    simp only [shift, formatTo, e]
  | throws cs x =>
    obtain ⟨n, -, e, -⟩ := putAll_eq (cs.take kept) s
    refine ⟨⟨(cs.take kept).take n, (List.take_prefix ..).trans (List.take_prefix ..), ?_⟩, by simp [shift, formatTo], ?_⟩
    · simp only [shift, formatTo, e]
    · intro y
      simp [shift, formatTo]

example : (shift exampleStream 2 (.throws "xyz".toList 5 : Formatted Nat)) = (⟨"axy".toList, some 2, true, 0, false⟩, .error 5) := rfl

/-- **C66.** Several values one after another. -/
theorem shifts_append : ∀ (vs : List (Nat × List Char)) (s : Stream), Fits s (vs.map (·.2)).flatten.length →
    shifts s (vs.map fun v => (v.1, (.text v.2 : Formatted ε))) =
      ({ s with text := s.text ++ (vs.map (·.2)).flatten, room := lessRoom s.room (vs.map (·.2)).flatten.length }, .ok ())
  | [], s, _ => by cases s with | mk t r => cases r <;> simp [shifts, lessRoom]
  | (k, cs) :: vs, s, h => by
    have h1 : Fits s cs.length := fun r hr => Nat.le_trans (by simp) (h r hr)
    simp only [List.map_cons, shifts, shift_appends s k h1]
    rw [shifts_append vs]
    · cases s with | mk t r => cases r <;> simp [lessRoom]; omega
    · intro r hr
      cases hs : s.room with
      | none => simp [lessRoom, hs] at hr
      | some x =>
        have := h x hs
        simp only [lessRoom, hs, Option.map_some, Option.some.injEq] at hr
        simp only [List.map_cons, List.flatten_cons, List.length_append] at this
        omega

example : (shifts exampleStream [(0, (.text ['b'] : Formatted Nat)), (0, .text ['c', 'd'])]).1.text = "abcd".toList := by decide

/-- **C66.** If formatting a value throws, the values after it are not written and the exception reaches the caller; those before it are written. -/
theorem shifts_throw (vs : List (Nat × List Char)) (s : Stream) (hf : Fits s (vs.map (·.2)).flatten.length) (kept : Nat) (cs : List Char) (e : ε)
    (rest : List (Nat × Formatted ε)) :
    ∃ p, p <+: cs ∧ (shifts s ((vs.map fun v => (v.1, (.text v.2 : Formatted ε))) ++ (kept, .throws cs e) :: rest)).1.text =
        s.text ++ (vs.map (·.2)).flatten ++ p ∧
      (shifts s ((vs.map fun v => (v.1, (.text v.2 : Formatted ε))) ++ (kept, .throws cs e) :: rest)).2 = .error e := by
  have happ : ∀ (l : List (Nat × Formatted ε)) (s s' : Stream), shifts s l = (s', .ok ()) → ∀ m, shifts s (l ++ m) = shifts s' m := by
    intro l
    induction l with
    | nil => intro s s' h m; simp only [shifts, Prod.mk.injEq, and_true] at h; rw [h]; rfl
    | cons x l ih =>
      intro s s' h m
      obtain ⟨k, f⟩ := x
      simp only [shifts, List.cons_append] at h ⊢
      cases hs : shift s k f with
      | mk s1 r =>
        rw [hs] at h
        cases r with
        | ok u => exact ih s1 s' h m
        | error e => simp at h
  rw [happ _ _ _ (shifts_append vs s hf)]
  obtain ⟨⟨p, hp, ht⟩, -, h3⟩ := shift_prefix
    { s with text := s.text ++ (vs.map (·.2)).flatten, room := lessRoom s.room (vs.map (·.2)).flatten.length } kept (.throws cs e)
  have he := (h3 e).2 ⟨cs, rfl⟩
  refine ⟨p, hp, ?_⟩
  simp only [shifts]
  generalize shift { s with text := s.text ++ (vs.map (·.2)).flatten, room := lessRoom s.room (vs.map (·.2)).flatten.length } kept (.throws cs e) = x
    at ht he
  obtain ⟨s1, r⟩ := x
  simp only at ht he
  subst he
  exact ⟨ht, rfl⟩

example : (shifts exampleStream [(0, (.text ['b'] : Formatted Nat)), (1, .throws ['c', 'd'] 5), (0, .text ['e'])]).1.text = "abc".toList := by
  decide

/-- **C66, partial**: on a good stream without field width, with room, and not tied to a stream with pending output, the effect is that of
`stream << std::format("{}", value)`. Missing: the other streams, see the refutations below. -/
theorem shift_like_string_partial (s : Stream) (kept : Nat) {cs : List Char} (hg : s.good = true) (hw : s.width = 0)
    (ht : s.tiePending = false) (hf : Fits s cs.length) :
    (shift s kept (.text cs : Formatted ε)).1 = insertString s cs := by
  rw [shift_appends s kept hf]
  cases s with
  | mk t r g w tp =>
    simp only at hg hw ht
    subst hg hw ht
    unfold insertString
    simp only [Nat.zero_sub, List.replicate_zero, List.nil_append, putAll_fits hf]
    cases r with
    | none => rfl
    | some r => simp [hf r rfl]

example : (shift exampleStream 0 (.text "bcd".toList : Formatted Nat)).1 = insertString exampleStream "bcd".toList := by decide

/-- **C66, refuted** for streams in an error state: they are written to. -/
theorem shift_failed_refuted : ∃ (s : Stream) (cs : List Char), s.good = false ∧
    (shift s 0 (.text cs : Formatted Nat)).1.text ≠ s.text ∧ insertString s cs = s :=
  ⟨⟨[], none, false, 0, false⟩, ['x'], rfl, by decide, rfl⟩

/-- **C66, refuted** for write errors: they are not reported. -/
theorem shift_full_refuted : ∃ (s : Stream) (cs : List Char), s.good = true ∧
    (shift s 0 (.text cs : Formatted Nat)).1.text ≠ s.text ++ cs ∧ (shift s 0 (.text cs : Formatted Nat)).1.good = true ∧
    (insertString s cs).good = false :=
  ⟨⟨[], some 1, true, 0, false⟩, ['x', 'y'], rfl, by decide, by decide, by decide⟩

/-- **C66, refuted** for the field width: it is ignored, and is still set for the next output. -/
theorem shift_width_refuted : ∃ (s : Stream) (cs : List Char), s.good = true ∧ s.width = 3 ∧
    (shift s 0 (.text cs : Formatted Nat)).1.text = ['x'] ∧ (shift s 0 (.text cs : Formatted Nat)).1.width = 3 ∧
    (insertString s cs).text = [' ', ' ', 'x'] ∧ (insertString s cs).width = 0 :=
  ⟨⟨[], none, true, 3, false⟩, ['x'], rfl, rfl, by decide, by decide, by decide, by decide⟩

/-- **C66, refuted** for tied streams: they are not flushed. -/
theorem shift_tie_refuted : ∃ (s : Stream) (cs : List Char), s.good = true ∧
    (shift s 0 (.text cs : Formatted Nat)).1.tiePending = true ∧ (insertString s cs).tiePending = false :=
  ⟨⟨[], none, true, 0, true⟩, ['x'], rfl, by decide, by decide⟩

/-! ## DICE_DBG -/

section
variable {V : Type}

/-- The value an evaluated expression stands for. -/
def valueOf (st : Store V) : Result V → Option V
  | .ref _ a => st a
  | .pure v => some v

/-- **C67.** `DICE_DBG(expr)` evaluates the expression once, prints one line with the place, the text and the value of the expression, and
gives the same value. Objects of the program are only changed as the expression changes them (`tmp` is not the address of such an object).
An expression that denotes an object gives the same object with the same value category. -/
theorem dbg_transparent (pre : List Char) (fmt : V → Formatted ε) (kept tmp : Nat) (e : Expr V ε) (w : World V) {st : Store V} {r : Result V}
    (he : e.eval w.store = (st, .ok r)) (hc : ∀ a, r ≠ .ref .prvalue a) (htmp : st tmp = none) {v : V} (hv : valueOf st r = some v)
    {cs : List Char} (hcs : fmt v = .text cs) (hf : Fits w.err (pre ++ cs ++ ['\n']).length) :
    ∃ w' r', dbg pre fmt kept tmp e w = some (w', .ok r') ∧ valueOf w'.store r' = some v ∧ w'.evals = w.evals ++ [e.id] ∧
      w'.err.text = w.err.text ++ pre ++ cs ++ ['\n'] ∧ (∀ a, a ≠ tmp → w'.store a = st a) ∧
      (∀ cat a, r = .ref cat a → r' = r ∧ w'.store = st) := by
  unfold dbg Expr.run
  simp only [he]
  match r with
  | .ref .prvalue a => exact absurd rfl (hc a)
  | .ref .lvalue a =>
    have hv' : st a = some v := hv
    simp only [hv', Option.map_some, hcs, formatTo, putAll_fits hf]
    refine ⟨_, _, rfl, hv', rfl, by simp, fun _ _ => rfl, ?_⟩
    rintro cat b h
    exact ⟨rfl, rfl⟩
  | .ref .xvalue a =>
    have hv' : st a = some v := hv
    simp only [hv', Option.map_some, hcs, formatTo, putAll_fits hf]
    refine ⟨_, _, rfl, hv', rfl, by simp, fun _ _ => rfl, ?_⟩
    rintro cat b h
    exact ⟨rfl, rfl⟩
  | .pure x =>
    have hv' : x = v := by simpa [valueOf] using hv
    subst hv'
    simp only [if_true, Option.map_some, hcs, formatTo, putAll_fits hf]
    refine ⟨_, _, rfl, by simp [valueOf], rfl, by simp, ?_, ?_⟩
    · intro a ha
      simp [ha]
    · rintro cat b h
      cases h

/-- An expression that assigns 7 to the object at address 3 and denotes it. -/
def exampleExpr : Expr Nat Nat := ⟨1, fun st => ((fun a => if a = 3 then some 7 else st a), .ok (.ref .lvalue 3))⟩

def exampleWorld : World Nat := ⟨fun _ => none, ⟨[], none, true, 0, false⟩, []⟩

example : ∃ w' r', dbg (linePrefix "f.cpp".toList 2 "x = 7".toList) (fun n => .text (toString n).toList) 0 9 exampleExpr exampleWorld =
    some (w', .ok r') ∧ w'.err.text = "[f.cpp:2] x = 7 = 7\n".toList ∧ w'.evals = [1] ∧ r' = .ref .lvalue 3 := by
  obtain ⟨w', r', h1, -, h3, h4, -, h6⟩ := dbg_transparent (linePrefix "f.cpp".toList 2 "x = 7".toList)
    (fun n => .text (toString n).toList) 0 9 exampleExpr exampleWorld (st := fun a => if a = 3 then some 7 else none)
    (r := .ref .lvalue 3) (v := 7) (cs := (toString 7).toList) rfl (by simp) rfl rfl rfl (by simp [Fits, exampleWorld])
  exact ⟨w', r', h1, h4, h3, (h6 _ _ rfl).1⟩

/-- **C67.** The line printed for an expression at a line of a file is `[file:line] text = value`. -/
theorem dbg_line (file text value : String) (line : Nat) :
    String.ofList (linePrefix file.toList line text.toList ++ value.toList ++ ['\n']) = s!"[{file}:{line}] {text} = {value}\n" := by
  apply String.ext
  simp [linePrefix, toString]

example : String.ofList (linePrefix "a.cpp".toList 2 "a * 2".toList ++ "4".toList ++ ['\n']) = "[a.cpp:2] a * 2 = 4\n" := dbg_line "a.cpp" "a * 2" "4" 2

/-- **C67.** If evaluating the expression throws, nothing is printed, and the exception reaches the caller. -/
theorem dbg_expr_throws (pre : List Char) (fmt : V → Formatted ε) (kept tmp : Nat) (e : Expr V ε) (w : World V) {st : Store V} {x : ε}
    (he : e.eval w.store = (st, .error x)) : dbg pre fmt kept tmp e w = some (⟨st, w.err, w.evals ++ [e.id]⟩, .error x) := by
  unfold dbg Expr.run
  simp only [he]

example : dbg [] (fun n => .text (toString n).toList) 0 9 (⟨1, fun st => (st, .error 5)⟩ : Expr Nat Nat) exampleWorld =
    some (⟨exampleWorld.store, exampleWorld.err, [1]⟩, .error 5) := dbg_expr_throws _ _ _ _ _ _ rfl

/-- **C67.** If formatting the value throws, the exception reaches the caller, after the expression was evaluated once. -/
theorem dbg_format_throws (pre : List Char) (fmt : V → Formatted ε) (kept tmp : Nat) (e : Expr V ε) (w : World V) {st : Store V}
    {a : Nat} {cat : Cat} (he : e.eval w.store = (st, .ok (.ref cat a))) {v : V} (hv : st a = some v) {cs : List Char} {x : ε}
    (hcs : fmt v = .throws cs x) :
    ∃ w', dbg pre fmt kept tmp e w = some (w', .error x) ∧ w'.store = st ∧ w'.evals = w.evals ++ [e.id] := by
  unfold dbg Expr.run
  simp only [he]
  cases cat <;> simp only [hv, Option.map_some, hcs, formatTo] <;> exact ⟨_, rfl, rfl, rfl⟩

example : ∃ w', dbg [] (fun _ => .throws [] 4) 0 9 exampleExpr exampleWorld = some (w', .error 4) ∧ w'.evals = [1] := by
  obtain ⟨w', h, -, h'⟩ := dbg_format_throws [] (fun _ => .throws [] 4) 0 9 exampleExpr exampleWorld
    (st := fun a => if a = 3 then some 7 else none) (cat := .lvalue) (a := 3) (v := 7) (cs := []) (x := 4) rfl rfl rfl
  exact ⟨w', h, h'⟩

/-- **C67, refuted** for `auto &&x = DICE_DBG(f());` where `f` returns a value: `x` refers to an object that no longer lives after the
declaration, while it does live in `auto &&x = f();`. -/
theorem dbg_dangling_refuted : ∃ (e : Expr Nat Nat) (w' : World Nat) (r : Result Nat) (st : Store Nat) (r0 : Result Nat),
    e.eval exampleWorld.store = (st, .ok r0) ∧ ((bindRef 20 st r0).1 (bindRef 20 st r0).2).isSome ∧
    dbg [] (fun _ => .text []) 0 9 e exampleWorld = some (w', .ok r) ∧
    (endTemp (bindRef 20 w'.store r).1 9) (bindRef 20 w'.store r).2 = none := by
  refine ⟨⟨1, fun st => (st, .ok (.pure 5))⟩, _, _, _, _, rfl, ?_, rfl, ?_⟩ <;> simp [bindRef, endTemp]

end

end Verif.Print
