import Verif.FlexArray.ThrowModel
import Verif.FlexArray.Props

/-! Property C92: construction, conversion and `resize` of `flex_array` when elements, iterators or allocations throw. -/
namespace Verif.FlexArray

variable {α : Type} {β γ : Type}

/-! ### Specification -/

/-- Some action between two moments of the execution threw. -/
def Faulty (o : Oracle) (w w' : World) : Prop := ∃ n, w.n ≤ n ∧ n < w'.n ∧ o n = true

/-- A call that makes an array: if it returns, the array is the one of the model without exceptions and its elements are alive; if it
throws, the model without exceptions throws the same or an action threw, and no element stays alive; it never ends the
program. -/
def Reports (o : Oracle) (pure : Except Err (FA α)) (w : World) : Out (FA α) × World → Prop
  | (.ok a, w') => pure = .ok a ∧ w'.live = w.live + a.data.length ∧ ¬ Faulty o w w'
  | (.threw .length, w') => pure = .error .lengthError ∧ w'.live = w.live ∧ ¬ Faulty o w w'
  | (.threw .invalid, _) => False
  | (.threw .fault, w') => w'.live = w.live ∧ Faulty o w w'
  | (.terminate, _) => False

/-- A call that makes an array and is `noexcept`: the same, but the program ends exactly if an action throws. -/
def Dies (o : Oracle) (pure : FA α) (w : World) : Out (FA α) × World → Prop
  | (.ok a, w') => a = pure ∧ w'.live = w.live + a.data.length ∧ ¬ Faulty o w w'
  | (.threw _, _) => False
  | (.terminate, w') => Faulty o w w'

/-! ### Proofs -/

/-- Accounting: what a part of a call returns, how many elements live when it returns, and that none of them does when it throws. -/
def Acct (o : Oracle) (m : M β) (Q : β → Prop) (d : β → Int) (E : Exn → Prop) : Prop :=
  ∀ w, w.n ≤ (m w).2.n ∧ match m w with
    | (.ok b, w') => Q b ∧ w'.live = w.live + d b ∧ ¬ Faulty o w w'
    | (.threw e, w') => w'.live = w.live ∧ (e = .fault → Faulty o w w') ∧ (e ≠ .fault → E e ∧ ¬ Faulty o w w')
    | (.terminate, _) => False

theorem Faulty.comp {o : Oracle} {w w₁ w₂ : World} (h1 : w.n ≤ w₁.n) (h2 : w₁.n ≤ w₂.n) :
    Faulty o w w₂ ↔ Faulty o w w₁ ∨ Faulty o w₁ w₂ := by
  constructor
  · rintro ⟨n, a, b, c⟩
    by_cases h : n < w₁.n
    · exact .inl ⟨n, a, h, c⟩
    · exact .inr ⟨n, by omega, b, c⟩
  · rintro (⟨n, a, b, c⟩ | ⟨n, a, b, c⟩)
    · exact ⟨n, a, by omega, c⟩
    · exact ⟨n, by omega, b, c⟩

theorem not_faulty_same {o : Oracle} {w w' : World} (h : w'.n ≤ w.n) : ¬ Faulty o w w' := by
  rintro ⟨n, a, b, _⟩; omega

theorem Acct.done {o : Oracle} {b : β} {E : Exn → Prop} {Q : β → Prop} (hq : Q b) : Acct o (M.done b) Q (fun _ => 0) E := by
  intro w; exact ⟨Nat.le_refl _, hq, by simp, not_faulty_same (Nat.le_refl _)⟩

theorem Acct.raise {o : Oracle} {e : Exn} (he : e ≠ .fault) {Q : β → Prop} {d : β → Int} {E : Exn → Prop} (h : E e) :
    Acct o (M.raise e) Q d E := by
  intro w; exact ⟨Nat.le_refl _, rfl, fun h => absurd h he, fun _ => ⟨h, not_faulty_same (Nat.le_refl _)⟩⟩

theorem Acct.act (o : Oracle) (E : Exn → Prop) : Acct o (M.act o) (fun _ => True) (fun _ => 0) E := by
  intro w
  simp only [M.act]
  cases h : o w.n with
  | true =>
    refine ⟨by simp, by simp, fun _ => ⟨w.n, Nat.le_refl _, by simp, h⟩, fun hn => absurd rfl hn⟩
  | false =>
    refine ⟨by simp, trivial, by simp, ?_⟩
    rintro ⟨n, a, b, c⟩
    have : n = w.n := by simp at b; omega
    subst this; simp [h] at c

theorem Acct.born (o : Oracle) (k : Int) (E : Exn → Prop) : Acct o (M.born k) (fun _ => True) (fun _ => k) E := by
  intro w; exact ⟨Nat.le_refl _, trivial, rfl, not_faulty_same (Nat.le_refl _)⟩

/-- One thing after another; what the first one made is destroyed if the second one throws. -/
theorem Acct.bind {o : Oracle} {m : M β} {f : β → M γ} {Q : β → Prop} {d : β → Int} {E : Exn → Prop} {Q' : γ → Prop} {d' : γ → Int}
    (hm : Acct o m Q d E) (k : β → Int) (hk : ∀ b, Q b → k b = d b)
    (hf : ∀ b, Q b → Acct o (f b) Q' (fun c => d' c - d b) E) : Acct o (m.andThen fun b => (f b).unwind (k b)) Q' d' E := by
  intro w
  have h := hm w
  simp only [M.andThen]
  rcases hr : m w with ⟨r, w₁⟩
  rw [hr] at h
  cases r with
  | ok b =>
    obtain ⟨hn, hq, hl, hnf⟩ := h
    have h2 := hf b hq w₁
    simp only [M.unwind]
    rcases hr2 : f b w₁ with ⟨r2, w₂⟩
    rw [hr2] at h2
    simp only at hn
    cases r2 with
    | ok c =>
      obtain ⟨hn2, hq2, hl2, hnf2⟩ := h2
      simp only at hn2
      refine ⟨by simp only; omega, hq2, by rw [hl2, hl]; simp only; omega, ?_⟩
      rw [Faulty.comp hn hn2]; rintro (h | h)
      · exact hnf h
      · exact hnf2 h
    | threw e =>
      obtain ⟨hn2, hl2, hfa, hnfa⟩ := h2
      simp only at hn2
      refine ⟨by simp only; omega, by simp only; rw [hl2, hl, hk b hq]; omega, ?_, ?_⟩
      · intro he; obtain ⟨n, a, c, e⟩ := hfa he; exact ⟨n, by omega, c, e⟩
      · intro he; obtain ⟨h1, h2⟩ := hnfa he
        refine ⟨h1, ?_⟩
        rintro ⟨n, a, c, e⟩
        by_cases hc : n < w₁.n
        · exact hnf ⟨n, a, hc, e⟩
        · exact h2 ⟨n, by omega, c, e⟩
    | terminate => exact h2.2.elim
  | threw e =>
    obtain ⟨hn, hl, hfa, hnfa⟩ := h
    exact ⟨hn, hl, hfa, hnfa⟩
  | terminate => exact h.2.elim

theorem unwind_zero (m : M β) : m.unwind 0 = m := by
  funext w; simp only [M.unwind]
  rcases m w with ⟨r, w'⟩
  cases r <;> simp

theorem Acct.weaken {o : Oracle} {m : M β} {Q Q' : β → Prop} {d d' : β → Int} {E E' : Exn → Prop}
    (hm : Acct o m Q d E) (hq : ∀ b, Q b → Q' b ∧ d' b = d b) (he : ∀ e, E e → E' e) : Acct o m Q' d' E' := by
  intro w
  have hw := hm w
  rcases hr : m w with ⟨r, w₁⟩
  rw [hr] at hw
  cases r with
  | ok b => obtain ⟨hn, h1, hl, hnf⟩ := hw; exact ⟨hn, (hq b h1).1, by rw [hl, (hq b h1).2], hnf⟩
  | threw e => obtain ⟨hn, hl, h1, h2⟩ := hw; exact ⟨hn, hl, h1, fun h => ⟨he e (h2 h).1, (h2 h).2⟩⟩
  | terminate => exact hw

theorem Acct.bind0 {o : Oracle} {m : M β} {f : β → M γ} {Q : β → Prop} {E : Exn → Prop} {Q' : γ → Prop} {d' : γ → Int}
    (hm : Acct o m Q (fun _ => 0) E) (hf : ∀ b, Q b → Acct o (f b) Q' d' E) : Acct o (m.andThen f) Q' d' E := by
  have := Acct.bind (k := fun _ => 0) (Q' := Q') (d' := d') hm (fun _ _ => rfl)
    (fun b hb => (hf b hb).weaken (fun _ h => ⟨h, by omega⟩) (fun _ h => h))
  simpa only [unwind_zero] using this

theorem Acct.map {o : Oracle} {m : M β} {f : β → γ} {Q : β → Prop} {d : β → Int} {E : Exn → Prop} {Q' : γ → Prop} {d' : γ → Int}
    (hm : Acct o m Q d E) (h : ∀ b, Q b → Q' (f b) ∧ d' (f b) = d b) : Acct o (m.andThen fun b => M.done (f b)) Q' d' E := by
  intro w
  have hw := hm w
  simp only [M.andThen]
  rcases hr : m w with ⟨r, w₁⟩
  rw [hr] at hw
  cases r with
  | ok b => obtain ⟨hn, hq, hl, hnf⟩ := hw; exact ⟨hn, (h b hq).1, by rw [(h b hq).2]; exact hl, hnf⟩
  | threw e => exact hw
  | terminate => exact hw

theorem build_acct (o : Oracle) (E : Exn → Prop) : ∀ k, Acct o (build o k) (fun _ => True) (fun _ => k) E
  | 0 => (Acct.done (Q := fun _ => True) trivial).weaken (fun _ _ => ⟨trivial, rfl⟩) (fun _ h => h)
  | k + 1 => by
    refine Acct.bind0 (Acct.act o E) fun _ _ => ?_
    refine Acct.bind (Acct.born o 1 E) (fun _ => 1) (fun _ _ => rfl) fun _ _ => ?_
    exact (build_acct o E k).weaken (fun _ _ => ⟨trivial, by omega⟩) (fun _ h => h)

theorem assignN_acct (o : Oracle) (E : Exn → Prop) : ∀ k, Acct o (assignN o k) (fun _ => True) (fun _ => 0) E
  | 0 => Acct.done trivial
  | k + 1 => Acct.bind0 (Acct.act o E) fun _ _ => assignN_acct o E k

theorem transfer_acct (o : Oracle) (v : Vec) (E : Exn → Prop) (k : Nat) : Acct o (transfer o v k) (fun _ => True) (fun _ => 0) E := by
  simp only [transfer]
  cases v.nothrowMove with
  | true => exact Acct.done trivial
  | false =>
    intro w
    have h := build_acct o E k w
    simp only [M.andThen]
    rcases hr : build o k w with ⟨r, w₁⟩
    rw [hr] at h
    cases r with
    | ok b =>
      obtain ⟨hn, _, hl, hnf⟩ := h
      refine ⟨hn, trivial, by simp only; rw [hl]; simp only; omega, ?_⟩
      rintro ⟨n, a, c, e⟩; exact hnf ⟨n, a, c, e⟩
    | threw e => exact h
    | terminate => exact h

theorem vecResize_acct (o : Oracle) (v : Vec) (env : Env α) (cap : Nat) (a : FA α) (k : Nat) (E : Exn → Prop) :
    Acct o (vecResize o v env cap a k) (fun b => b = setSize env .dynamic a k) (fun _ => (k : Int) - a.data.length) E := by
  simp only [vecResize]
  split
  · exact (Acct.born o _ E).map fun _ _ => ⟨rfl, by omega⟩
  · split
    · exact (build_acct o E _).map fun _ _ => ⟨rfl, by omega⟩
    · refine Acct.bind0 (Acct.act o E) fun _ _ => ?_
      have e : ∀ (t : M Unit) (j : Int), ((t.unwind j).andThen fun _ => M.done (setSize env .dynamic a k)) =
          (t.andThen fun _ => M.done (setSize env .dynamic a k)).unwind j := by
        intro t j; funext w
        simp only [M.andThen, M.unwind]
        rcases t w with ⟨r, w'⟩
        cases r <;> rfl
      simp only [e]
      refine Acct.bind (build_acct o E (k - a.data.length)) (fun _ => ((k - a.data.length : Nat) : Int)) (fun _ _ => rfl) fun _ _ => ?_
      exact (transfer_acct o v E a.data.length).map fun _ _ => ⟨rfl, by omega⟩

theorem pushAll_acct (o : Oracle) (v : Vec) (E : Exn → Prop) : ∀ (xs : List α) (cap len : Nat),
    Acct o (pushAll o v cap len xs) (fun _ => True) (fun _ => xs.length) E
  | [], _, _ => (Acct.done (Q := fun _ => True) trivial).weaken (fun _ _ => ⟨trivial, rfl⟩) (fun _ h => h)
  | x :: xs, cap, len => by
    simp only [pushAll]
    refine Acct.bind0 (Acct.act o E) fun _ _ => ?_
    split
    · refine Acct.bind0 (Acct.act o E) fun _ _ => ?_
      refine Acct.bind (Acct.born o 1 E) (fun _ => 1) (fun _ _ => rfl) fun _ _ => ?_
      exact (pushAll_acct o v E xs cap (len + 1)).weaken (fun _ _ => ⟨trivial, by simp⟩) (fun _ h => h)
    · refine Acct.bind0 (Acct.act o E) fun _ _ => ?_
      refine Acct.bind0 (Acct.act o E) fun _ _ => ?_
      refine Acct.bind (Acct.born o 1 E) (fun _ => 1) (fun _ _ => rfl) fun _ _ => ?_
      refine Acct.bind0 (transfer_acct o v E len) fun _ _ => ?_
      exact (pushAll_acct o v E xs (v.grow cap) (len + 1)).weaken (fun _ _ => ⟨trivial, by simp⟩) (fun _ h => h)

theorem members_acct (o : Oracle) (env : Env α) (m : Mode) (E : Exn → Prop) :
    Acct o (members o env m) (fun a => a = dflt env m) (fun a => a.data.length) E := by
  cases m with
  | static n => exact (build_acct o E n).map fun _ _ => ⟨rfl, by simp [dflt]⟩
  | limited n => exact (build_acct o E n).map fun _ _ => ⟨rfl, by simp [dflt]⟩
  | dynamic => exact (Acct.done (Q := fun a => a = dflt env .dynamic) rfl).weaken (fun b hb => ⟨hb, by rw [hb]; rfl⟩) (fun _ h => h)

theorem reports_of_acct {o : Oracle} {m : M (FA α)} {pure : Except Err (FA α)}
    (h : Acct o m (fun a => pure = .ok a) (fun a => a.data.length) (fun e => e = .length ∧ pure = .error .lengthError)) (w : World) :
    Reports o pure w (m w) := by
  have hw := h w
  rcases hr : m w with ⟨r, w₁⟩
  rw [hr] at hw
  cases r with
  | ok b => exact hw.2
  | threw e =>
    obtain ⟨_, hl, h1, h2⟩ := hw
    cases e with
    | fault => exact ⟨hl, h1 rfl⟩
    | length => have := h2 (by simp); exact ⟨this.1.2, hl, this.2⟩
    | invalid => have := h2 (by simp); exact absurd this.1.1 (by simp)
  | terminate => exact hw.2.elim

theorem dies_of_acct {o : Oracle} {m : M (FA α)} {pure : FA α}
    (h : Acct o m (fun a => a = pure) (fun a => a.data.length) (fun _ => False)) (w : World) :
    Dies o pure w (m.noexc w) := by
  have hw := h w
  simp only [M.noexc]
  rcases hr : m w with ⟨r, w₁⟩
  rw [hr] at hw
  cases r with
  | ok b => exact hw.2
  | threw e =>
    obtain ⟨_, hl, h1, h2⟩ := hw
    by_cases he : e = .fault
    · exact h1 he
    · exact (h2 he).1.elim
  | terminate => exact hw.2.elim

/-! ### C92 -/

/-- **C92.** The constructor from an initializer list, in every mode and whatever throws: it makes the array, or reports the exception
and leaves no element alive. -/
theorem init_reports (o : Oracle) (v : Vec) (env : Env α) (m : Mode) (xs : List α) (w : World) :
    Reports o (ofInit env m xs) w (ofInitM o v env m xs w) := by
  refine reports_of_acct ?_ w
  refine Acct.bind (members_acct o env m _) (fun a => a.data.length) (fun _ _ => rfl) fun a ha => ?_
  subst ha
  cases ht : m.tooMany xs.length with
  | true => exact Acct.raise (by simp) ⟨rfl, by simp [ofInit, ht]⟩
  | false =>
    cases m with
    | static n =>
      simp only
      by_cases hx : xs.length ≠ n
      · rw [if_pos hx]; exact Acct.raise (by simp) ⟨rfl, by simp [ofInit, ht, hx]⟩
      · rw [if_neg hx]
        refine (assignN_acct o _ _).map fun _ _ => ⟨by simp [ofInit, ht, hx], ?_⟩
        simp [overwrite_length]
    | limited n =>
      refine (assignN_acct o _ _).map fun _ _ => ⟨by simp [ofInit, ht], ?_⟩
      simp [overwrite_length, setSize]
    | dynamic =>
      refine Acct.bind (vecResize_acct o v env 0 _ _ _) (fun _ => (xs.length : Int) - (dflt env Mode.dynamic).data.length)
        (fun _ _ => by simp [dflt]) fun b hb => ?_
      subst hb
      refine (assignN_acct o _ _).map fun _ _ => ⟨by simp [ofInit, ht], ?_⟩
      simp [overwrite_length, setSize, dflt]

theorem fillM_acct (o : Oracle) (check : Bool) (max : Nat) : ∀ (xs : List α) (cs : List (Option α)) (ix : Nat),
    Acct o (fillM o check max cs ix xs) (fun r => fill check max cs ix xs = .ok r) (fun _ => 0)
      (fun e => e = .length ∧ fill check max cs ix xs = .error .lengthError)
  | [], cs, ix => Acct.done rfl
  | x :: xs, cs, ix => by
    simp only [fillM, fill]
    split
    · exact Acct.raise (by simp) ⟨rfl, rfl⟩
    · refine Acct.bind0 (Acct.act o _) fun _ _ => ?_
      refine Acct.bind0 (Acct.act o _) fun _ _ => ?_
      exact fillM_acct o check max xs _ _

/-- **C92.** The constructor from a range, for all kinds of iterators and in every mode, also if reading the iterators throws. -/
theorem range_reports (o : Oracle) (v : Vec) (env : Env α) (m : Mode) (ra : Bool) (xs : List α) (w : World) :
    Reports o (ofRange env m ra xs) w (ofRangeM o v env m ra xs w) := by
  refine reports_of_acct ?_ w
  refine Acct.bind (members_acct o env m _) (fun a => a.data.length) (fun _ _ => rfl) fun a ha => ?_
  subst ha
  cases m with
  | dynamic =>
    exact (pushAll_acct o v _ xs 0 _).map fun _ _ => ⟨rfl, by simp [dflt]⟩
  | static n =>
    simp only
    by_cases hc : ra = true ∧ n < xs.length
    · rw [if_pos hc]; exact Acct.raise (by simp) ⟨rfl, by simp [ofRange, hc]⟩
    · rw [if_neg hc]
      refine Acct.map ((fillM_acct o (!ra) n xs (dflt env (.static n)).data 0).weaken (fun r hr => ⟨hr, rfl⟩) fun e he => ⟨he.1, ?_⟩) ?_
      · simp [ofRange, hc, he.2]
      · intro r hr
        obtain ⟨cs, ix⟩ := r
        refine ⟨by simp [ofRange, hc, hr], ?_⟩
        have := (fill_ok hr).1; simp only at this; simp [this]
  | limited k =>
    simp only
    by_cases hc : ra = true ∧ k < xs.length
    · rw [if_pos hc]; exact Acct.raise (by simp) ⟨rfl, by simp [ofRange, hc]⟩
    · rw [if_neg hc]
      refine Acct.map ((fillM_acct o (!ra) k xs (dflt env (.limited k)).data 0).weaken (fun r hr => ⟨hr, rfl⟩) fun e he => ⟨he.1, ?_⟩) ?_
      · simp [ofRange, hc, he.2]
      · intro r hr
        obtain ⟨cs, ix⟩ := r
        refine ⟨by simp [ofRange, hc, hr], ?_⟩
        have := (fill_ok hr).1; simp only at this; simp [this]

/-- **C92.** The conversion to a static extent. -/
theorem toStatic_reports (o : Oracle) (env : Env α) (n : Nat) (other : FA α) (w : World) :
    Reports o (toStatic env n other) w (toStaticM o env n other w) := by
  refine reports_of_acct ?_ w
  refine Acct.bind (members_acct o env (.static n) _) (fun a => a.data.length) (fun _ _ => rfl) fun a ha => ?_
  subst ha
  by_cases hc : other.size ≠ n
  · rw [if_pos hc]; exact Acct.raise (by simp) ⟨rfl, by simp [toStatic, hc]⟩
  · rw [if_neg hc]
    refine (assignN_acct o _ _).map fun _ _ => ⟨by simp [toStatic, hc], ?_⟩
    simp [overwriteCells_length]

/-- **C92.** `resize` of an array with dynamic extent: it returns the resized array, or it throws and nothing has changed: no element came
to life or died. It throws `invalid_argument` only as the model without exceptions does, and something else only if a vector grows. -/
theorem resize_reports (o : Oracle) (v : Vec) (env : Env α) (m : Mode) (hm : ∀ n, m ≠ .static n) (cap : Nat) (a : FA α) (hw : Wf m a)
    (k : Nat) :
    ∃ f g, resizeM o v env m cap a k = some f ∧ resize env m a k = some g ∧ ∀ w, match f w with
      | (.ok b, w') => g = .ok b ∧ w'.live - b.data.length = w.live - a.data.length ∧ ¬ Faulty o w w'
      | (.threw .fault, w') => w'.live = w.live ∧ Faulty o w w' ∧ m = .dynamic ∧ a.size < k
      | (.threw .invalid, w') => g = .error .invalidArgument ∧ w' = w
      | _ => False := by
  cases m with
  | static n => exact absurd rfl (hm n)
  | limited max =>
    refine ⟨_, _, rfl, rfl, fun w => ?_⟩
    by_cases h : max < k
    · simp [h, M.raise]
    · rw [if_neg h, if_neg h]
      exact ⟨rfl, by simp [setSize], not_faulty_same (Nat.le_refl _)⟩
  | dynamic =>
    refine ⟨_, _, rfl, rfl, fun w => ?_⟩
    simp only [Wf] at hw
    have h := vecResize_acct o v env cap a k (fun _ => False) w
    rcases hr : vecResize o v env cap a k w with ⟨r, w₁⟩
    rw [hr] at h
    cases r with
    | ok b =>
      obtain ⟨_, rfl, hl, hnf⟩ := h
      refine ⟨rfl, ?_, hnf⟩
      simp only [setSize, List.length_append, List.length_take, List.length_replicate]
      simp only at hl
      omega
    | threw e =>
      obtain ⟨_, hl, h1, h2⟩ := h
      cases e with
      | fault =>
        refine ⟨hl, h1 rfl, rfl, ?_⟩
        refine Classical.byContradiction fun hk => ?_
        have : k ≤ a.data.length := by omega
        simp [vecResize, this, M.andThen, M.born, M.done] at hr
      | length => exact (h2 (by simp)).1.elim
      | invalid => exact (h2 (by simp)).1.elim
    | terminate => exact h.2.elim

example : Wf (α := Nat) .dynamic ⟨2, [some 1, some 2]⟩ ∧ ∀ n, Mode.dynamic ≠ .static n := ⟨rfl, by simp⟩

/-- **C92.** The default constructor ends the program exactly if an element throws when it is default constructed; in the modes
with an upper limit all `max_size()` elements are. -/
theorem dflt_dies (o : Oracle) (env : Env α) (m : Mode) (w : World) : Dies o (dflt env m) w (dfltM o env m w) :=
  dies_of_acct (members_acct o env m _) w

/-- **C92.** The conversion to a dynamic extent ends the program exactly if an element or an allocation throws. -/
theorem ofStatic_dies (o : Oracle) (v : Vec) (env : Env α) (m : Mode) (other : FA α) :
    (ofStatic env m other = none ∧ ofStaticM o v env m other = none) ∨
    ∃ a f, ofStatic env m other = some a ∧ ofStaticM o v env m other = some f ∧ ∀ w, Dies o a w (f w) := by
  cases m with
  | static n => exact .inl ⟨rfl, rfl⟩
  | limited k =>
    by_cases h : other.size ≤ k
    · refine .inr ⟨_, _, by simp [ofStatic, h]; rfl, by simp [ofStaticM, h]; rfl, fun w => ?_⟩
      refine dies_of_acct ?_ w
      refine Acct.bind (members_acct o env (.limited k) _) (fun a => a.data.length) (fun _ _ => rfl) fun a ha => ?_
      subst ha
      refine (assignN_acct o _ _).map fun _ _ => ⟨rfl, ?_⟩
      simp [overwriteCells_length, setSize]
    · exact .inl ⟨by simp [ofStatic, h], by simp [ofStaticM, h]⟩
  | dynamic =>
    refine .inr ⟨_, _, rfl, rfl, fun w => ?_⟩
    refine dies_of_acct ?_ w
    refine Acct.bind (members_acct o env .dynamic _) (fun a => a.data.length) (fun _ _ => rfl) fun a ha => ?_
    subst ha
    refine Acct.bind (vecResize_acct o v env 0 _ _ _) (fun _ => (other.size : Int) - (dflt env Mode.dynamic).data.length)
      (fun _ _ => by simp [dflt]) fun b hb => ?_
    subst hb
    refine (assignN_acct o _ _).map fun _ _ => ⟨rfl, ?_⟩
    simp [overwriteCells_length, setSize, dflt]

/-- **C92.** So does the copy constructor. -/
theorem copy_dies (o : Oracle) (m : Mode) (a : FA α) (w : World) : Dies o a w (copyM o m a w) := by
  refine dies_of_acct ?_ w
  cases m with
  | dynamic => exact Acct.bind0 (Acct.act o _) fun _ _ => (build_acct o _ _).map fun _ _ => ⟨rfl, by simp⟩
  | static n => exact (build_acct o _ _).map fun _ _ => ⟨rfl, by simp⟩
  | limited n => exact (build_acct o _ _).map fun _ _ => ⟨rfl, by simp⟩

/-- **C92, refuted.** "Whatever throws is reported to the caller" is false for default construction, copies, and conversion to a dynamic
extent. -/
theorem reported_refuted :
    (dfltM (fun _ => true) (⟨some 0, 0⟩ : Env Nat) (.limited 2) ⟨0, 0⟩).1 = .terminate ∧
    (copyM (fun _ => true) .dynamic (⟨1, [some 5]⟩ : FA Nat) ⟨0, 0⟩).1 = .terminate ∧
    (ofStaticM (fun _ => true) ⟨true, fun c => 2 * c + 1⟩ (⟨some 0, 0⟩ : Env Nat) .dynamic ⟨1, [some 5]⟩).map (fun f => (f ⟨0, 0⟩).1) =
      some .terminate := ⟨rfl, rfl, rfl⟩

/-- The exception of an element in the middle of an initializer list: the three elements of the array are destroyed. -/
example : ofInitM (fun n => n = 4) ⟨true, fun c => 2 * c + 1⟩ ⟨some 0, 0⟩ (.limited 3) [7, 8] ⟨0, 0⟩ = (.threw .fault, ⟨5, 0⟩) := rfl

/-- Running out of memory while converting from a static to a dynamic extent. -/
example : (ofStaticM (fun n => n = 0) ⟨true, fun c => 2 * c + 1⟩ ⟨some 0, 0⟩ .dynamic ⟨1, [some 5]⟩).map (fun f => (f ⟨0, 1⟩).1) =
    some Out.terminate := rfl

end Verif.FlexArray
