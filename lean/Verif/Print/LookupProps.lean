import Verif.Print.LookupModel

/-!
C104: which function `stream << value` means, and what reaches a wide stream.
-/
namespace Verif.Print.Lookup

variable {τ : Type}

/-! ### Specification -/

/-- A namespace around (or equal to) `use`, other than the global one, has an `operator<<`. -/
def Hidden (p : Prog τ) (use : Ns) : Prop := ∃ n, n <:+ use ∧ n ≠ [] ∧ ∃ d ∈ p.decls, d.ns = n

/-- The value can be streamed without the library: by a member of the stream, a function in `std`, or a function of a
namespace associated with its type. -/
def Streamable (p : Prog τ) (c : Ch) (t : τ) : Prop :=
  p.builtin c t = true ∨ ∃ d ∈ p.decls, d.ns ∈ p.assoc t ∧ d.accepts c t = true

/-- Declarations before the inclusion of the header that `is_ostreamable` finds by unqualified lookup: those of the innermost of
`dice::template_library`, `dice` and the global namespace that has any (namespaces are written innermost first). -/
def EarlyFound (p : Prog τ) (c : Ch) (t : τ) : Prop :=
  ∃ d ∈ p.decls, d.early = true ∧ d.accepts c t = true ∧ d.ns <:+ ["template_library", "dice"] ∧
    ∀ e ∈ p.decls, e.early = true → e.ns <:+ ["template_library", "dice"] → e.ns <:+ d.ns

/-! ### Lemmas -/

theorem mem_outward {m l : Ns} : m ∈ outward l ↔ m <:+ l := by
  induction l with
  | nil => simp [outward]
  | cons a l ih => simp [outward, ih, List.suffix_cons_iff]

theorem find_tails (P : Ns → Bool) : ∀ (l : Ns) (n : Ns), (outward l).find? P = some n ↔
    n <:+ l ∧ P n = true ∧ ∀ m, m <:+ l → P m = true → m <:+ n := by
  intro l
  induction l with
  | nil =>
    intro n
    by_cases h : P [] = true
    · simp [outward, h]
      rintro rfl; exact h
    · simp [outward, h]
      rintro rfl; simpa using h
  | cons a l ih =>
    intro n
    rw [outward, List.find?_cons]
    by_cases h : P (a :: l) = true
    · rw [h]
      simp only [Option.some.injEq]
      constructor
      · rintro rfl
        exact ⟨List.suffix_refl _, h, fun m hm _ => hm⟩
      · rintro ⟨h1, _, h3⟩
        exact (List.IsSuffix.eq_of_length (h3 _ (List.suffix_refl _) h)
          (Nat.le_antisymm (List.IsSuffix.length_le (h3 _ (List.suffix_refl _) h)) h1.length_le))
    · simp only [Bool.not_eq_true] at h
      rw [h]
      simp only [ih n]
      constructor
      · rintro ⟨h1, h2, h3⟩
        refine ⟨h1.trans (List.suffix_cons a l), h2, fun m hm hp => ?_⟩
        rcases List.suffix_cons_iff.1 hm with rfl | hm
        · rw [h] at hp; cases hp
        · exact h3 m hm hp
      · rintro ⟨h1, h2, h3⟩
        rcases List.suffix_cons_iff.1 h1 with rfl | h1
        · rw [h] at h2; cases h2
        · exact ⟨h1, h2, fun m hm hp => h3 m (hm.trans (List.suffix_cons a l)) hp⟩

theorem find_tails_none (P : Ns → Bool) (l : Ns) (h : (outward l).find? P = none) : ∀ m, m <:+ l → P m = false := by
  intro m hm
  have := List.find?_eq_none.1 h m (mem_outward.2 hm)
  simpa using this

/-- What unqualified lookup finds. -/
theorem mem_unqualified {β : Type} (ds : List (Ns × β)) (use : Ns) (b : β) :
    b ∈ unqualified ds use ↔ ∃ n, n <:+ use ∧ (n, b) ∈ ds ∧ ∀ e ∈ ds, e.1 <:+ use → e.1 <:+ n := by
  unfold unqualified
  cases hf : (outward use).find? (fun n => ds.any fun d => decide (d.1 = n)) with
  | none =>
    constructor
    · intro h; cases h
    · rintro ⟨n, hn, hm, _⟩
      have := find_tails_none _ _ hf n hn
      have h2 : (ds.any fun d => decide (d.1 = n)) = true := List.any_eq_true.2 ⟨(n, b), hm, by simp⟩
      rw [this] at h2; cases h2
  | some n =>
    obtain ⟨h1, h2, h3⟩ := (find_tails _ _ _).1 hf
    have key : ∀ e ∈ ds, e.1 <:+ use → e.1 <:+ n := fun e he hs =>
      h3 e.1 hs (List.any_eq_true.2 ⟨e, he, by simp⟩)
    constructor
    · intro h
      obtain ⟨⟨m, b'⟩, hm, rfl⟩ := List.mem_map.1 h
      have hm' := List.mem_filter.1 hm
      have : m = n := by simpa using hm'.2
      subst this
      exact ⟨m, h1, hm'.1, key⟩
    · rintro ⟨m, hm1, hm2, hm3⟩
      obtain ⟨d, hd, hd'⟩ := List.any_eq_true.1 h2
      have hdn : d.1 = n := by simpa using hd'
      have a1 := key (m, b) hm2 hm1
      have a2 := hm3 d hd (by rw [hdn]; exact h1)
      rw [hdn] at a2
      have : m = n := List.IsSuffix.eq_of_length a1 (Nat.le_antisymm a1.length_le a2.length_le)
      subst this
      exact List.mem_map.2 ⟨(m, b), List.mem_filter.2 ⟨hm2, by simp⟩, rfl⟩

theorem mem_adl {β : Type} (ds : List (Ns × β)) (assoc : List Ns) (b : β) :
    b ∈ adl ds assoc ↔ ∃ n ∈ assoc, (n, b) ∈ ds := by
  unfold adl
  constructor
  · intro h
    obtain ⟨⟨n, b'⟩, hm, rfl⟩ := List.mem_map.1 h
    have := List.mem_filter.1 hm
    exact ⟨n, by simpa using this.2, this.1⟩
  · rintro ⟨n, hn, hm⟩
    exact List.mem_map.2 ⟨(n, b), List.mem_filter.2 ⟨hm, by simpa using hn⟩, rfl⟩

theorem mem_own (p : Prog τ) (n : Ns) (d : Decl τ) : (n, d) ∈ p.own ↔ d ∈ p.decls ∧ d.ns = n := by
  unfold Prog.own
  constructor
  · intro h
    obtain ⟨e, he, h⟩ := List.mem_map.1 h
    cases h; exact ⟨he, rfl⟩
  · rintro ⟨h, rfl⟩
    exact List.mem_map.2 ⟨d, h, rfl⟩

theorem mem_all_user (p : Prog τ) (n : Ns) (d : Decl τ) : (n, Cand.user d) ∈ p.all ↔ d ∈ p.decls ∧ d.ns = n := by
  unfold Prog.all
  constructor
  · intro h
    rcases List.mem_cons.1 h with h | h
    · cases h
    · obtain ⟨e, he, h⟩ := List.mem_map.1 h
      cases h; exact ⟨he, rfl⟩
  · rintro ⟨h, rfl⟩
    exact List.mem_cons_of_mem _ (List.mem_map.2 ⟨d, h, rfl⟩)

theorem mem_all_lib (p : Prog τ) (n : Ns) : (n, Cand.lib) ∈ p.all ↔ n = [] := by
  unfold Prog.all
  constructor
  · intro h
    rcases List.mem_cons.1 h with h | h
    · cases h; rfl
    · obtain ⟨e, he, h⟩ := List.mem_map.1 h
      cases h
  · rintro rfl; exact List.mem_cons_self

theorem not_mem_all_builtin (p : Prog τ) (n : Ns) : (n, Cand.builtin) ∉ p.all := by
  unfold Prog.all
  intro h
  rcases List.mem_cons.1 h with h | h
  · cases h
  · obtain ⟨e, he, h⟩ := List.mem_map.1 h
    cases h

/-- The library's function is found by unqualified lookup exactly where it is not hidden. -/
theorem lib_found (p : Prog τ) (use : Ns) : Cand.lib ∈ unqualified p.all use ↔ ¬ Hidden p use := by
  rw [mem_unqualified]
  constructor
  · rintro ⟨n, _, hm, hx⟩ ⟨m, h1, h2, d, hd, h3⟩
    rw [mem_all_lib] at hm
    subst hm
    have := hx (m, .user d) ((mem_all_user p m d).2 ⟨hd, h3⟩) h1
    exact h2 (List.suffix_nil.1 this)
  · intro h
    refine ⟨[], List.nil_suffix, (mem_all_lib p []).2 rfl, ?_⟩
    rintro ⟨m, b⟩ he hs
    cases b with
    | lib => rw [mem_all_lib] at he; subst he; exact List.suffix_refl _
    | builtin => exact absurd he (not_mem_all_builtin p m)
    | user d =>
      rw [mem_all_user] at he
      by_cases hm : m = []
      · subst hm; exact List.suffix_refl _
      · exact absurd ⟨m, hs, hm, d, he.1, he.2⟩ h

/-! ### C104 -/

/-- **C104.** `is_ostreamable` holds exactly for the values that can be streamed without the library by everyone, or by an
overload declared before the header that is visible from the library's namespace. -/
theorem ostreamable_iff (p : Prog τ) (c : Ch) (t : τ) :
    p.ostreamable c t = true ↔ Streamable p c t ∨ EarlyFound p c t := by
  unfold Prog.ostreamable Streamable EarlyFound
  rw [Bool.or_eq_true, List.any_eq_true]
  simp only [List.mem_append]
  constructor
  · rintro (h | ⟨d, h | h, ha⟩)
    · exact .inl (.inl h)
    · obtain ⟨n, h1, h2, h3⟩ := (mem_unqualified _ _ _).1 h
      obtain ⟨h2, he⟩ := List.mem_filter.1 h2
      obtain ⟨hd, rfl⟩ := (mem_own p n d).1 h2
      refine .inr ⟨d, hd, he, ha, h1, fun e hed hee hes => ?_⟩
      exact h3 (e.ns, e) (List.mem_filter.2 ⟨(mem_own p _ e).2 ⟨hed, rfl⟩, hee⟩) hes
    · obtain ⟨n, h1, h2⟩ := (mem_adl _ _ _).1 h
      obtain ⟨hd, rfl⟩ := (mem_own p n d).1 h2
      exact .inl (.inr ⟨d, hd, h1, ha⟩)
  · rintro ((h | ⟨d, hd, h1, ha⟩) | ⟨d, hd, he, ha, hs, hx⟩)
    · exact .inl h
    · exact .inr ⟨d, .inr ((mem_adl _ _ _).2 ⟨d.ns, h1, (mem_own p _ d).2 ⟨hd, rfl⟩⟩), ha⟩
    · refine .inr ⟨d, .inl ((mem_unqualified _ _ _).2 ⟨d.ns, hs, List.mem_filter.2 ⟨(mem_own p _ d).2 ⟨hd, rfl⟩, he⟩, ?_⟩), ha⟩
      rintro ⟨n, e⟩ hm hes
      obtain ⟨hm, hee⟩ := List.mem_filter.1 hm
      obtain ⟨hed, rfl⟩ := (mem_own p n e).1 hm
      exact hx e hed hee hes

/-- **C104.** Where and for which values the library's `operator<<` is viable: those with a formatter for the stream's
character type that could not be streamed otherwise, in places where no namespace around declares an `operator<<`, or if
the global namespace is associated with the type. -/
theorem lib_viable_iff (p : Prog τ) (use : Ns) (c : Ch) (t : τ) :
    Cand.lib ∈ p.viable use c t ↔
      p.formattable c t = true ∧ ¬ Streamable p c t ∧ ¬ EarlyFound p c t ∧ (¬ Hidden p use ∨ [] ∈ p.assoc t) := by
  have hv : (Cand.lib : Cand τ).viable p c t = true ↔
      p.formattable c t = true ∧ ¬ Streamable p c t ∧ ¬ EarlyFound p c t := by
    have ho := ostreamable_iff p c t
    simp only [Cand.viable, Prog.libViable, Bool.and_eq_true, Bool.not_eq_true']
    constructor
    · rintro ⟨h1, h2⟩
      rw [h2] at ho
      simp only [Bool.false_eq_true, false_iff, not_or] at ho
      exact ⟨h1, ho.1, ho.2⟩
    · rintro ⟨h1, h2, h3⟩
      refine ⟨h1, ?_⟩
      cases h : p.ostreamable c t with
      | false => rfl
      | true => rcases ho.1 h with h | h <;> contradiction
  have hf : (Cand.lib : Cand τ) ∈ unqualified p.all use ++ adl p.all (p.assoc t) ↔ ¬ Hidden p use ∨ [] ∈ p.assoc t := by
    rw [List.mem_append, lib_found, mem_adl]
    constructor
    · rintro (h | ⟨n, h1, h2⟩)
      · exact .inl h
      · rw [mem_all_lib] at h2; subst h2; exact .inr h1
    · rintro (h | h)
      · exact .inl h
      · exact .inr ⟨[], h, (mem_all_lib p []).2 rfl⟩
  unfold Prog.viable
  rw [List.mem_filter, List.mem_cons, hf, hv]
  constructor
  · rintro ⟨h | h, h'⟩
    · cases h
    · exact ⟨h'.1, h'.2.1, h'.2.2, h⟩
  · rintro ⟨h1, h2, h3, h4⟩
    exact ⟨.inr h4, h1, h2, h3⟩

/-- **C104.** The library never competes with an overload that comes with the type or with the standard library: if one of
those takes the value, the library's function is not viable, wherever the expression is written. -/
theorem no_competition (p : Prog τ) (use : Ns) {c : Ch} {t : τ} (h : Streamable p c t) : Cand.lib ∉ p.viable use c t :=
  fun hl => ((lib_viable_iff p use c t).1 hl).2.1 h

/-- **C104.** Where the library's function is viable, the only other viable functions are overloads found by unqualified
lookup from that place, of namespaces that are not associated with the type. -/
theorem competitors (p : Prog τ) {use : Ns} {c : Ch} {t : τ} (h : Cand.lib ∈ p.viable use c t) :
    Cand.builtin ∉ p.viable use c t ∧
    ∀ d, Cand.user d ∈ p.viable use c t → d ∈ p.decls ∧ d.accepts c t = true ∧ d.ns <:+ use ∧ d.ns ∉ p.assoc t ∧
      ∀ e ∈ p.decls, e.ns <:+ use → e.ns <:+ d.ns := by
  obtain ⟨_, hs, _, _⟩ := (lib_viable_iff p use c t).1 h
  constructor
  · intro hb
    exact hs (.inl (List.mem_filter.1 hb).2)
  · intro d hd
    obtain ⟨hm, ha⟩ := List.mem_filter.1 hd
    have ha : d.accepts c t = true := ha
    rcases List.mem_cons.1 hm with hm | hm
    · cases hm
    · have hassoc : d ∈ p.decls → d.ns ∉ p.assoc t := fun hd' hn => hs (.inr ⟨d, hd', hn, ha⟩)
      rcases List.mem_append.1 hm with hm | hm
      · obtain ⟨n, h1, h2, h3⟩ := (mem_unqualified _ _ _).1 hm
        obtain ⟨hd', rfl⟩ := (mem_all_user p n d).1 h2
        exact ⟨hd', ha, h1, hassoc hd', fun e he hes => h3 (e.ns, .user e) ((mem_all_user p _ e).2 ⟨he, rfl⟩) hes⟩
      · obtain ⟨n, h1, h2⟩ := (mem_adl _ _ _).1 hm
        obtain ⟨hd', rfl⟩ := (mem_all_user p n d).1 h2
        exact absurd h1 (hassoc hd')

/-- A program: `app` has an `operator<<` of its own for type 1, and a nested namespace `app::detail`; type 0 is of `lib`,
type 2 of the global namespace; all can be formatted as `char`s, 0 and 2 also as `wchar_t`s. -/
def demo : Prog Nat where
  decls := [⟨["app"], fun c t => c = .narrow && t = 1, false⟩]
  assoc t := match t with
    | 0 => [["lib"]]
    | 1 => [["app"]]
    | _ => [[]]
  builtin _ _ := false
  formattable c t := c = .narrow || t ≠ 1

example : Cand.lib ∈ demo.viable [] .narrow 0 ∧ Cand.lib ∉ demo.viable ["app"] .narrow 1 := by
  constructor
  · rw [lib_viable_iff]
    refine ⟨rfl, ?_, ?_, .inl ?_⟩
    · rintro (h | ⟨d, hd, h, _⟩)
      · cases h
      · simp [demo] at hd; subst hd; simp [demo] at h
    · rintro ⟨d, hd, h, _⟩
      simp [demo] at hd; subst hd; cases h
    · rintro ⟨n, h1, h2, _⟩
      exact h2 (List.suffix_nil.1 h1)
  · exact no_competition demo ["app"] (.inr ⟨_, List.mem_cons_self, by simp [demo], rfl⟩)

/-- `operator<<` declared in the global namespace after the header, for a type of `lib`. -/
def rival : Prog Nat where
  decls := [⟨[], fun _ _ => true, false⟩]
  assoc _ := [["lib"]]
  builtin _ _ := false
  formattable _ _ := true

/-- **C104, refuted.** "The library's function is viable only if no other is": an overload for a type of another namespace,
declared in the global namespace after the header, competes with it. -/
theorem only_one_refuted : Cand.lib ∈ rival.viable [] .narrow 0 ∧ ∃ d, Cand.user d ∈ rival.viable [] .narrow 0 := by
  constructor
  · rw [lib_viable_iff]
    refine ⟨rfl, ?_, ?_, .inl ?_⟩
    · rintro (h | ⟨d, hd, h, _⟩)
      · cases h
      · simp [rival] at hd; subst hd; simp [rival] at h
    · rintro ⟨d, hd, h, _⟩
      simp [rival] at hd; subst hd; cases h
    · rintro ⟨n, h1, h2, _⟩
      exact h2 (List.suffix_nil.1 h1)
  · refine ⟨⟨[], fun _ _ => true, false⟩, List.mem_filter.2 ⟨?_, rfl⟩⟩
    refine List.mem_cons_of_mem _ (List.mem_append_left _ ((mem_unqualified _ _ _).2 ⟨[], List.suffix_refl _, ?_, ?_⟩))
    · exact (mem_all_user _ _ _).2 ⟨List.mem_cons_self, rfl⟩
    · intro e _ h; exact h

example : Cand.builtin ∉ rival.viable [] .narrow 0 := (competitors rival only_one_refuted.1).1

example : demo.ostreamable .narrow 1 = true :=
  (ostreamable_iff demo .narrow 1).2 (.inl (.inr ⟨_, List.mem_cons_self, by simp [demo], rfl⟩))

/-- **C104.** If only the library's function is viable in one place, then in every other place where its function is found
and no unassociated overload takes the value, it is the only one too: the meaning does not depend on the place. -/
theorem same_meaning (p : Prog τ) {use use' : Ns} {c : Ch} {t : τ} (h : Cand.lib ∈ p.viable use c t)
    (hf : ¬ Hidden p use' ∨ [] ∈ p.assoc t)
    (hu : ∀ d ∈ p.decls, d.ns <:+ use' → d.ns ∉ p.assoc t → d.accepts c t = false) :
    ∀ x, x ∈ p.viable use' c t ↔ x = .lib := by
  obtain ⟨h1, h2, h3, _⟩ := (lib_viable_iff p use c t).1 h
  have hl : Cand.lib ∈ p.viable use' c t := (lib_viable_iff p use' c t).2 ⟨h1, h2, h3, hf⟩
  obtain ⟨hb, hc⟩ := competitors p hl
  intro x
  constructor
  · intro hx
    cases x with
    | lib => rfl
    | builtin => exact absurd hx hb
    | user d =>
      obtain ⟨hd, ha, hs, hn, _⟩ := hc d hx
      rw [hu d hd hs hn] at ha; cases ha
  · rintro rfl; exact hl

/-- Type 2 of `demo` in `app`: the namespace has an `operator<<`, but the type is of the global namespace. -/
example : ∀ x, x ∈ demo.viable ["detail", "app"] .wide 2 ↔ x = .lib := by
  refine same_meaning demo (use := []) ((lib_viable_iff _ _ _ _).2 ⟨rfl, ?_, ?_, .inr (by simp [demo])⟩)
    (.inr (by simp [demo])) (by intro d hd _ _; simp [demo] at hd; subst hd; rfl)
  · rintro (h | ⟨d, hd, h, _⟩)
    · cases h
    · simp [demo] at hd; subst hd; simp [demo] at h
  · rintro ⟨d, hd, h, _⟩
    simp [demo] at hd; subst hd; cases h

/-- **C104, refuted.** "A value that can be formatted can be streamed everywhere": in a namespace that declares any
`operator<<`, and in the namespaces in it, nothing is viable for a type of another namespace. -/
theorem streamable_everywhere_refuted :
    Cand.lib ∈ demo.viable [] .narrow 0 ∧ ∀ x, x ∉ demo.viable ["detail", "app"] .narrow 0 := by
  have h0 : Cand.lib ∈ demo.viable [] .narrow 0 := by
    rw [lib_viable_iff]
    refine ⟨rfl, ?_, ?_, .inl ?_⟩
    · rintro (h | ⟨d, hd, h, _⟩)
      · cases h
      · simp [demo] at hd; subst hd; simp [demo] at h
    · rintro ⟨d, hd, h, _⟩
      simp [demo] at hd; subst hd; cases h
    · rintro ⟨n, h1, h2, _⟩
      exact h2 (List.suffix_nil.1 h1)
  refine ⟨h0, fun x hx => ?_⟩
  cases x with
  | builtin => cases (List.mem_filter.1 hx).2
  | lib =>
    obtain ⟨_, _, _, h | h⟩ := (lib_viable_iff _ _ _ _).1 hx
    · exact h ⟨["app"], by simp, by simp, _, List.mem_cons_self, rfl⟩
    · simp [demo] at h
  | user d =>
    have h1 := (List.mem_filter.1 hx)
    have h2 : d.accepts .narrow 0 = true := h1.2
    have h3 : d ∈ demo.decls := by
      rcases List.mem_cons.1 h1.1 with h | h
      · cases h
      · rcases List.mem_append.1 h with h | h
        · obtain ⟨n, _, h, _⟩ := (mem_unqualified _ _ _).1 h
          exact ((mem_all_user _ _ _).1 h).1
        · obtain ⟨n, _, h⟩ := (mem_adl _ _ _).1 h
          exact ((mem_all_user _ _ _).1 h).1
    simp [demo] at h3; subst h3; simp at h2

/-- **C104.** On a stream of `char`s the function writes the formatted text. On a stream of `wchar_t`s it writes one character
for each byte, with the byte's value for bytes below 128 and a negative value for all others. Without a formatter for
`char` it is ill-formed, whatever the stream. -/
theorem body_writes (p : Prog τ) (t : τ) (bytes : List Nat) :
    (p.formattable .narrow t = false → ∀ c, p.body c t bytes = none) ∧
    (p.formattable .narrow t = true → p.body .narrow t bytes = some (bytes.map fun (b : Nat) => (b : Int)) ∧
      ∃ out : List Int, p.body .wide t bytes = some out ∧ out.length = bytes.length ∧
        ∀ (i b : Nat), bytes[i]? = some b → b < 256 →
          ∃ v, out[i]? = some v ∧ (v = b ↔ b < 128) ∧ (v < 0 ↔ 128 ≤ b)) := by
  constructor
  · intro h c; simp [Prog.body, h]
  · intro h
    simp only [Prog.body, h, if_true]
    refine ⟨trivial, _, rfl, by simp, ?_⟩
    intro i b hb hlt
    rw [List.getElem?_map, hb]
    refine ⟨_, rfl, ?_, ?_⟩ <;> simp only <;> split <;> omega

example : demo.body .wide 0 [104, 105] = some [104, 105] := by decide

/-- **C104, refuted.** "A wide stream gets the formatted text": the text `é`, two bytes in UTF-8, becomes two negative
characters; and a type with a formatter for `wchar_t` only is accepted by the constraint, but the function's body is
ill-formed. -/
theorem wide_refuted :
    demo.body .wide 0 [195, 169] = some [-61, -87] ∧
    (⟨[], fun _ => [], fun _ _ => false, fun c _ => c = .wide⟩ : Prog Unit).libViable .wide () = true ∧
    ∀ bytes, (⟨[], fun _ => [], fun _ _ => false, fun c _ => c = .wide⟩ : Prog Unit).body .wide () bytes = none := by
  refine ⟨by decide, by decide, fun bytes => rfl⟩

end Verif.Print.Lookup
