import Verif.Traits.Model

/-!
# Do the type traits of the class templates tell the truth?
-/
namespace Verif.Traits

/-- A type is truthful if every operation that its traits report can be used. -/
def Truthful (t : Ty) : Prop := ∀ o, t.reports o = true → (t.cap o).works = true

/-- `std::is_trivially_copyable`: the destructor is trivial, of the copying and moving functions none that is available is not trivial, and there is one. -/
def TrivCopyable (t : Ty) : Prop :=
  t.trivDtor = true ∧ (∀ o ∈ [Op.copyC, .moveC, .copyA, .moveA], t.cap o = .no ∨ t.cap o = .trivial) ∧
  ∃ o ∈ [Op.copyC, .moveC, .copyA, .moveA], t.cap o = .trivial

/-! ### Types to try things with -/

/-- `int`, without an initial value. -/
def int : Ty := ⟨fun | .swp => .user | _ => .trivial, true⟩
/-- `std::string`. -/
def string : Ty := ⟨fun _ => .user, false⟩
/-- `std::unique_ptr`. -/
def uniquePtr : Ty := ⟨fun | .copyC => .no | .copyA => .no | _ => .user, false⟩
/-- A handle that can only be moved, trivially. -/
def handle : Ty := ⟨fun | .copyC => .no | .copyA => .no | .swp => .user | _ => .trivial, true⟩
/-- A class with a `const` member: it can be copied but not assigned. -/
def constMember : Ty := ⟨fun | .copyA => .no | .moveA => .no | .swp => .no | _ => .user, false⟩
/-- A class with a destructor that does something and nothing else written out. -/
def logger : Ty := ⟨fun | .swp => .user | _ => .trivial, false⟩

example : Truthful int ∧ Truthful string ∧ Truthful uniquePtr ∧ Truthful handle ∧ Truthful constMember ∧ Truthful logger := by
  refine ⟨?_, ?_, ?_, ?_, ?_, ?_⟩ <;> intro o <;> cases o <;> decide

/-! ### Lemmas -/

theorem reports_iff (t : Ty) (o : Op) : t.reports o = true ↔ t.cap o ≠ .no := by simp [Ty.reports]

theorem truthful_iff (t : Ty) : Truthful t ↔ ∀ o, t.cap o ≠ .lie := by
  unfold Truthful
  refine forall_congr' fun o => ?_
  rw [reports_iff]
  cases t.cap o <;> simp [Cap.works]

theorem weaker_no (a b : Cap) : Cap.weaker a b = .no ↔ a = .no ∨ b = .no := by cases a <;> cases b <;> simp [Cap.weaker]
theorem weaker_works (a b : Cap) : (Cap.weaker a b).works = true ↔ a.works = true ∧ b.works = true := by
  cases a <;> cases b <;> simp [Cap.weaker, Cap.works]
theorem weaker_trivial (a b : Cap) : Cap.weaker a b = .trivial ↔ a = .trivial ∧ b = .trivial := by
  cases a <;> cases b <;> simp [Cap.weaker]

theorem defaulted_no (rs : List Cap) : defaulted rs = .no ↔ .no ∈ rs := by
  induction rs with
  | nil => simp [defaulted]
  | cons a rs ih =>
    have : defaulted (a :: rs) = Cap.weaker a (defaulted rs) := rfl
    rw [this, weaker_no, ih, List.mem_cons, eq_comm]

theorem defaulted_works (rs : List Cap) : (defaulted rs).works = true ↔ ∀ r ∈ rs, r.works = true := by
  induction rs with
  | nil => simp [defaulted, Cap.works]
  | cons a rs ih =>
    have : defaulted (a :: rs) = Cap.weaker a (defaulted rs) := rfl
    rw [this, weaker_works, ih]; simp

theorem defaulted_trivial (rs : List Cap) : defaulted rs = .trivial ↔ ∀ r ∈ rs, r = .trivial := by
  induction rs with
  | nil => simp [defaulted]
  | cons a rs ih =>
    have : defaulted (a :: rs) = Cap.weaker a (defaulted rs) := rfl
    rw [this, weaker_trivial, ih]; simp

theorem honest {c : Cap} : c ≠ .lie ↔ (c ≠ .no → c.works = true) := by cases c <;> simp [Cap.works]

theorem defaulted_honest {rs : List Cap} (h : ∀ r ∈ rs, r ≠ .lie) : defaulted rs ≠ .lie := by
  rw [honest]
  intro hn
  rw [defaulted_works]
  intro r hr
  refine honest.1 (h r hr) fun e => hn ((defaulted_no rs).2 (e ▸ hr))

theorem constrained_no (rs : List Cap) : constrained rs = .no ↔ .no ∈ rs := by
  rw [constrained, weaker_no, defaulted_no]; simp

theorem constrained_works (rs : List Cap) : (constrained rs).works = true ↔ ∀ r ∈ rs, r.works = true := by
  rw [constrained, weaker_works, defaulted_works]; simp [Cap.works]

theorem constrained_honest {rs : List Cap} (h : ∀ r ∈ rs, r ≠ .lie) : constrained rs ≠ .lie := by
  have := defaulted_honest h
  revert this
  rw [constrained]
  cases defaulted rs <;> simp [Cap.weaker]

theorem constrained_trivial (rs : List Cap) : constrained rs ≠ .trivial := by
  rw [constrained]
  cases defaulted rs <;> simp [Cap.weaker]

theorem free_works (rs : List Cap) : (free rs).works = true ↔ ∀ r ∈ rs, r.works = true := by
  unfold free
  split <;> simp_all [Cap.works]

theorem free_ne_no (rs : List Cap) : free rs ≠ .no := by unfold free; split <;> simp
theorem free_ne_trivial (rs : List Cap) : free rs ≠ .trivial := by unfold free; split <;> simp
theorem free_lie (rs : List Cap) : free rs ≠ .lie ↔ ∀ r ∈ rs, r.works = true := by
  rw [← free_works]; unfold free; split <;> simp [Cap.works]

theorem orElse_honest {m c : Cap} (hm : m ≠ .lie) (hc : c ≠ .lie) : m.orElse c ≠ .lie := by
  unfold Cap.orElse; split <;> assumption

theorem orElse_no {m c : Cap} : m.orElse c = .no ↔ m = .no ∧ c = .no := by
  unfold Cap.orElse; split <;> simp_all

theorem orElse_works {m c : Cap} : (m.orElse c).works = true ↔ m.works = true ∨ (m = .no ∧ c.works = true) := by
  unfold Cap.orElse; cases m <;> simp [Cap.works]

theorem stdSwap_honest {a b : Cap} (ha : a ≠ .lie) (hb : b ≠ .lie) : stdSwap a b ≠ .lie :=
  constrained_honest (by intro r hr; simp at hr; rcases hr with rfl | rfl <;> assumption)

theorem isTriv_cap {t : Ty} {o : Op} (h : t.isTriv o = true) : t.cap o = .trivial := by
  cases o <;> simp [Ty.isTriv] at h <;> simp [h]

/-! ### `variant2` -/

/-- The traits of `variant2` are true, whatever the alternatives are. -/
theorem variant2_reports (t u : Ty) (o : Op) : (variant2 t u).reports o = true := by
  rw [reports_iff]
  cases o <;> simp only [variant2, variant2.moveC, variant2.moveA] <;> (try split) <;> first | exact free_ne_no _ | simp

/-- What can be used: the default constructor if the first alternative has one; copying and moving if the alternatives can be constructed so, or are
trivial; assigning if they can be assigned and constructed, or are trivially assignable; `swap` if moving and move assignment can be. -/
theorem variant2_compiles (t u : Ty) :
    (((variant2 t u).cap .dflt).works = true ↔ (t.cap .dflt).works = true) ∧
    (((variant2 t u).cap .copyC).works = true ↔ (t.cap .copyC).works = true ∧ (u.cap .copyC).works = true) ∧
    (((variant2 t u).cap .moveC).works = true ↔ (t.cap .moveC).works = true ∧ (u.cap .moveC).works = true) ∧
    (((variant2 t u).cap .copyA).works = true ↔ (t.cap .copyA = .trivial ∧ u.cap .copyA = .trivial) ∨
      ((t.cap .copyA).works = true ∧ (t.cap .copyC).works = true ∧ (u.cap .copyA).works = true ∧ (u.cap .copyC).works = true)) ∧
    (((variant2 t u).cap .moveA).works = true ↔ (t.cap .moveA = .trivial ∧ u.cap .moveA = .trivial) ∨
      ((t.cap .moveA).works = true ∧ (t.cap .moveC).works = true ∧ (u.cap .moveA).works = true ∧ (u.cap .moveC).works = true)) ∧
    (((variant2 t u).cap .swp).works = true ↔
      ((variant2 t u).cap .moveC).works = true ∧ ((variant2 t u).cap .moveA).works = true) := by
  refine ⟨?_, ?_, ?_, ?_, ?_, ?_⟩
  · simp [variant2, free_works]
  · simp only [variant2]
    split
    · rename_i h
      simp only [Bool.and_eq_true] at h
      simp [Cap.works, isTriv_cap h.1, isTriv_cap h.2]
    · simp [free_works]
  · simp only [variant2, variant2.moveC]
    split
    · rename_i h
      simp only [Bool.and_eq_true] at h
      simp [Cap.works, isTriv_cap h.1, isTriv_cap h.2]
    · simp [free_works]
  · simp only [variant2]
    split
    · rename_i h
      simp only [Bool.and_eq_true] at h
      simp [Cap.works, isTriv_cap h.1, isTriv_cap h.2]
    · rename_i h
      simp only [Ty.isTriv, Bool.and_eq_true, decide_eq_true_eq] at h
      simp [free_works, h]
  · simp only [variant2, variant2.moveA]
    split
    · rename_i h
      simp only [Bool.and_eq_true] at h
      simp [Cap.works, isTriv_cap h.1, isTriv_cap h.2]
    · rename_i h
      simp only [Ty.isTriv, Bool.and_eq_true, decide_eq_true_eq] at h
      simp [free_works, h]
  · simp [variant2, free_works]

example : ((variant2 uniquePtr int).cap .moveA).works = true ∧ ((variant2 uniquePtr int).cap .copyC).works = false := by decide

/-- The traits of `variant2` are right exactly if all operations can be used. -/
theorem variant2_truthful_iff_partial (t u : Ty) : Truthful (variant2 t u) ↔
    (t.cap .dflt).works = true ∧ ((t.cap .copyC).works = true ∧ (u.cap .copyC).works = true) ∧
    ((t.cap .moveC).works = true ∧ (u.cap .moveC).works = true) ∧
    (((variant2 t u).cap .copyA).works = true) ∧ (((variant2 t u).cap .moveA).works = true) := by
  obtain ⟨h1, h2, h3, -, -, h6⟩ := variant2_compiles t u
  rw [← h1, ← h2, ← h3]
  constructor
  · intro h
    exact ⟨h _ (variant2_reports ..), h _ (variant2_reports ..), h _ (variant2_reports ..), h _ (variant2_reports ..), h _ (variant2_reports ..)⟩
  · rintro ⟨a, b, c, d, e⟩ o -
    cases o <;> first | assumption | exact h6.2 ⟨c, e⟩

example : Truthful (variant2 string int) := (variant2_truthful_iff_partial _ _).2 (by decide)

/-- The traits of `variant2` are not always right, although those of the alternatives are: `variant2<std::unique_ptr<X>, int>` claims to be copyable,
`variant2` of a class without default constructor to be default constructible, and of a class with a `const` member to be assignable and swappable. -/
theorem variant2_truthful_refuted :
    (Truthful uniquePtr ∧ Truthful int ∧ Truthful constMember) ∧
    ((variant2 uniquePtr int).reports .copyC = true ∧ ((variant2 uniquePtr int).cap .copyC).works = false) ∧
    ((variant2 constMember int).reports .moveA = true ∧ ((variant2 constMember int).cap .moveA).works = false) ∧
    ((variant2 (pinned .no) int).reports .dflt = true ∧ ((variant2 (pinned .no) int).cap .dflt).works = false) := by
  refine ⟨⟨?_, ?_, ?_⟩, by decide, by decide, by decide⟩ <;> intro o <;> cases o <;> decide

/-- `std::variant` of the same alternatives can be used exactly where `variant2` can: default construction, copying and, if the alternatives that can be copied can be
moved, moving. -/
theorem variant2_like_std (t u : Ty) :
    (((variant2 t u).cap .dflt).works = ((stdVariant [t, u]).cap .dflt).works) ∧
    (((variant2 t u).cap .copyC).works = ((stdVariant [t, u]).cap .copyC).works) ∧
    ((t.cap .moveC = .no → t.cap .copyC = .no) → (u.cap .moveC = .no → u.cap .copyC = .no) → Truthful t → Truthful u →
      ((variant2 t u).cap .moveC).works = ((stdVariant [t, u]).cap .moveC).works) := by
  obtain ⟨h1, h2, h3, -⟩ := variant2_compiles t u
  refine ⟨?_, ?_, ?_⟩
  · rw [Bool.eq_iff_iff, h1]; simp [stdVariant, constrained_works]
  · rw [Bool.eq_iff_iff, h2]
    simp only [stdVariant, stdVariant.copyC]
    split
    · rename_i h
      simp only [List.all_cons, List.all_nil, Bool.and_true, Bool.and_eq_true] at h
      simp [Cap.works, isTriv_cap h.1, isTriv_cap h.2]
    · simp [constrained_works]
  · intro ht hu lt lu
    rw [truthful_iff] at lt lu
    rw [Bool.eq_iff_iff, h3]
    simp only [stdVariant, stdVariant.moveC, stdVariant.copyC]
    split
    · rename_i h
      simp only [List.all_cons, List.all_nil, Bool.and_true, Bool.and_eq_true] at h
      simp [Cap.works, isTriv_cap h.1, isTriv_cap h.2]
    · rw [orElse_works, constrained_works, constrained_no]
      constructor
      · intro h; left; simpa using h
      · rintro (h | ⟨h, h'⟩)
        · simpa using h
        · exfalso
          have : ∀ r ∈ [t.cap .copyC, u.cap .copyC], r.works = true := by
            split at h'
            · rename_i hh
              simp only [List.all_cons, List.all_nil, Bool.and_true, Bool.and_eq_true] at hh
              simp [Cap.works, isTriv_cap hh.1, isTriv_cap hh.2]
            · rw [constrained_works] at h'; simpa using h'
          simp only [List.map_cons, List.map_nil, List.mem_cons, List.not_mem_nil, or_false] at h
          rcases h with h | h
          · have := this _ (List.mem_cons_self ..); rw [ht h.symm] at this; cases this
          · have := this (u.cap .copyC) (by simp); rw [hu h.symm] at this; cases this

example : ((variant2 uniquePtr string).cap .moveC).works = ((stdVariant [uniquePtr, string]).cap .moveC).works :=
  (variant2_like_std _ _).2.2 (by decide) (by decide) (by intro o; cases o <;> decide) (by intro o; cases o <;> decide)

/-- Copy assignment is trivial if it is for both alternatives; for a `std::variant` copying and destroying must be trivial as well. -/
theorem variant2_trivial_assign_iff (t u : Ty) :
    ((variant2 t u).cap .copyA = .trivial ↔ t.cap .copyA = .trivial ∧ u.cap .copyA = .trivial) ∧
    ((variant2 t u).cap .moveA = .trivial ↔ t.cap .moveA = .trivial ∧ u.cap .moveA = .trivial) ∧
    ((stdVariant [t, u]).cap .copyA = .trivial ↔ ∀ x ∈ [t, u], x.cap .copyA = .trivial ∧ x.cap .copyC = .trivial ∧ x.trivDtor = true) := by
  refine ⟨?_, ?_, ?_⟩
  · simp only [variant2]
    split
    · rename_i h; simpa [Ty.isTriv] using h
    · rename_i h
      simp only [Ty.isTriv, Bool.and_eq_true, decide_eq_true_eq] at h
      simp [free_ne_trivial, h]
  · simp only [variant2, variant2.moveA]
    split
    · rename_i h; simpa [Ty.isTriv] using h
    · rename_i h
      simp only [Ty.isTriv, Bool.and_eq_true, decide_eq_true_eq] at h
      simp [free_ne_trivial, h]
  · simp only [stdVariant, stdVariant.copyA]
    have key : ([t, u].all fun t => t.isTriv .copyC && t.isTriv .copyA) = true ↔
        ∀ x ∈ [t, u], x.cap .copyA = .trivial ∧ x.cap .copyC = .trivial ∧ x.trivDtor = true := by
      rw [List.all_eq_true]
      refine forall_congr' fun x => imp_congr_right fun _ => ?_
      simp only [Ty.isTriv, Bool.and_eq_true, decide_eq_true_eq]
      exact ⟨fun ⟨⟨a, b⟩, c⟩ => ⟨c, a, b⟩, fun ⟨a, b, c⟩ => ⟨⟨b, c⟩, a⟩⟩
    split
    · rename_i h; simp [key.1 h]
    · rename_i h
      exact ⟨fun hh => absurd hh (constrained_trivial _), fun hh => absurd (key.2 hh) h⟩

/-- A `variant2` of a class with a destructor of its own claims to be trivially assignable, `std::variant` does not. -/
theorem variant2_trivial_assign_refuted :
    (variant2 logger int).cap .copyA = .trivial ∧ (variant2 logger int).trivDtor = false ∧ (stdVariant [logger, int]).cap .copyA = .user := by decide

/-- `variant2` is trivially copyable exactly if both alternatives have all four functions, trivial. -/
theorem variant2_trivially_copyable_iff (t u : Ty) : TrivCopyable (variant2 t u) ↔
    ∀ x ∈ [t, u], x.trivDtor = true ∧ ∀ o ∈ [Op.copyC, .moveC, .copyA, .moveA], x.cap o = .trivial := by
  have hne : ∀ o, (variant2 t u).cap o ≠ .no := fun o => (reports_iff _ _).1 (variant2_reports t u o)
  obtain ⟨hca, hma, -⟩ := variant2_trivial_assign_iff t u
  have hcc : (variant2 t u).cap .copyC = .trivial ↔ t.isTriv .copyC = true ∧ u.isTriv .copyC = true := by
    simp only [variant2]; split <;> simp_all [free_ne_trivial]
  have hmc : (variant2 t u).cap .moveC = .trivial ↔ t.isTriv .moveC = true ∧ u.isTriv .moveC = true := by
    simp only [variant2, variant2.moveC]; split <;> simp_all [free_ne_trivial]
  have hd : (variant2 t u).trivDtor = (t.trivDtor && u.trivDtor) := rfl
  simp only [TrivCopyable, List.mem_cons, List.not_mem_nil, or_false, forall_eq_or_imp, forall_eq, exists_eq_or_imp, exists_eq_left,
    hne, false_or, hcc, hmc, hca, hma, hd, Bool.and_eq_true, Ty.isTriv, decide_eq_true_eq]
  constructor
  · rintro ⟨⟨a, b⟩, ⟨⟨⟨c, -⟩, d, -⟩, ⟨⟨e, -⟩, f, -⟩, ⟨g, h⟩, i, j⟩, -⟩
    exact ⟨⟨a, c, e, g, i⟩, b, d, f, h, j⟩
  · rintro ⟨⟨a, c, e, g, i⟩, b, d, f, h, j⟩
    exact ⟨⟨a, b⟩, ⟨⟨⟨c, a⟩, d, b⟩, ⟨⟨e, a⟩, f, b⟩, ⟨g, h⟩, i, j⟩, .inl ⟨⟨c, a⟩, d, b⟩⟩

example : TrivCopyable (variant2 int int) := (variant2_trivially_copyable_iff _ _).2 (by decide)

/-- A `std::variant` of handles that can only be moved, trivially, is trivially copyable, a `variant2` of them is not. -/
theorem variant2_trivially_copyable_refuted : TrivCopyable (stdVariant [handle, int]) ∧ TrivCopyable handle ∧ TrivCopyable int ∧ ¬TrivCopyable (variant2 handle int) := by
  refine ⟨?_, ?_, ?_, ?_⟩ <;> (try rw [variant2_trivially_copyable_iff]) <;> (try unfold TrivCopyable) <;> decide

/-! ### Constructors from values and in place -/

/-- Constructors from values and in place of `variant2`, `mutex`, `shared_mutex`, `polymorphic_allocator` are reported whatever is given, and can be used exactly if the
object can be made of it; those of `std::variant` are reported exactly if they can be used. -/
theorem value_constructors (t : Ty) (c : Cap) (rv : Bool) :
    fromValue t rv ≠ .no ∧ inPlace c ≠ .no ∧
    ((fromValue t rv).works = true ↔ (t.cap (if rv then .moveC else .copyC)).works = true) ∧ ((inPlace c).works = true ↔ c.works = true) ∧
    (c ≠ .lie → (stdInPlace c ≠ .no ↔ c.works = true) ∧ ((stdInPlace c).works = true ↔ c.works = true)) := by
  refine ⟨free_ne_no _, free_ne_no _, by simp [fromValue, free_works], by simp [inPlace, free_works], ?_⟩
  intro h
  cases c <;> simp [stdInPlace, constrained, defaulted, Cap.weaker, Cap.works] at h ⊢

/-- `mutex<std::unique_ptr<X>>` claims that it can be made from an lvalue. -/
theorem value_constructors_refuted : Truthful uniquePtr ∧ fromValue uniquePtr false ≠ .no ∧ (fromValue uniquePtr false).works = false := by
  refine ⟨?_, by decide, by decide⟩
  intro o; cases o <;> decide

/-! ### Templates with defaulted and constrained functions -/

/-- A tuple can be copied, assigned, made without arguments exactly if all elements can; an rvalue exactly if all can be moved, or all copied. -/
theorem tuple_reports (ts : List Ty) :
    (∀ o ∈ [Op.dflt, .copyC, .copyA], (tuple ts).reports o = true ↔ ∀ t ∈ ts, t.reports o = true) ∧
    ((tuple ts).reports .moveC = true ↔ (∀ t ∈ ts, t.reports .moveC = true) ∨ (∀ t ∈ ts, t.reports .copyC = true)) ∧
    ((tuple ts).reports .moveA = true ↔ (∀ t ∈ ts, t.reports .moveA = true) ∨ (∀ t ∈ ts, t.reports .copyA = true)) := by
  have key : ∀ o, defaulted (ts.map (·.cap o)) = .no ↔ ¬∀ t ∈ ts, t.reports o = true := by
    intro o
    rw [defaulted_no]
    simp only [reports_iff, List.mem_map]
    constructor
    · rintro ⟨t, ht, e⟩ h; exact h t ht e
    · intro h
      apply Classical.byContradiction
      intro hn
      exact h fun t ht e => hn ⟨t, ht, e⟩
  refine ⟨?_, ?_, ?_⟩
  · intro o ho
    rw [reports_iff]
    simp only [List.mem_cons, List.not_mem_nil, or_false] at ho
    rcases ho with rfl | rfl | rfl <;> simp only [tuple, aggregate, ne_eq, key, Classical.not_not]
  · rw [reports_iff]; simp only [tuple, aggregate, ne_eq, orElse_no, key]
    constructor
    · intro h
      by_cases h1 : ∀ t ∈ ts, t.reports .moveC = true
      · exact .inl h1
      · exact .inr (Classical.byContradiction fun h2 => h ⟨h1, h2⟩)
    · rintro (h | h) ⟨h1, h2⟩
      · exact h1 h
      · exact h2 h
  · rw [reports_iff]; simp only [tuple, aggregate, ne_eq, orElse_no, key]
    constructor
    · intro h
      by_cases h1 : ∀ t ∈ ts, t.reports .moveA = true
      · exact .inl h1
      · exact .inr (Classical.byContradiction fun h2 => h ⟨h1, h2⟩)
    · rintro (h | h) ⟨h1, h2⟩
      · exact h1 h
      · exact h2 h

example : (tuple [string, uniquePtr]).reports .moveC = true := (tuple_reports _).2.1.2 (.inl (by decide))

theorem aggregate_honest {ms : List Ty} (h : ∀ t ∈ ms, Truthful t) : Truthful (aggregate ms) := by
  rw [truthful_iff]
  have key : ∀ o, defaulted (ms.map (·.cap o)) ≠ .lie := by
    intro o
    apply defaulted_honest
    intro r hr
    obtain ⟨t, ht, rfl⟩ := List.mem_map.1 hr
    exact (truthful_iff t).1 (h t ht) o
  intro o
  cases o
  · exact key .dflt
  · exact key .copyC
  · exact orElse_honest (key .moveC) (key .copyC)
  · exact key .copyA
  · exact orElse_honest (key .moveA) (key .copyA)
  · exact stdSwap_honest (orElse_honest (key .moveC) (key .copyC)) (orElse_honest (key .moveA) (key .copyA))

theorem stdVariant_honest {ts : List Ty} (h : ∀ t ∈ ts, Truthful t) : Truthful (stdVariant ts) := by
  rw [truthful_iff]
  have key : ∀ o, ∀ r ∈ ts.map (·.cap o), r ≠ .lie := by
    intro o r hr
    obtain ⟨t, ht, rfl⟩ := List.mem_map.1 hr
    exact (truthful_iff t).1 (h t ht) o
  have both : ∀ o p, ∀ r ∈ ts.map (·.cap o) ++ ts.map (·.cap p), r ≠ .lie := by
    intro o p r hr
    rcases List.mem_append.1 hr with hr | hr
    · exact key o r hr
    · exact key p r hr
  have hcc : stdVariant.copyC ts ≠ .lie := by
    unfold stdVariant.copyC
    split
    · simp
    · exact constrained_honest (key .copyC)
  have hca : stdVariant.copyA ts ≠ .lie := by
    unfold stdVariant.copyA
    split
    · simp
    · exact constrained_honest (both .copyC .copyA)
  intro o
  cases o
  · cases ts with
    | nil => simp [stdVariant]
    | cons t ts =>
      refine constrained_honest ?_
      intro r hr
      simp only [List.mem_cons, List.not_mem_nil, or_false] at hr
      subst hr
      exact (truthful_iff t).1 (h t (by simp)) .dflt
  · exact hcc
  · show stdVariant.moveC ts ≠ .lie
    unfold stdVariant.moveC
    split
    · simp
    · exact orElse_honest (constrained_honest (key .moveC)) hcc
  · exact hca
  · show stdVariant.moveA ts ≠ .lie
    unfold stdVariant.moveA
    split
    · simp
    · exact orElse_honest (constrained_honest (both .moveC .moveA)) hca
  · exact constrained_honest (both .moveC .swp)

theorem withSwap_honest {a : Ty} {i d : Cap} (ha : Truthful a) (hi : i ≠ .lie) (hd : d ≠ .lie) : Truthful (withSwap a i d) := by
  rw [truthful_iff] at ha ⊢
  intro o
  cases o
  case dflt => exact hd
  case swp => exact orElse_honest (constrained_honest (by intro r hr; simp at hr; subst hr; exact hi)) (ha .swp)
  all_goals exact ha _

/-- Types made with the templates of the library out of truthful ones; of `flex_array` those with the elements inside, if the elements can be moved and assigned; of
`polymorphic_allocator` all but those with exactly two allocators; without `variant2`, the iterators of the channels and strings. -/
inductive Made : Ty → Prop where
  | elem {t : Ty} : Truthful t → Made t
  | tuple {ts : List Ty} : (∀ t ∈ ts, Made t) → Made (tuple ts)
  | integralVariant {ts : List Ty} : (∀ t ∈ ts, Made t) → Made (integralVariant ts)
  | flexArray {t : Ty} (m : Mode) : m = .static ∨ m = .limited → Made t → t.reports .moveC = true → t.reports .moveA = true → Made (flexArray m t)
  | channel : Made (pinned .no)
  | exchangeChannel : Made (pinned .user)
  | mutex {t m : Ty} : Made t → Made m → Made (mutex t m)
  | guard : Made guard
  | scopeGuard : Made scopeGuard
  | inplace {t : Ty} (c m : Bool) : Made t → Made (inplace t c m)
  | polyAlloc {ts : List Ty} : ts.length ≠ 2 → (∀ t ∈ ts, Made t) → Made (polyAlloc ts)
  | limitAlloc {t : Ty} : Made t → Made (limitAlloc t)
  | offsetAlloc {t : Ty} : Made t → Made (offsetAlloc t)
  | poolAlloc : Made poolAlloc
  | pointerTagPair : Made pointerTagPair

theorem sharedPtr_truthful : Truthful sharedPtr := by intro o _; rfl
theorem sizeMember_truthful : Truthful sizeMember := by intro o; cases o <;> decide

theorem pinned_truthful {c : Cap} (h : c ≠ .lie) : Truthful (pinned c) := by
  rw [truthful_iff]; intro o; cases o <;> simp [pinned, h]

theorem flexInner_truthful {m : Mode} {t : Ty} (hm : m = .static ∨ m = .limited) (ht : Truthful t) : Truthful (flexInner m t) := by
  rcases hm with rfl | rfl
  · exact aggregate_honest (by intro x hx; simp at hx; subst hx; exact ht)
  · refine aggregate_honest ?_
    intro x hx
    simp at hx
    rcases hx with rfl | rfl
    · exact sizeMember_truthful
    · exact ht

/-- **C98.** What the traits of the types made with the other templates report can be used, however deep the templates are nested. -/
theorem made_truthful {t : Ty} (h : Made t) : Truthful t := by
  induction h with
  | elem h => exact h
  | tuple _ ih => exact aggregate_honest ih
  | integralVariant _ ih => exact aggregate_honest (by intro t ht; simp at ht; subst ht; exact stdVariant_honest ih)
  | @flexArray t m hm _ hc ha ih =>
    have hi : Truthful (flexInner m t) := flexInner_truthful hm ih
    have hw : ((flexInner m t).cap .swp).works = true := by
      refine hi _ ?_
      rw [reports_iff] at hc ha ⊢
      rcases hm with rfl | rfl <;>
        simp only [flexInner, aggregate, stdSwap, constrained_no, List.map_cons, List.map_nil, List.mem_cons, List.not_mem_nil, or_false, sizeMember, ne_eq, not_or] <;>
        refine ⟨fun e => ?_, fun e => ?_⟩ <;>
        first
          | exact hc (by have := (orElse_no.1 e.symm).1; rw [defaulted_no] at this; simpa [eq_comm] using this)
          | exact ha (by have := (orElse_no.1 e.symm).1; rw [defaulted_no] at this; simpa [eq_comm] using this)
    have hagg : Truthful (aggregate [flexInner m t]) := aggregate_honest (by intro t ht; simp at ht; subst ht; exact hi)
    rw [truthful_iff] at hagg ⊢
    intro o
    cases o
    case swp => exact (free_lie _).2 (by simpa using hw)
    case dflt => exact hagg .dflt
    case copyC => exact hagg .copyC
    case moveC => exact hagg .moveC
    case copyA => exact hagg .copyA
    case moveA => exact hagg .moveA
  | channel => exact pinned_truthful (by simp)
  | exchangeChannel => exact pinned_truthful (by simp)
  | @mutex t m _ _ ih1 ih2 =>
    rw [truthful_iff] at *
    intro o
    cases o
    case dflt => exact defaulted_honest (by intro r hr; simp at hr; rcases hr with rfl | rfl; exact ih1 _; exact ih2 _)
    all_goals simp [Traits.mutex]
  | guard => intro o; cases o <;> decide
  | scopeGuard => exact pinned_truthful (by simp)
  | @inplace t c m _ ih =>
    rw [truthful_iff] at ih ⊢
    intro o
    cases o
    case dflt => exact constrained_honest (by intro r hr; simp at hr; subst hr; exact ih _)
    all_goals cases c <;> cases m <;>
      simp [Traits.inplace, inplace.copy, inplace.move, stdSwap, constrained, defaulted, Cap.weaker, Cap.orElse]
  | @polyAlloc ts hl _ ih =>
    have hi : Truthful (polyInner ts) := by
      unfold polyInner
      split
      · exact ih _ (by simp)
      · simp at hl
      · exact stdVariant_honest ih
    have ha : Truthful (aggregate [polyInner ts]) := aggregate_honest (by intro t ht; simp at ht; subst ht; exact hi)
    exact withSwap_honest ha ((truthful_iff _).1 hi _) ((truthful_iff _).1 ha _)
  | @limitAlloc t _ ih =>
    refine withSwap_honest (aggregate_honest ?_) ((truthful_iff _).1 ih _) (by simp)
    intro x hx
    simp at hx
    rcases hx with rfl | rfl
    · exact sharedPtr_truthful
    · exact ih
  | @offsetAlloc t _ ih =>
    have ha : Truthful (aggregate [t]) := aggregate_honest (by intro t ht; simp at ht; subst ht; exact ih)
    exact withSwap_honest ha ((truthful_iff _).1 ih _) ((truthful_iff _).1 ha _)
  | poolAlloc =>
    exact withSwap_honest (aggregate_honest (by intro t ht; simp at ht; subst ht; exact sharedPtr_truthful)) (by simp) (by simp)
  | pointerTagPair => exact aggregate_honest (by intro t ht; simp at ht; subst ht; exact sizeMember_truthful)

example : Made (tuple [flexArray .limited uniquePtr, mutex (integralVariant [uniquePtr, string]) (pinned .user)]) := by
  have hu : Truthful uniquePtr := by intro o; cases o <;> decide
  have hs : Truthful string := by intro o; cases o <;> decide
  refine .tuple fun t ht => ?_
  simp at ht
  rcases ht with rfl | rfl
  · exact .flexArray _ (.inr rfl) (.elem hu) (by decide) (by decide)
  · refine .mutex (.integralVariant fun t ht => ?_) .exchangeChannel
    simp at ht
    rcases ht with rfl | rfl
    · exact .elem hu
    · exact .elem hs

/-- A `polymorphic_allocator` with two allocators inherits the traits of `variant2`: with `limit_allocator` first it claims to be default constructible; with three
allocators it does not. -/
theorem polymorphic_default_refuted (a b c : Ty) :
    (polyAlloc [limitAlloc a, b]).reports .dflt = true ∧ ((polyAlloc [limitAlloc a, b]).cap .dflt).works = false ∧
    (polyAlloc [limitAlloc a, b, c]).reports .dflt = false := by
  simp [polyAlloc, withSwap, aggregate, polyInner, variant2, limitAlloc, free, Cap.works, defaulted, Ty.reports, Cap.weaker, stdVariant, constrained]

/-! ### `flex_array` -/

/-- The traits of `flex_array` are right exactly if: the elements can be moved and assigned, or copied and assigned (inside); copied and assigned (vector); copied and
moved (small buffer). -/
theorem flex_truthful_iff_partial (t : Ty) (ht : Truthful t) :
    (∀ m, m = .static ∨ m = .limited → (Truthful (flexArray m t) ↔
      (t.reports .moveC = true ∨ t.reports .copyC = true) ∧ (t.reports .moveA = true ∨ t.reports .copyA = true))) ∧
    (Truthful (flexArray .vector t) ↔ t.reports .copyC = true ∧ t.reports .copyA = true) ∧
    (Truthful (flexArray .sbo t) ↔ t.reports .copyC = true ∧ t.reports .moveC = true) := by
  have hl := (truthful_iff t).1 ht
  have h2 := hl .copyC; have h3 := hl .moveC; have h4 := hl .copyA; have h5 := hl .moveA
  refine ⟨?_, ?_, ?_⟩
  · intro m hm
    have hi : Truthful (flexInner m t) := flexInner_truthful hm ht
    have hagg := (truthful_iff _).1 (aggregate_honest (ms := [flexInner m t]) (by intro t ht; simp at ht; subst ht; exact hi))
    have hd : Truthful (flexArray m t) ↔ ((flexInner m t).cap .swp).works = true := by
      rw [truthful_iff]
      constructor
      · intro h; exact (free_lie _).1 (h .swp) _ (by simp)
      · intro h o
        cases o
        case swp => exact (free_lie _).2 (by simpa using h)
        case dflt => exact hagg .dflt
        case copyC => exact hagg .copyC
        case moveC => exact hagg .moveC
        case copyA => exact hagg .copyA
        case moveA => exact hagg .moveA
    have key : ∀ a b : Cap, a ≠ .lie → b ≠ .lie → (((defaulted [a]).orElse (defaulted [b])).works = true ↔ a ≠ .no ∨ b ≠ .no) ∧
        (((defaulted [.trivial, a]).orElse (defaulted [.trivial, b])).works = true ↔ a ≠ .no ∨ b ≠ .no) := by
      intro a b; cases a <;> cases b <;> decide
    rw [hd]
    rcases hm with rfl | rfl
    · simp only [flexInner, aggregate, stdSwap, constrained_works, List.map_cons, List.map_nil, List.mem_cons, List.not_mem_nil, or_false, forall_eq_or_imp, forall_eq,
        reports_iff, (key _ _ h3 h2).1, (key _ _ h5 h4).1]
    · simp only [flexInner, aggregate, stdSwap, constrained_works, List.map_cons, List.map_nil, List.mem_cons, List.not_mem_nil, or_false, forall_eq_or_imp, forall_eq,
        reports_iff, sizeMember, (key _ _ h3 h2).2, (key _ _ h5 h4).2]
  · simp only [reports_iff]
    have hd : Truthful (flexArray .vector t) ↔ ∀ o ∈ [Op.dflt, .copyC, .moveC, .copyA, .moveA, .swp], (flexArray .vector t).cap o ≠ .lie := by
      rw [truthful_iff]
      exact ⟨fun h o _ => h o, fun h o => h o (by cases o <;> simp)⟩
    rw [hd]
    simp only [flexArray, flexInner, aggregate, stdVector, List.map_cons, List.map_nil, List.mem_cons, List.not_mem_nil, or_false, forall_eq_or_imp, forall_eq]
    revert h2 h4
    generalize t.cap .copyC = c2
    generalize t.cap .copyA = c4
    cases c2 <;> cases c4 <;> decide
  · simp only [reports_iff]
    have hd : Truthful (flexArray .sbo t) ↔ ∀ o ∈ [Op.dflt, .copyC, .moveC, .copyA, .moveA, .swp], (flexArray .sbo t).cap o ≠ .lie := by
      rw [truthful_iff]
      exact ⟨fun h o _ => h o, fun h o => h o (by cases o <;> simp)⟩
    rw [hd]
    simp only [flexArray, flexInner, aggregate, svector, List.map_cons, List.map_nil, List.mem_cons, List.not_mem_nil, or_false, forall_eq_or_imp, forall_eq]
    revert h2 h3
    generalize t.cap .copyC = c2
    generalize t.cap .moveC = c3
    cases c2 <;> cases c3 <;> decide

example : Truthful (flexArray .vector string) := ((flex_truthful_iff_partial _ (by intro o; cases o <;> decide)).2.1).2 (by decide)

/-- What can be done with `flex_array`s whose elements are elsewhere: with a vector, everything but copies for any element, copies of such elements as can be copied, and
copy assignment if they can also be assigned; with a small buffer, moves and swaps need elements that can be moved, copies elements that can be copied. -/
theorem flex_outside_works (t : Ty) :
    (∀ o ∈ [Op.dflt, .moveC, .moveA, .swp], ((flexArray .vector t).cap o).works = true) ∧
    (((flexArray .vector t).cap .copyC).works = true ↔ (t.cap .copyC).works = true) ∧
    (((flexArray .vector t).cap .copyA).works = true ↔ (t.cap .copyC).works = true ∧ (t.cap .copyA).works = true) ∧
    ((flexArray .sbo t).cap .dflt).works = true ∧
    (∀ o ∈ [Op.moveC, .moveA, .swp], ((flexArray .sbo t).cap o).works = true ↔ (t.cap .moveC).works = true) ∧
    (∀ o ∈ [Op.copyC, .copyA], ((flexArray .sbo t).cap o).works = true ↔ (t.cap .copyC).works = true) := by
  simp only [flexArray, flexInner, aggregate, stdVector, svector, List.map_cons, List.map_nil, List.mem_cons, List.not_mem_nil, or_false, forall_eq_or_imp, forall_eq]
  generalize t.cap .copyC = c2
  generalize t.cap .moveC = c3
  generalize t.cap .copyA = c4
  cases c2 <;> cases c3 <;> cases c4 <;> decide

example : ((flexArray .vector uniquePtr).cap .moveC).works = true := (flex_outside_works uniquePtr).1 _ (by simp)

/-- A `flex_array` of elements that cannot be assigned claims to be swappable (inside), of elements that can only be moved to be copyable (vector). -/
theorem flex_truthful_refuted :
    ((flexArray .static constMember).reports .swp = true ∧ ((flexArray .static constMember).cap .swp).works = false) ∧
    ((flexArray .vector uniquePtr).reports .copyC = true ∧ ((flexArray .vector uniquePtr).cap .copyC).works = false) ∧
    (flexArray .static uniquePtr).reports .copyC = false := by decide

/-- `flex_array` with the elements inside is trivially copyable exactly if the elements are; the others never are. -/
theorem flex_trivially_copyable_iff (t : Ty) :
    (∀ m, m = .static ∨ m = .limited → (TrivCopyable (flexArray m t) ↔ TrivCopyable t)) ∧
    ¬TrivCopyable (flexArray .vector t) ∧ ¬TrivCopyable (flexArray .sbo t) := by
  refine ⟨?_, ?_, ?_⟩
  · rintro m (rfl | rfl)
    all_goals
      simp only [TrivCopyable, flexArray, flexInner, aggregate, List.map_cons, List.map_nil, List.mem_cons, List.not_mem_nil, or_false, forall_eq_or_imp, forall_eq,
        exists_eq_or_imp, exists_eq_left, sizeMember, List.all_cons, List.all_nil, Bool.and_true, Bool.true_and]
      generalize t.cap .copyC = c2
      generalize t.cap .moveC = c3
      generalize t.cap .copyA = c4
      generalize t.cap .moveA = c5
      cases t.trivDtor <;> cases c2 <;> cases c3 <;> cases c4 <;> cases c5 <;> decide
  · rintro ⟨h, -⟩; simp [flexArray, flexInner, aggregate, stdVector] at h
  · rintro ⟨h, -⟩; simp [flexArray, flexInner, aggregate, svector] at h

example : TrivCopyable (flexArray .limited handle) :=
  ((flex_trivially_copyable_iff handle).1 _ (.inr rfl)).2 (by unfold TrivCopyable; decide)

/-! ### Iterators of the channels -/

/-- Copying and moving iterators of the channels is reported for every element type; it can be used exactly if the elements can be copied; moved, or copied; copied and
assigned; moved and swapped. -/
theorem iterator_traits (t : Ty) (ht : Truthful t) :
    (∀ o, o ≠ .dflt → (channelIter t).reports o = true) ∧ (channelIter t).reports .dflt = false ∧
    (((channelIter t).cap .copyC).works = true ↔ t.reports .copyC = true) ∧
    (((channelIter t).cap .moveC).works = true ↔ t.reports .moveC = true ∨ t.reports .copyC = true) ∧
    (((channelIter t).cap .copyA).works = true ↔ t.reports .copyC = true ∧ t.reports .copyA = true) ∧
    (((channelIter t).cap .moveA).works = true ↔ t.reports .moveC = true ∧ t.reports .swp = true) := by
  have hl := (truthful_iff t).1 ht
  have h2 := hl .copyC; have h3 := hl .moveC; have h4 := hl .copyA; have h6 := hl .swp
  refine ⟨?_, rfl, ?_, ?_, ?_, ?_⟩
  · intro o ho
    rw [reports_iff]
    cases o <;> simp [channelIter, free_ne_no, stdSwap, constrained_no, Ne.symm (free_ne_no _)] at ho ⊢
  all_goals
    simp only [reports_iff, channelIter, stdOptional, stdVariant, stdVariant.copyC, stdVariant.moveC, stdVariant.copyA, free_works, List.map_cons, List.map_nil,
      List.mem_cons, List.not_mem_nil, or_false, forall_eq, List.all_cons, List.all_nil, Bool.and_true, Ty.isTriv, List.cons_append, List.nil_append]
    revert h2 h3 h4 h6
    generalize t.cap .copyC = c2
    generalize t.cap .moveC = c3
    generalize t.cap .copyA = c4
    generalize t.cap .swp = c6
    cases t.trivDtor <;> cases c2 <;> cases c3 <;> cases c4 <;> cases c6 <;> decide

example : ((channelIter uniquePtr).cap .moveA).works = true := ((iterator_traits _ (by intro o; cases o <;> decide)).2.2.2.2.2).2 (by decide)

/-- The iterators of a channel of `std::unique_ptr` claim to be copyable. -/
theorem iterator_traits_refuted : Truthful uniquePtr ∧ (channelIter uniquePtr).reports .copyC = true ∧ ((channelIter uniquePtr).cap .copyC).works = false := by
  refine ⟨?_, by decide, by decide⟩
  intro o; cases o <;> decide

/-! ### Things that stay where they are -/

/-- Channels, pools, mutexes and scope guards can neither be copied nor moved nor swapped, scope guards can be made of nothing; guards of mutexes can only be moved and swapped, for every `T`; two `const` guards
claim to be swappable and are not. -/
theorem pinned_traits (t m : Ty) (c : Cap) (o : Op) (ho : o ≠ .dflt) :
    (pinned c).reports o = false ∧ (mutex t m).reports o = false ∧ scopeGuard.reports o = false ∧ scopeGuard.cap .dflt = .user ∧
    (guard.reports o = true ↔ o = .moveC ∨ o = .moveA ∨ o = .swp) ∧ guardConstSwap = .lie := by
  cases o <;> simp [pinned, mutex, scopeGuard, guard, Ty.reports, stdSwap, constrained, defaulted, Cap.weaker, guardConstSwap, free, Cap.works] at ho ⊢

example : guard.reports .copyC = false := by
  cases h : guard.reports .copyC
  · rfl
  · exact absurd ((pinned_traits int int .user .copyC (by decide)).2.2.2.2.1.1 h) (by decide)

/-- A mutex can be made without arguments exactly if the value and the mutex can. -/
theorem mutex_default_iff (t m : Ty) : (mutex t m).reports .dflt = true ↔ t.reports .dflt = true ∧ m.reports .dflt = true := by
  simp only [reports_iff, mutex, ne_eq, defaulted_no, List.mem_cons, List.not_mem_nil, or_false, not_or]
  exact ⟨fun ⟨a, b⟩ => ⟨Ne.symm a, Ne.symm b⟩, fun ⟨a, b⟩ => ⟨Ne.symm a, Ne.symm b⟩⟩

/-- `inplace_polymorphic` can be copied exactly if the base class has `copy_to`, moved exactly if it has `move_to` or `copy_to`, made without arguments exactly if the first
class can. -/
theorem inplace_traits (t : Ty) (c m : Bool) :
    ((inplace t c m).reports .copyC = c ∧ (inplace t c m).reports .copyA = c) ∧
    ((inplace t c m).reports .moveC = (m || c) ∧ (inplace t c m).reports .moveA = (m || c) ∧ (inplace t c m).reports .swp = (m || c)) ∧
    (inplace t c m).reports .dflt = t.reports .dflt := by
  refine ⟨⟨?_, ?_⟩, ⟨?_, ?_, ?_⟩, ?_⟩
  case refine_6 =>
    rw [Bool.eq_iff_iff, reports_iff, reports_iff]
    exact not_congr ((constrained_no _).trans ⟨fun h => (List.mem_singleton.1 h).symm, fun h => List.mem_singleton.2 h.symm⟩)
  all_goals
    cases c <;> cases m <;>
      simp [Ty.reports, Traits.inplace, inplace.copy, inplace.move, stdSwap, constrained, defaulted, Cap.weaker, Cap.orElse]

/-- `basic_static_string` with an allocator that meets the requirements (it can be copied, moved and swapped, and assigned if it propagates) has truthful traits if the
allocator can be made without arguments. -/
theorem string_truthful_iff_partial (a : Ty) (pocca pocma : Bool) (hc : (a.cap .copyC).works = true) (hm : (a.cap .moveC).works = true)
    (hs : (a.cap .swp).works = true) (ha : pocca = true → (a.cap .copyA).works = true) :
    Truthful (staticString a pocca pocma) ↔ (a.cap .dflt).works = true := by
  constructor
  · intro h
    have := h .dflt (by rw [reports_iff]; exact free_ne_no _)
    simp only [staticString, free_works] at this
    exact this _ (by simp)
  · intro h
    rw [truthful_iff]
    intro o
    cases o <;> simp only [staticString, free_lie] <;> cases pocca <;> cases pocma <;> simp_all

example : Truthful (staticString (offsetAlloc string) true true) :=
  (string_truthful_iff_partial _ _ _ (by decide) (by decide) (by decide) (by decide)).2 (by decide)

/-- With an allocator that needs arguments the string claims to be default constructible. -/
theorem string_truthful_refuted (a : Ty) : (staticString (limitAlloc a) true true).reports .dflt = true ∧
    ((staticString (limitAlloc a) true true).cap .dflt).works = false := by
  simp [staticString, limitAlloc, withSwap, free, Cap.works, Ty.reports]

/-! ### What exactly is reported -/

theorem aggregate_reports (ms : List Ty) :
    (∀ o ∈ [Op.dflt, .copyC, .copyA], (aggregate ms).reports o = true ↔ ∀ t ∈ ms, t.reports o = true) ∧
    ((aggregate ms).reports .moveC = true ↔ (∀ t ∈ ms, t.reports .moveC = true) ∨ (∀ t ∈ ms, t.reports .copyC = true)) ∧
    ((aggregate ms).reports .moveA = true ↔ (∀ t ∈ ms, t.reports .moveA = true) ∨ (∀ t ∈ ms, t.reports .copyA = true)) := tuple_reports ms

theorem aggregate_swap_reports (ms : List Ty) : (aggregate ms).reports .swp = true ↔
    (aggregate ms).reports .moveC = true ∧ (aggregate ms).reports .moveA = true := by
  simp only [reports_iff, aggregate, stdSwap, ne_eq, constrained_no, List.mem_cons, List.not_mem_nil, or_false, not_or]
  exact ⟨fun ⟨a, b⟩ => ⟨Ne.symm a, Ne.symm b⟩, fun ⟨a, b⟩ => ⟨Ne.symm a, Ne.symm b⟩⟩

theorem mem_caps_no {ts : List Ty} {o : Op} : ¬Cap.no ∈ ts.map (·.cap o) ↔ ∀ t ∈ ts, t.reports o = true := by
  simp only [List.mem_map, not_exists, not_and, reports_iff]

theorem all_triv_reports {ts : List Ty} {o : Op} (h : ts.all (·.isTriv o) = true) : ∀ t ∈ ts, t.reports o = true := by
  intro t ht
  rw [reports_iff, isTriv_cap (List.all_eq_true.1 h t ht)]
  simp

/-- A `std::variant` reports: default construction if the first alternative does; copying, copy assignment if all alternatives can be copied (and assigned); moving and
move assignment if all can be moved (and move assigned), or copied. -/
theorem stdVariant_reports (ts : List Ty) :
    ((stdVariant ts).reports .dflt = true ↔ ∃ t, ts.head? = some t ∧ t.reports .dflt = true) ∧
    ((stdVariant ts).reports .copyC = true ↔ ∀ t ∈ ts, t.reports .copyC = true) ∧
    ((stdVariant ts).reports .moveC = true ↔ (∀ t ∈ ts, t.reports .moveC = true) ∨ ∀ t ∈ ts, t.reports .copyC = true) ∧
    ((stdVariant ts).reports .copyA = true ↔ ∀ t ∈ ts, t.reports .copyC = true ∧ t.reports .copyA = true) ∧
    ((stdVariant ts).reports .moveA = true ↔ (∀ t ∈ ts, t.reports .moveC = true ∧ t.reports .moveA = true) ∨
      ∀ t ∈ ts, t.reports .copyC = true ∧ t.reports .copyA = true) ∧
    ((stdVariant ts).reports .swp = true ↔ ∀ t ∈ ts, t.reports .moveC = true ∧ t.reports .swp = true) := by
  have two : ∀ o p, ¬Cap.no ∈ ts.map (·.cap o) ++ ts.map (·.cap p) ↔ ∀ t ∈ ts, t.reports o = true ∧ t.reports p = true := by
    intro o p
    rw [List.mem_append, not_or, mem_caps_no, mem_caps_no]
    exact ⟨fun ⟨a, b⟩ t ht => ⟨a t ht, b t ht⟩, fun h => ⟨fun t ht => (h t ht).1, fun t ht => (h t ht).2⟩⟩
  have hcc : stdVariant.copyC ts ≠ .no ↔ ∀ t ∈ ts, t.reports .copyC = true := by
    unfold stdVariant.copyC
    split
    · rename_i h; exact ⟨fun _ => all_triv_reports h, fun _ => by simp⟩
    · rw [ne_eq, constrained_no, mem_caps_no]
  have allBoth : ∀ o p, (ts.all fun t => t.isTriv o && t.isTriv p) = true → ∀ t ∈ ts, t.reports o = true ∧ t.reports p = true := by
    intro o p h t ht
    have := List.all_eq_true.1 h t ht
    rw [Bool.and_eq_true] at this
    rw [reports_iff, reports_iff, isTriv_cap this.1, isTriv_cap this.2]
    simp
  have hca : stdVariant.copyA ts ≠ .no ↔ ∀ t ∈ ts, t.reports .copyC = true ∧ t.reports .copyA = true := by
    unfold stdVariant.copyA
    split
    · rename_i h; exact ⟨fun _ => allBoth _ _ h, fun _ => by simp⟩
    · rw [ne_eq, constrained_no, two]
  have orr : ∀ {p q : Prop}, ¬(¬p ∧ ¬q) ↔ p ∨ q := by
    intro p q
    by_cases hp : p <;> by_cases hq : q <;> simp [hp, hq]
  refine ⟨?_, ?_, ?_, ?_, ?_, ?_⟩
  · rw [reports_iff]
    cases ts with
    | nil => simp [stdVariant]
    | cons t ts =>
      simp only [stdVariant, ne_eq, constrained_no, List.mem_cons, List.not_mem_nil, or_false, List.head?_cons, Option.some.injEq, exists_eq_left', reports_iff]
      exact not_congr ⟨Eq.symm, Eq.symm⟩
  · rw [reports_iff]; exact hcc
  · rw [reports_iff]
    show stdVariant.moveC ts ≠ .no ↔ _
    unfold stdVariant.moveC
    split
    · rename_i h; exact ⟨fun _ => .inl (all_triv_reports h), fun _ => by simp⟩
    · rw [ne_eq, orElse_no, constrained_no, ← orr, mem_caps_no.symm, ← hcc, Classical.not_not, ne_eq, Classical.not_not]
  · rw [reports_iff]; exact hca
  · rw [reports_iff]
    show stdVariant.moveA ts ≠ .no ↔ _
    unfold stdVariant.moveA
    split
    · rename_i h; exact ⟨fun _ => .inl (allBoth _ _ h), fun _ => by simp⟩
    · rw [ne_eq, orElse_no, constrained_no, ← orr, ← two, ← hca, Classical.not_not, ne_eq, Classical.not_not]
  · rw [reports_iff]
    simp only [stdVariant, ne_eq, constrained_no, two]

/-- `integral_template_variant` reports what a `std::variant` of its alternatives reports, and `swap` if it can be moved and move assigned. -/
theorem integral_variant_reports (ts : List Ty) :
    (∀ o, o ≠ .swp → (integralVariant ts).reports o = (stdVariant ts).reports o) ∧
    ((integralVariant ts).reports .swp = true ↔ (stdVariant ts).reports .moveC = true ∧ (stdVariant ts).reports .moveA = true) := by
  have h := aggregate_reports [stdVariant ts]
  obtain ⟨h1, h2, h3⟩ := h
  have h4 := aggregate_swap_reports [stdVariant ts]
  simp only [List.mem_cons, List.not_mem_nil, or_false, forall_eq_or_imp, forall_eq] at h1 h2 h3
  have hr := stdVariant_reports ts
  have m1 : (aggregate [stdVariant ts]).reports .moveC = true ↔ (stdVariant ts).reports .moveC = true := by
    rw [h2]; exact ⟨fun h => h.elim id fun h => hr.2.2.1.2 (.inr (hr.2.1.1 h)), .inl⟩
  have m2 : (aggregate [stdVariant ts]).reports .moveA = true ↔ (stdVariant ts).reports .moveA = true := by
    rw [h3]; exact ⟨fun h => h.elim id fun h => hr.2.2.2.2.1.2 (.inr (hr.2.2.2.1.1 h)), .inl⟩
  refine ⟨?_, ?_⟩
  · intro o ho
    rw [Bool.eq_iff_iff]
    cases o
    · exact h1.1
    · exact h1.2.1
    · exact m1
    · exact h1.2.2
    · exact m2
    · exact absurd rfl ho
  · show (aggregate [stdVariant ts]).reports .swp = true ↔ _
    rw [h4, m1, m2]

example : (integralVariant [uniquePtr, string]).reports .copyC = false ∧ (integralVariant [uniquePtr, string]).reports .moveA = true := by decide

/-- `flex_array` with the elements inside reports what the elements do (and `swap`); the others report everything. -/
theorem flex_reports (t : Ty) :
    (∀ m, m = .static ∨ m = .limited →
      (∀ o ∈ [Op.dflt, .copyC, .copyA], (flexArray m t).reports o = t.reports o) ∧
      (flexArray m t).reports .moveC = (t.reports .moveC || t.reports .copyC) ∧
      (flexArray m t).reports .moveA = (t.reports .moveA || t.reports .copyA) ∧ (flexArray m t).reports .swp = true) ∧
    (∀ o, (flexArray .vector t).reports o = true ∧ (flexArray .sbo t).reports o = true) := by
  refine ⟨?_, ?_⟩
  · rintro m (rfl | rfl)
    all_goals
      refine ⟨?_, ?_, ?_, by rw [reports_iff]; exact free_ne_no _⟩
      · intro o ho
        simp only [List.mem_cons, List.not_mem_nil, or_false] at ho
        rcases ho with rfl | rfl | rfl <;>
          simp only [Ty.reports, flexArray, flexInner, aggregate, sizeMember, List.map_cons, List.map_nil]
        · generalize t.cap .dflt = c
          cases c <;> decide
        · generalize t.cap .copyC = c
          cases c <;> decide
        · generalize t.cap .copyA = c
          cases c <;> decide
      · simp only [Ty.reports, flexArray, flexInner, aggregate, sizeMember, List.map_cons, List.map_nil]
        generalize t.cap .moveC = c
        generalize t.cap .copyC = d
        cases c <;> cases d <;> decide
      · simp only [Ty.reports, flexArray, flexInner, aggregate, sizeMember, List.map_cons, List.map_nil]
        generalize t.cap .moveA = c
        generalize t.cap .copyA = d
        cases c <;> cases d <;> decide
  · intro o
    cases o <;>
      simp only [Ty.reports, flexArray, flexInner, aggregate, stdVector, svector, List.map_cons, List.map_nil, free] <;>
      (repeat' split) <;> decide

/-- The allocators report: copying and assigning what the allocators inside report; `limit_allocator` no default construction. -/
theorem allocators_report (t : Ty) :
    (∀ o ∈ [Op.copyC, .copyA], (limitAlloc t).reports o = t.reports o ∧ (offsetAlloc t).reports o = t.reports o) ∧
    ((limitAlloc t).reports .moveC = (t.reports .moveC || t.reports .copyC) ∧ (offsetAlloc t).reports .moveC = (t.reports .moveC || t.reports .copyC)) ∧
    ((limitAlloc t).reports .moveA = (t.reports .moveA || t.reports .copyA) ∧ (offsetAlloc t).reports .moveA = (t.reports .moveA || t.reports .copyA)) ∧
    ((limitAlloc t).reports .swp = (t.reports .swp || ((limitAlloc t).reports .moveC && (limitAlloc t).reports .moveA)) ∧
      (offsetAlloc t).reports .swp = (t.reports .swp || ((offsetAlloc t).reports .moveC && (offsetAlloc t).reports .moveA))) ∧
    ((limitAlloc t).reports .dflt = false ∧ (offsetAlloc t).reports .dflt = t.reports .dflt ∧ ∀ o, poolAlloc.reports o = true) := by
  refine ⟨?_, ?_, ?_, ?_, ?_⟩
  · intro o ho
    simp only [List.mem_cons, List.not_mem_nil, or_false] at ho
    rcases ho with rfl | rfl <;>
      simp only [Ty.reports, limitAlloc, offsetAlloc, withSwap, aggregate, sharedPtr, List.map_cons, List.map_nil]
    · generalize t.cap .copyC = c
      cases c <;> decide
    · generalize t.cap .copyA = c
      cases c <;> decide
  · simp only [Ty.reports, limitAlloc, offsetAlloc, withSwap, aggregate, sharedPtr, List.map_cons, List.map_nil]
    generalize t.cap .moveC = c
    generalize t.cap .copyC = d
    cases c <;> cases d <;> decide
  · simp only [Ty.reports, limitAlloc, offsetAlloc, withSwap, aggregate, sharedPtr, List.map_cons, List.map_nil]
    generalize t.cap .moveA = c
    generalize t.cap .copyA = d
    cases c <;> cases d <;> decide
  · have key : ∀ (ms : List Ty) (d : Cap), (withSwap (aggregate ms) (t.cap .swp) d).reports .swp =
        (t.reports .swp || ((aggregate ms).reports .moveC && (aggregate ms).reports .moveA)) := by
      intro ms d
      rw [Bool.eq_iff_iff, Bool.or_eq_true, Bool.and_eq_true, ← aggregate_swap_reports, reports_iff, reports_iff, reports_iff]
      simp only [withSwap, ne_eq, orElse_no, constrained_no, List.mem_cons, List.not_mem_nil, or_false]
      rw [eq_comm (a := Cap.no)]
      by_cases h1 : t.cap .swp = .no <;> by_cases h2 : (aggregate ms).cap .swp = .no <;> simp [h1, h2]
    exact ⟨key _ _, key _ _⟩
  · refine ⟨rfl, ?_, ?_⟩
    · simp only [Ty.reports, offsetAlloc, withSwap, aggregate, List.map_cons, List.map_nil]
      generalize t.cap .dflt = c
      cases c <;> decide
    · intro o; cases o <;> decide

/-- `polymorphic_allocator` reports what the only allocator, the `variant2` or the `std::variant` reports. -/
theorem polymorphic_reports (ts : List Ty) :
    (∀ t, ts = [t] → ∀ o ∈ [Op.dflt, .copyC, .copyA], (polyAlloc ts).reports o = t.reports o) ∧
    (∀ t u, ts = [t, u] → ∀ o, (polyAlloc ts).reports o = true) ∧
    (2 < ts.length → ∀ o ∈ [Op.dflt, .copyC, .copyA], (polyAlloc ts).reports o = (stdVariant ts).reports o) := by
  have key : ∀ t : Ty, polyInner ts = t → ∀ o ∈ [Op.dflt, .copyC, .copyA], (polyAlloc ts).reports o = t.reports o := by
    intro t h o ho
    have ha := (aggregate_reports [t]).1 o ho
    rw [Bool.eq_iff_iff]
    simp only [List.mem_cons, List.not_mem_nil, or_false, forall_eq] at ha ho
    rw [← ha, polyAlloc, h]
    rcases ho with rfl | rfl | rfl <;> rfl
  refine ⟨fun t h => key t (by rw [h]; rfl), ?_, fun h => key _ ?_⟩
  · rintro t u rfl o
    have hv := variant2_reports t u
    have h1 := aggregate_reports [variant2 t u]
    have h2 := aggregate_swap_reports [variant2 t u]
    simp only [List.mem_cons, List.not_mem_nil, or_false, forall_eq_or_imp, forall_eq, hv, true_or, iff_true] at h1
    rw [h1.2.1, h1.2.2] at h2
    cases o
    · exact h1.1.1
    · exact h1.1.2.1
    · exact h1.2.1
    · exact h1.1.2.2
    · exact h1.2.2
    · rw [reports_iff]
      intro hn
      have := (orElse_no.1 hn).1
      rw [constrained_no, List.mem_singleton] at this
      exact (reports_iff _ _).1 (hv .swp) this.symm
  · match ts, h with
    | _ :: _ :: _ :: _, _ => rfl

/-- What of `basic_static_string` can be used with an allocator. -/
theorem string_compiles (a : Ty) (pocca pocma : Bool) (o : Op) :
    (staticString a pocca pocma).reports o = true ∧
    (((staticString a pocca pocma).cap o).works = true ↔ match o with
      | .dflt => (a.cap .dflt).works = true ∧ (a.cap .copyC).works = true
      | .copyC => (a.cap .copyC).works = true
      | .moveC => (a.cap .moveC).works = true
      | .copyA => pocca = true → (a.cap .copyA).works = true
      | .moveA => pocma = true → (a.cap .swp).works = true
      | .swp => (a.cap .swp).works = true) := by
  refine ⟨?_, ?_⟩
  · rw [reports_iff]; cases o <;> exact free_ne_no _
  · cases o <;> cases pocca <;> cases pocma <;> simp [staticString, free_works]

/-- Which class templates are trivially destructible: those that only contain elements, if the elements are; never those that own memory or an object behind an interface, the
channels, and the guards. -/
theorem trivially_destructible (t u m : Ty) (ts : List Ty) (d : Cap) (a b : Bool) :
    ((variant2 t u).trivDtor = true ↔ t.trivDtor = true ∧ u.trivDtor = true) ∧
    ((tuple ts).trivDtor = true ↔ ∀ x ∈ ts, x.trivDtor = true) ∧
    ((integralVariant ts).trivDtor = true ↔ ∀ x ∈ ts, x.trivDtor = true) ∧
    ((polyAlloc ts).trivDtor = true ↔ ∀ x ∈ ts, x.trivDtor = true) ∧
    (∀ k, k = .static ∨ k = .limited → ((flexArray k t).trivDtor = true ↔ t.trivDtor = true)) ∧
    (flexArray .vector t).trivDtor = false ∧ (flexArray .sbo t).trivDtor = false ∧
    ((channelIter t).trivDtor = true ↔ t.trivDtor = true) ∧
    ((mutex t m).trivDtor = true ↔ t.trivDtor = true ∧ m.trivDtor = true) ∧
    guard.trivDtor = false ∧ scopeGuard.trivDtor = false ∧ (pinned d).trivDtor = false ∧ (inplace t a b).trivDtor = false ∧ (limitAlloc t).trivDtor = false ∧
    poolAlloc.trivDtor = false ∧ (staticString t a b).trivDtor = false ∧ ((offsetAlloc t).trivDtor = true ↔ t.trivDtor = true) ∧
    pointerTagPair.trivDtor = true := by
  refine ⟨by simp [variant2], by simp [tuple, aggregate], by simp [integralVariant, aggregate, stdVariant], ?_, ?_, rfl, rfl, by simp [channelIter], by simp [mutex], rfl, rfl, rfl, rfl,
    rfl, rfl, rfl, by simp [offsetAlloc, withSwap, aggregate], rfl⟩
  · unfold polyAlloc polyInner
    split <;> simp [withSwap, aggregate, variant2, stdVariant]
  · rintro k (rfl | rfl) <;> simp [flexArray, flexInner, aggregate, sizeMember]

end Verif.Traits
