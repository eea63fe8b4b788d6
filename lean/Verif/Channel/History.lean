import Verif.Channel.Wake
import Mathlib.Data.List.Induction

/-! Facts about histories that follow from `Explains` and `ThreadRun`. -/
namespace Verif.Channel

variable {α : Type}

theorem snoc_inj {β : Type} {a b : List β} {x y : β} (h : a ++ [x] = b ++ [y]) : a = b ∧ x = y := by
  have := List.append_inj' h rfl
  simpa using this

theorem inserted_append (h1 h2 : List (Ev α)) : inserted (h1 ++ h2) = inserted h1 ++ inserted h2 := by
  fun_induction inserted h1 <;> simp_all [inserted]

theorem removed_append (h1 h2 : List (Ev α)) : removed (h1 ++ h2) = removed h1 ++ removed h2 := by
  fun_induction removed h1 <;> simp_all [removed]

theorem Explains.fifo {cap : Nat} {h : List (Ev α)} {s} (he : Explains cap h s) :
    inserted h = removed h ++ s.1 := by
  induction he with
  | nil => rfl
  | call _ ih => simp [inserted_append, removed_append, inserted, removed, ih]
  | ret _ ih => simp [inserted_append, removed_append, inserted, removed, ih]
  | lin _ ha ih =>
    cases ha <;> simp [inserted_append, removed_append, inserted, removed, ih]

theorem Explains.bound {cap : Nat} {h : List (Ev α)} {s} (he : Explains cap h s) : s.1.length ≤ cap := by
  induction he with
  | nil => simp
  | call _ ih => exact ih
  | ret _ ih => exact ih
  | lin _ ha ih => cases ha <;> simp_all <;> omega

theorem Explains.nil_inv {cap : Nat} {s : List α × Bool} (he : Explains cap [] s) : s = ([], false) := by
  generalize hg : ([] : List (Ev α)) = g at he
  cases he <;> simp_all

theorem Explains.snoc_inv {cap : Nat} {h : List (Ev α)} {e s'} (he : Explains cap (h ++ [e]) s') :
    ∃ s, Explains cap h s ∧
      ((∀ t op r, e ≠ .lin t op r) ∧ s' = s ∨ ∃ t op r, e = .lin t op r ∧ Atomic cap s op r s') := by
  generalize hg : h ++ [e] = g at he
  cases he with
  | nil => simp at hg
  | call he => obtain ⟨rfl, rfl⟩ := snoc_inj hg; exact ⟨_, he, .inl ⟨by simp, rfl⟩⟩
  | ret he => obtain ⟨rfl, rfl⟩ := snoc_inj hg; exact ⟨_, he, .inl ⟨by simp, rfl⟩⟩
  | lin he ha => obtain ⟨rfl, rfl⟩ := snoc_inj hg; exact ⟨_, he, .inr ⟨_, _, _, rfl, ha⟩⟩

theorem Explains.prefix {cap : Nat} {h1 h2 : List (Ev α)} {s'} (he : Explains cap (h1 ++ h2) s') :
    ∃ s, Explains cap h1 s := by
  induction h2 using List.reverseRecOn generalizing s' with
  | nil => rw [List.append_nil] at he; exact ⟨_, he⟩
  | append_singleton h e ih =>
    rw [← List.append_assoc] at he
    obtain ⟨s, hs, _⟩ := he.snoc_inv
    exact ih hs

theorem Atomic.det {cap : Nat} {s s1 s2 : List α × Bool} {op : Op α} {r} (h1 : Atomic cap s op r s1)
    (h2 : Atomic cap s op r s2) : s1 = s2 := by
  cases h1 <;> cases h2 <;> rfl

theorem Explains.det {cap : Nat} {h : List (Ev α)} {s1 s2} (h1 : Explains cap h s1) (h2 : Explains cap h s2) :
    s1 = s2 := by
  induction h using List.reverseRecOn generalizing s1 s2 with
  | nil => rw [h1.nil_inv, h2.nil_inv]
  | append_singleton h e ih =>
    obtain ⟨a, ha, ha'⟩ := h1.snoc_inv
    obtain ⟨b, hb, hb'⟩ := h2.snoc_inv
    have := ih ha hb; subst this
    rcases ha' with ⟨hn, rfl⟩ | ⟨t, op, r, rfl, hA⟩
    · rcases hb' with ⟨_, rfl⟩ | ⟨t, op, r, rfl, _⟩
      · rfl
      · exact absurd rfl (hn _ _ _)
    · rcases hb' with ⟨hn, _⟩ | ⟨t', op', r', he, hB⟩
      · exact absurd rfl (hn _ _ _)
      · cases he; exact hA.det hB

/-- Once closed, closed for ever, and only removals happen. -/
theorem Explains.after_closed {cap : Nat} {h1 h2 : List (Ev α)} {q : List α} {s'}
    (h : Explains cap h1 (q, true)) (h' : Explains cap (h1 ++ h2) s') :
    s'.2 = true ∧ inserted h2 = [] ∧ (∀ t v r, .lin t (.push v) r ∈ h2 → r = .bool false) ∧
      (∀ t v r, .lin t (.tryPush v) r ∈ h2 → r = .bool false) ∧ ∃ d, q = d ++ s'.1 := by
  induction h2 using List.reverseRecOn generalizing s' with
  | nil =>
    rw [List.append_nil] at h'
    have := h.det h'; subst this
    simp [inserted]
  | append_singleton g e ih =>
    rw [← List.append_assoc] at h'
    obtain ⟨s, hs, he⟩ := h'.snoc_inv
    obtain ⟨hc, hi, hp, ht, d, hd⟩ := ih hs
    rcases he with ⟨hn, rfl⟩ | ⟨t, op, r, rfl, ha⟩
    · refine ⟨hc, ?_, ?_, ?_, d, hd⟩
      · rw [inserted_append, hi]
        cases e <;> simp [inserted]
        exact absurd rfl (hn _ _ _)
      · intro t v r hm
        rcases List.mem_append.mp hm with hm | hm
        · exact hp t v r hm
        · simp at hm; exact absurd hm.symm (hn _ _ _)
      · intro t v r hm
        rcases List.mem_append.mp hm with hm | hm
        · exact ht t v r hm
        · simp at hm; exact absurd hm.symm (hn _ _ _)
    · obtain ⟨sq, sc⟩ := s
      dsimp only at hc; subst hc
      have key : s'.2 = true ∧ inserted [Ev.lin t op r] = [] ∧
          (∀ v, op = .push v → r = .bool false) ∧ (∀ v, op = .tryPush v → r = .bool false) ∧
          ∃ d, sq = d ++ s'.1 := by
        clear hp ht hs h h' ih hi hd
        cases ha <;> simp [inserted]
        all_goals exact ⟨[_], rfl⟩
      obtain ⟨k1, k2, k3, k4, d', k5⟩ := key
      refine ⟨k1, by rw [inserted_append, hi, k2]; rfl, ?_, ?_, d ++ d', ?_⟩
      · intro t' v r' hm
        rcases List.mem_append.mp hm with hm | hm
        · exact hp t' v r' hm
        · simp at hm; obtain ⟨rfl, h1, rfl⟩ := hm; exact k3 v h1.symm
      · intro t' v r' hm
        rcases List.mem_append.mp hm with hm | hm
        · exact ht t' v r' hm
        · simp at hm; obtain ⟨rfl, h1, rfl⟩ := hm; exact k4 v h1.symm
      · rw [hd, List.append_assoc, ← k5]

theorem Explains.closed_of_mem {cap : Nat} {h : List (Ev α)} {s} {t : Nat} {r} (he : Explains cap h s)
    (hm : Ev.lin t .close r ∈ h) : s.2 = true := by
  induction he with
  | nil => simp at hm
  | call he ih => simp at hm; exact ih hm
  | ret he ih => simp at hm; exact ih hm
  | lin he ha ih =>
    rcases List.mem_append.mp hm with hm | hm
    · have := ih hm
      cases ha <;> simp_all
    · simp at hm
      obtain ⟨rfl, rfl, rfl⟩ := hm
      cases ha; rfl

theorem Explains.close_mem {cap : Nat} {h : List (Ev α)} {s} (he : Explains cap h s) (hc : s.2 = true) :
    ∃ t, Ev.lin t .close .unit ∈ h := by
  induction he with
  | nil => simp at hc
  | call he ih => obtain ⟨t, ht⟩ := ih hc; exact ⟨t, by simp [ht]⟩
  | ret he ih => obtain ⟨t, ht⟩ := ih hc; exact ⟨t, by simp [ht]⟩
  | @lin h s s' t op r he ha ih =>
    by_cases h2 : s.2 = true
    · obtain ⟨t, ht⟩ := ih h2; exact ⟨t, by simp [ht]⟩
    · cases ha <;> simp_all

/-! ### Threads -/

theorem ThreadRun.snoc_inv {lossy : Bool} {t : Nat} {h : List (Ev α)} {e p} (hr : ThreadRun lossy t (h ++ [e]) p) :
    (e.tid ≠ t ∧ ThreadRun lossy t h p) ∨
    (∃ op, e = .call t op ∧ p = .called op ∧ ThreadRun lossy t h .idle) ∨
    (∃ op r, e = .lin t op r ∧ p = .lined op r ∧ ThreadRun lossy t h (.called op)) ∨
    (∃ op r r', e = .ret t r ∧ p = .idle ∧ ThreadRun lossy t h (.lined op r') ∧
      (r = r' ∨ (lossy = true ∧ r = .threw ∧ ∃ x, r' = .val (some x)))) := by
  generalize hg : h ++ [e] = g at hr
  cases hr with
  | nil => simp at hg
  | other hr ht => obtain ⟨rfl, rfl⟩ := snoc_inj hg; exact .inl ⟨ht, hr⟩
  | call hr => obtain ⟨rfl, rfl⟩ := snoc_inj hg; exact .inr (.inl ⟨_, rfl, rfl, hr⟩)
  | lin hr => obtain ⟨rfl, rfl⟩ := snoc_inj hg; exact .inr (.inr (.inl ⟨_, _, rfl, rfl, hr⟩))
  | ret hr => obtain ⟨rfl, rfl⟩ := snoc_inj hg; exact .inr (.inr (.inr ⟨_, _, _, rfl, rfl, hr, .inl rfl⟩))
  | retLost hl hr =>
    obtain ⟨rfl, rfl⟩ := snoc_inj hg
    exact .inr (.inr (.inr ⟨_, _, _, rfl, rfl, hr, .inr ⟨hl, rfl, _, rfl⟩⟩))

theorem ThreadRun.prefix {lossy : Bool} {t : Nat} {h1 h2 : List (Ev α)} {p} (hr : ThreadRun lossy t (h1 ++ h2) p) :
    ∃ p, ThreadRun lossy t h1 p := by
  induction h2 using List.reverseRecOn generalizing p with
  | nil => rw [List.append_nil] at hr; exact ⟨_, hr⟩
  | append_singleton h e ih =>
    rw [← List.append_assoc] at hr
    rcases hr.snoc_inv with ⟨_, h⟩ | ⟨_, _, _, h⟩ | ⟨_, _, _, _, h⟩ | ⟨_, _, _, _, _, h, _⟩ <;> exact ih h

/-- Between a call and the matching return there is exactly one `lin` event of that thread. -/
theorem ThreadRun.window {lossy : Bool} {t : Nat} {h1 h2 : List (Ev α)} {op p}
    (hw : ∀ e ∈ h2, e.tid = t → ∃ op r, e = .lin t op r)
    (hr : ThreadRun lossy t (h1 ++ .call t op :: h2) p) :
    (p = .called op ∧ ∀ e ∈ h2, e.tid ≠ t) ∨
    ∃ g1 g2 r, h2 = g1 ++ .lin t op r :: g2 ∧ p = .lined op r ∧ (∀ e ∈ g1 ++ g2, e.tid ≠ t) := by
  induction h2 using List.reverseRecOn generalizing p with
  | nil =>
    rcases hr.snoc_inv with ⟨h, _⟩ | ⟨op', h, hp, _⟩ | ⟨_, _, h, _⟩ | ⟨_, _, _, h, _⟩
    · exact absurd rfl h
    · cases h; exact .inl ⟨hp, by simp⟩
    · cases h
    · cases h
  | append_singleton g e ih =>
    have hr' : ThreadRun lossy t ((h1 ++ .call t op :: g) ++ [e]) p := by simpa using hr
    have hw' : ∀ e ∈ g, e.tid = t → ∃ op r, e = .lin t op r := fun e he => hw e (by simp [he])
    rcases hr'.snoc_inv with ⟨h, hr1⟩ | ⟨op', h, hp, _⟩ | ⟨op', r', h, hp, hr1⟩ | ⟨_, _, _, h, _⟩
    · rcases ih hw' hr1 with ⟨hp, hn⟩ | ⟨g1, g2, r, rfl, hp, hn⟩
      · refine .inl ⟨hp, ?_⟩
        intro x hx
        rcases List.mem_append.mp hx with hx | hx
        · exact hn x hx
        · simp at hx; subst hx; exact h
      · refine .inr ⟨g1, g2 ++ [e], r, by simp, hp, ?_⟩
        intro x hx
        simp only [← List.append_assoc, List.mem_append, List.mem_singleton] at hx
        rcases hx with hx | hx
        · exact hn x (by simpa using hx)
        · subst hx; exact h
    · obtain ⟨_, _, h'⟩ := hw e (by simp) (by subst h; rfl)
      subst h; cases h'
    · subst h
      rcases ih hw' hr1 with ⟨hp', hn⟩ | ⟨g1, g2, r, rfl, hp', hn⟩
      · cases hp'
        exact .inr ⟨g, [], r', rfl, hp, by simpa using hn⟩
      · cases hp'
    · obtain ⟨_, _, h'⟩ := hw e (by simp) (by subst h; rfl)
      subst h; cases h'

end Verif.Channel
