import Verif.Dangling.Lemmas

/-! What loops over views see, and what actions leave alone (`Verif/Dangling/Model.lean`). -/
namespace Verif.Dangling

variable {α : Type} [DecidableEq α]

/-! ### Loops -/

/-- The elements of a list that are neither in `seen` nor repeated (what ranges.hpp:263-270 lets through). -/
def restU : List α → List α → List α
  | [], _ => []
  | x :: l, seen => if x ∈ seen then restU l seen else x :: restU l (seen ++ [x])

theorem restU_firsts (l : List α) : ∀ pre seen : List α, (∀ y, y ∈ pre ↔ y ∈ seen) →
    restU l seen = RangesAlgo.firstOccs (fun a b => decide (a = b)) pre l := by
  induction l with
  | nil => intros; rfl
  | cons x l ih =>
    intro pre seen h
    have hall : pre.all (fun y => !decide (y = x)) = true ↔ x ∉ seen := by
      rw [List.all_eq_true]
      constructor
      · intro a hx
        simpa using a x ((h x).2 hx)
      · intro a y hy
        have : y ≠ x := by rintro rfl; exact a ((h y).1 hy)
        simpa using this
    unfold restU RangesAlgo.firstOccs
    by_cases hx : x ∈ seen
    · rw [if_pos hx, if_neg (by rw [hall]; exact fun a => a hx)]
      apply ih
      intro y
      simp only [List.mem_append, List.mem_singleton]
      constructor
      · rintro (a | rfl)
        · exact (h y).1 a
        · exact hx
      · intro a; exact .inl ((h y).2 a)
    · rw [if_neg hx, if_pos (hall.2 hx)]
      congr 1
      apply ih
      intro y
      simp only [List.mem_append, List.mem_singleton, h y]

theorem restU_shown (xs : List α) : restU xs [] = shown .uniq xs := by
  rw [restU_firsts xs [] [] (fun _ => Iff.rfl), RangesAlgo.firstOccs_eq]; rfl

/-- What is left to see for an iterator at a position of `xs` (ranges.hpp:280-300). -/
def remaining (xs : List α) (i : It α) : List α :=
  match xs.drop i.pos with
  | [] => []
  | x :: l => match i.how with
    | .all => x :: l
    | .uniq => x :: restU l i.seen
    | .filt keep => x :: l.filter keep

theorem seekU_rest (xs : List α) (blk ver p : Nat) : ∀ (l : List α) (n : Nat) (seen : List α), xs.drop n = l →
    remaining xs ⟨.uniq, blk, ver, (seekU l n seen).1, (seekU l n seen).2, p⟩ = restU l seen ∧ n ≤ (seekU l n seen).1 := by
  intro l
  induction l with
  | nil => intro n seen h; simp [remaining, seekU, restU, h]
  | cons x l ih =>
    intro n seen h
    have hl : xs.drop (n + 1) = l := by
      rw [← List.drop_drop, h]; rfl
    unfold seekU restU
    split
    · obtain ⟨a, b⟩ := ih (n + 1) seen hl
      exact ⟨a, by omega⟩
    · refine ⟨?_, Nat.le_refl _⟩
      simp [remaining, h]

theorem seekF_rest (keep : α → Bool) (xs : List α) (blk ver p : Nat) (seen : List α) : ∀ (l : List α) (n : Nat), xs.drop n = l →
    remaining xs ⟨.filt keep, blk, ver, seekF keep l n, seen, p⟩ = l.filter keep ∧ n ≤ seekF keep l n := by
  intro l
  induction l with
  | nil => intro n h; simp [remaining, seekF, h]
  | cons x l ih =>
    intro n h
    have hl : xs.drop (n + 1) = l := by
      rw [← List.drop_drop, h]; rfl
    unfold seekF
    by_cases hk : keep x = true
    · rw [if_pos hk]
      refine ⟨?_, Nat.le_refl _⟩
      simp [remaining, h, List.filter_cons, hk]
    · rw [if_neg hk]
      obtain ⟨a, b⟩ := ih (n + 1) hl
      refine ⟨?_, by omega⟩
      rw [a, List.filter_cons, if_neg hk]

/-- The view of an iterator of `remove_element` is there and adapts what the iterator iterates over (behind ranges.hpp:126). -/
def ParentOk (s : St α) (i : It α) : Prop :=
  match i.how with
  | .filt _ => ∃ w, s.view i.parent = .live w ∧ block s w.src = .ok i.block ∧ w.hollow = false
  | _ => True

theorem loopFrom_spec (s : St α) (xs : List α) : ∀ (fuel : Nat) (i : It α), base s i = .ok xs → ParentOk s i →
    xs.length < i.pos + fuel → 0 < fuel → loopFrom s fuel i = .ok (remaining xs i) := by
  intro fuel
  induction fuel with
  | zero => intro i _ _ _ h; omega
  | succ n ih =>
    intro i hb hp hl _
    unfold loopFrom
    simp only [isEnd, hb, Out.bind]
    by_cases he : xs.length ≤ i.pos
    · simp [he, remaining, List.drop_eq_nil_of_le he]
    · have hlt : i.pos < xs.length := by omega
      have hd : xs.drop i.pos = xs[i.pos] :: xs.drop (i.pos + 1) := List.drop_eq_getElem_cons hlt
      simp only [he, decide_false, Bool.false_eq_true, if_false, deref, hb, Out.bind, List.getElem?_eq_getElem hlt]
      have step : ∃ j, incr s i = .ok j ∧ base s j = .ok xs ∧ ParentOk s j ∧ i.pos < j.pos ∧
          remaining xs i = xs[i.pos] :: remaining xs j := by
        obtain ⟨how, blk, ver, pos, seen, par⟩ := i
        dsimp only at *
        cases how with
        | all =>
          refine ⟨⟨.all, blk, ver, pos + 1, seen, par⟩, by simp [incr, hb, Out.bind, he], hb, trivial, Nat.lt_succ_self _, ?_⟩
          simp only [remaining, hd]
          split <;> simp_all
        | uniq =>
          obtain ⟨a, b⟩ := seekU_rest xs blk ver par (xs.drop (pos + 1)) (pos + 1) seen rfl
          refine ⟨⟨.uniq, blk, ver, (seekU (xs.drop (pos + 1)) (pos + 1) seen).1, (seekU (xs.drop (pos + 1)) (pos + 1) seen).2, par⟩,
            by simp [incr, hb, Out.bind, he], hb, trivial, by dsimp only; omega, ?_⟩
          rw [a]; unfold remaining; dsimp only; rw [hd]
        | filt keep =>
          obtain ⟨a, b⟩ := seekF_rest keep xs blk ver par seen (xs.drop (pos + 1)) (pos + 1) rfl
          obtain ⟨w, h1, h2, h3⟩ := hp
          dsimp only at h1 h2
          refine ⟨⟨.filt keep, blk, ver, seekF keep (xs.drop (pos + 1)) (pos + 1), seen, par⟩,
            by simp [incr, hb, Out.bind, he, h1, h2, h3], hb, ⟨w, h1, h2, h3⟩, by dsimp only; omega, ?_⟩
          rw [a]; unfold remaining; dsimp only; rw [hd]
      obtain ⟨j, h1, h2, h3, h4, h5⟩ := step
      rw [h1]
      dsimp only
      have hn : 0 < n ∨ n = 0 := by omega
      rcases hn with hn | hn
      · rw [ih j h2 h3 (by omega) hn, h5]
      · subst hn; omega

/-- A loop over a view whose elements are there, with nothing cached or the right position. -/
theorem loop_spec {s : St α} {v : Nat} {w : View α} {b ver : Nat} {xs : List α} (hv : s.view v = .live w)
    (hb : block s w.src = .ok b) (hm : s.mem b = .elems xs ver)
    (hf : ∀ keep, w.how = .filt keep → w.hollow = false ∧ (w.cache = none ∨ w.cache = some (b, ver, seekF keep xs 0))) :
    ∃ s', loop s v = .ok (s', shown w.how xs) := by
  have hr : read s b = .ok (xs, ver) := by simp [read, hm]
  obtain ⟨how, src, cache, hollow⟩ := w
  dsimp only at hb hf ⊢
  cases hh : how with
  | all =>
    have hbs : base s ⟨.all, b, ver, 0, [], v⟩ = .ok xs := by simp [base, hr, Out.bind]
    refine ⟨s, ?_⟩
    simp only [loop, begin, hv, hb, hh, hr, Out.bind, hbs]
    rw [loopFrom_spec s xs _ _ hbs trivial (by simp) (by omega)]
    have : remaining xs ⟨.all, b, ver, 0, [], v⟩ = xs := by
      simp only [remaining, List.drop_zero]; cases xs <;> rfl
    simp [this, shown]
  | uniq =>
    obtain ⟨a, -⟩ := seekU_rest xs b ver v xs 0 [] rfl
    have hbs : base s ⟨.uniq, b, ver, (seekU xs 0 []).1, (seekU xs 0 []).2, v⟩ = .ok xs := by simp [base, hr, Out.bind]
    refine ⟨s, ?_⟩
    simp only [loop, begin, hv, hb, hh, hr, Out.bind, hbs]
    rw [loopFrom_spec s xs _ _ hbs trivial (by dsimp only; omega) (by omega), a, restU_shown]
  | filt keep =>
    subst hh
    obtain ⟨h1, h2⟩ := hf keep rfl
    subst h1
    obtain ⟨a, -⟩ := seekF_rest keep xs b ver v [] xs 0 rfl
    rcases h2 with h2 | h2
    · subst h2
      refine ⟨{ s with view := upd s.view v (.live ⟨.filt keep, src, some (b, ver, seekF keep xs 0), false⟩) }, ?_⟩
      have hbs : base { s with view := upd s.view v (.live ⟨.filt keep, src, some (b, ver, seekF keep xs 0), false⟩) }
          ⟨.filt keep, b, ver, seekF keep xs 0, [], v⟩ = .ok xs := by simp [base, read, hm, Out.bind]
      simp only [loop, begin, hv, hb, hr, Out.bind, Bool.false_eq_true, if_false]
      rw [hbs]
      dsimp only
      rw [loopFrom_spec _ xs _ _ hbs ⟨⟨.filt keep, src, some (b, ver, seekF keep xs 0), false⟩, by simp [upd], ?_, rfl⟩
        (by dsimp only; omega) (by omega), a]
      · rfl
      · cases src <;> simp_all [block]
    · subst h2
      refine ⟨s, ?_⟩
      have hbs : base s ⟨.filt keep, b, ver, seekF keep xs 0, [], v⟩ = .ok xs := by simp [base, hr, Out.bind]
      simp only [loop, begin, hv, hb, hr, Out.bind, Bool.false_eq_true, if_false, and_self, if_true, hbs]
      rw [loopFrom_spec s xs _ _ hbs ⟨_, hv, hb, rfl⟩ (by dsimp only; omega) (by omega), a]
      rfl

/-! ### What actions leave alone -/

/-- An action that does not change a container leaves it and its elements alone. -/
theorem frame_cont {s s' : St α} {a : Cmd α} {c : Nat} (hs : Ok s) (h : step s a = .ok s') (hc : changes c a = false) :
    s'.cont c = s.cont c ∧ ∀ b k, s.cont c = .live (b, k) → s'.mem b = s.mem b := by
  have other : ∀ o b b' k k', owns s o = some (b', k') → o ≠ (true, c) → s.cont c = .live (b, k) → b ≠ b' := by
    intro o b b' k k' ho hne hc e
    subst e
    exact hne (hs.inj _ (true, c) _ _ k ho (by simp only [owns, hc]))
  have small : ∀ b k, s.cont c = .live (b, k) → b ≠ s.fresh := by
    intro b k hc e
    have := (hs.good (true, c) b k (by simp only [owns, hc])).1
    omega
  have mv : ∀ o b b' k k', owns s o = some (b', k') → o ≠ (true, c) → s.cont c = .live (b, k) →
      (moveBlock s b' k').1.mem b = s.mem b := by
    intro o b b' k k' ho hne hc
    have n1 := other o b b' k k' ho hne hc
    have n2 := small b k hc
    cases k' <;> simp [moveBlock, upd, n1, n2]
  cases a with
  | mk d k xs =>
    simp only [changes, beq_eq_false_iff_ne] at hc
    simp only [step] at h
    split at h
    · simp only [Out.ok.injEq] at h; subst h
      refine ⟨by simp [upd, Ne.symm hc], fun b k hb => ?_⟩
      simp [upd, small b k hb]
    · cases h
  | assign d xs =>
    simp only [changes, beq_eq_false_iff_ne] at hc
    simp only [step] at h
    split at h
    · rename_i b' k' hd
      have key : ∀ b k, s.cont c = .live (b, k) → b ≠ b' := fun b k hb =>
        other (true, d) b b' k k' (by simp only [owns, hd]) (by simpa using hc) hb
      split at h
      · split at h <;>
        · simp only [Out.ok.injEq] at h; subst h
          exact ⟨rfl, fun b k hb => by simp [upd, key b k hb]⟩
      · simp only [Out.ok.injEq] at h; subst h
        exact ⟨rfl, fun b k hb => by simp [upd, key b k hb]⟩
      · cases h
    · cases h
  | drop d =>
    simp only [changes, beq_eq_false_iff_ne] at hc
    simp only [step] at h
    split at h
    · rename_i b' k' hd
      simp only [Out.ok.injEq] at h; subst h
      refine ⟨by simp [upd, Ne.symm hc], fun b k hb => ?_⟩
      have := other (true, d) b b' k k' (by simp only [owns, hd]) (by simpa using hc) hb
      simp [upd, this]
    · cases h
  | moveTo d e =>
    simp only [changes, Bool.or_eq_false_iff, beq_eq_false_iff_ne] at hc
    simp only [step] at h
    split at h
    · rename_i b' k' hd he
      simp only [Out.ok.injEq] at h; subst h
      refine ⟨by simp [upd, Ne.symm hc.1, Ne.symm hc.2, (moveBlock_rest s b' k').1], fun b k hb => ?_⟩
      exact mv (true, e) b b' k k' (by simp only [owns, he]) (by simpa using hc.2) hb
    · cases h
  | refView v how d =>
    simp only [step] at h
    split at h
    · simp only [Out.ok.injEq] at h; subst h; exact ⟨rfl, fun _ _ _ => rfl⟩
    · cases h
  | ownView v how d =>
    simp only [changes, beq_eq_false_iff_ne] at hc
    simp only [step] at h
    split at h
    · rename_i b' k' hv hd
      simp only [Out.ok.injEq] at h; subst h
      refine ⟨by simp [upd, Ne.symm hc, (moveBlock_rest s b' k').1], fun b k hb => ?_⟩
      exact mv (true, d) b b' k k' (by simp only [owns, hd]) (by simpa using hc) hb
    · cases h
  | temp v how k xs =>
    simp only [step] at h
    split at h
    · simp only [Out.ok.injEq] at h; subst h
      exact ⟨rfl, fun b k hb => by simp [upd, small b k hb]⟩
    · cases h
  | copyView w v =>
    simp only [step] at h
    split at h
    · split at h
      · split at h
        · cases h
        · simp only [Out.ok.injEq] at h; subst h; exact ⟨rfl, fun _ _ _ => rfl⟩
      · cases h
    · cases h
  | moveView w v =>
    simp only [step] at h
    split at h
    · rename_i x hw hv
      split at h
      · cases h
      · split at h
        · simp only [Out.ok.injEq] at h; subst h; exact ⟨rfl, fun _ _ _ => rfl⟩
        · rename_i b' k' hx
          simp only [Out.ok.injEq] at h; subst h
          refine ⟨by simp [(moveBlock_rest s b' k').1], fun b k hb => ?_⟩
          exact mv (false, v) b b' k k' (by simp only [owns, hv, hx]) (by simp) hb
    · cases h
  | dropView v =>
    simp only [step] at h
    split at h
    · rename_i x hv
      split at h
      · simp only [Out.ok.injEq] at h; subst h; exact ⟨rfl, fun _ _ _ => rfl⟩
      · rename_i b' k' hx
        simp only [Out.ok.injEq] at h; subst h
        refine ⟨rfl, fun b k hb => ?_⟩
        have := other (false, v) b b' k k' (by simp only [owns, hv, hx]) (by simp) hb
        simp [upd, this]
    · cases h
  | each v =>
    simp only [step] at h
    obtain ⟨⟨s1, l⟩, h1, h⟩ := bind_ok h
    simp only [Out.ok.injEq] at h; subst h
    obtain ⟨w, x, hv, e⟩ := loop_shape h1
    subst e
    exact ⟨rfl, fun _ _ _ => rfl⟩

/-- An action that neither moves from a view nor destroys it leaves it alone, but for the cached position, and its elements too
if it owns them. -/
theorem frame_view {s s' : St α} {a : Cmd α} {v : Nat} {w : View α} (hs : Ok s) (h : step s a = .ok s') (hc : spends v a = false)
    (hv : s.view v = .live w) :
    (∃ x, s'.view v = .live { w with cache := x } ∧ (x = w.cache ∨ a = .each v)) ∧
    ∀ b k, w.src = .own b k → s'.mem b = s.mem b := by
  have other : ∀ o b b' k k', owns s o = some (b', k') → o ≠ (false, v) → w.src = .own b k → b ≠ b' := by
    intro o b b' k k' ho hne hw e
    subst e
    exact hne (hs.inj _ (false, v) _ _ k ho (by simp only [owns, hv, hw]))
  have small : ∀ b k, w.src = .own b k → b ≠ s.fresh := by
    intro b k hw e
    have := (hs.good (false, v) b k (by simp only [owns, hv, hw])).1
    omega
  have mv : ∀ o b b' k k', owns s o = some (b', k') → o ≠ (false, v) → w.src = .own b k →
      (moveBlock s b' k').1.mem b = s.mem b := by
    intro o b b' k k' ho hne hw
    have n1 := other o b b' k k' ho hne hw
    have n2 := small b k hw
    cases k' <;> simp [moveBlock, upd, n1, n2]
  have same : ∃ x, s.view v = .live { w with cache := x } ∧ (x = w.cache ∨ a = .each v) := ⟨w.cache, hv, .inl rfl⟩
  have newv : ∀ u, s.view u = .never → v ≠ u := by rintro u hu rfl; rw [hv] at hu; cases hu
  cases a with
  | mk d k xs =>
    simp only [step] at h
    split at h
    · simp only [Out.ok.injEq] at h; subst h
      exact ⟨same, fun b k hb => by simp [upd, small b k hb]⟩
    · cases h
  | assign d xs =>
    simp only [step] at h
    split at h
    · rename_i b' k' hd
      have key : ∀ b k, w.src = .own b k → b ≠ b' := fun b k hb =>
        other (true, d) b b' k k' (by simp only [owns, hd]) (by simp) hb
      split at h
      · split at h <;>
        · simp only [Out.ok.injEq] at h; subst h
          exact ⟨same, fun b k hb => by simp [upd, key b k hb]⟩
      · simp only [Out.ok.injEq] at h; subst h
        exact ⟨same, fun b k hb => by simp [upd, key b k hb]⟩
      · cases h
    · cases h
  | drop d =>
    simp only [step] at h
    split at h
    · rename_i b' k' hd
      simp only [Out.ok.injEq] at h; subst h
      refine ⟨same, fun b k hb => ?_⟩
      have := other (true, d) b b' k k' (by simp only [owns, hd]) (by simp) hb
      simp [upd, this]
    · cases h
  | moveTo d e =>
    simp only [step] at h
    split at h
    · rename_i b' k' hd he
      simp only [Out.ok.injEq] at h; subst h
      refine ⟨by simpa [(moveBlock_rest s b' k').2] using same, fun b k hb => ?_⟩
      exact mv (true, e) b b' k k' (by simp only [owns, he]) (by simp) hb
    · cases h
  | refView u how d =>
    simp only [step] at h
    split at h
    · rename_i p hu hd
      simp only [Out.ok.injEq] at h; subst h
      exact ⟨by simpa [upd, newv u hu] using same, fun _ _ _ => rfl⟩
    · cases h
  | ownView u how d =>
    simp only [step] at h
    split at h
    · rename_i b' k' hu hd
      simp only [Out.ok.injEq] at h; subst h
      refine ⟨by simpa [upd, newv u hu, (moveBlock_rest s b' k').2] using same, fun b k hb => ?_⟩
      exact mv (true, d) b b' k k' (by simp only [owns, hd]) (by simp) hb
    · cases h
  | temp u how k xs =>
    simp only [step] at h
    split at h
    · rename_i hu
      simp only [Out.ok.injEq] at h; subst h
      exact ⟨by simpa [upd, newv u hu] using same, fun b k hb => by simp [upd, small b k hb]⟩
    · cases h
  | copyView u y =>
    simp only [step] at h
    split at h
    · rename_i x hu hy
      split at h
      · split at h
        · cases h
        · simp only [Out.ok.injEq] at h; subst h
          exact ⟨by simpa [upd, newv u hu] using same, fun _ _ _ => rfl⟩
      · cases h
    · cases h
  | moveView u y =>
    simp only [spends, beq_eq_false_iff_ne] at hc
    simp only [step] at h
    split at h
    · rename_i x hu hy
      split at h
      · cases h
      · split at h
        · simp only [Out.ok.injEq] at h; subst h
          exact ⟨by simpa [upd, newv u hu, Ne.symm hc] using same, fun _ _ _ => rfl⟩
        · rename_i b' k' hx
          simp only [Out.ok.injEq] at h; subst h
          refine ⟨by simpa [upd, newv u hu, Ne.symm hc, (moveBlock_rest s b' k').2] using same, fun b k hb => ?_⟩
          exact mv (false, y) b b' k k' (by simp only [owns, hy, hx]) (by simpa using hc) hb
    · cases h
  | dropView u =>
    simp only [spends, beq_eq_false_iff_ne] at hc
    simp only [step] at h
    split at h
    · rename_i x hu
      split at h
      · simp only [Out.ok.injEq] at h; subst h
        exact ⟨by simpa [upd, Ne.symm hc] using same, fun _ _ _ => rfl⟩
      · rename_i b' k' hx
        simp only [Out.ok.injEq] at h; subst h
        refine ⟨by simpa [upd, Ne.symm hc] using same, fun b k hb => ?_⟩
        have := other (false, u) b b' k k' (by simp only [owns, hu, hx]) (by simpa using hc) hb
        simp [upd, this]
    · cases h
  | each u =>
    simp only [step] at h
    obtain ⟨⟨s1, l⟩, h1, h⟩ := bind_ok h
    simp only [Out.ok.injEq] at h; subst h
    obtain ⟨w', x, hu, e⟩ := loop_shape h1
    subst e
    refine ⟨?_, fun _ _ _ => rfl⟩
    by_cases e : v = u
    · subst e
      rw [hv] at hu
      cases hu
      exact ⟨x, by simp [upd], .inr rfl⟩
    · simpa [upd, e] using (⟨w.cache, hv, .inl rfl⟩ : ∃ x, s.view v = .live { w with cache := x } ∧ (x = w.cache ∨ u = v))

end Verif.Dangling
