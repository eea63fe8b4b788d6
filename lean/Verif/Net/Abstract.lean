import Verif.Net.Model

/-! Networks with calls that take effect at once: their results do not depend on the order. -/
namespace Verif.Net

open Verif.Channel
open Verif.Pipeline (upd)

variable {α β : Type}

/-! ### Traces -/

theorem collect_append (g : List (Res α) → Res α → List β) : ∀ (a b pre : List (Res α)),
    collect g pre (a ++ b) = collect g pre a ++ collect g (pre ++ a) b
  | [], b, pre => by simp [collect]
  | r :: a, b, pre => by simp [collect, collect_append g a b (pre ++ [r])]

theorem collect_snoc (g : List (Res α) → Res α → List β) (a : List (Res α)) (r : Res α) :
    collect g [] (a ++ [r]) = collect g [] a ++ g a r := by
  rw [collect_append]; simp [collect]

theorem collect_mono (g : List (Res α) → Res α → List β) {a b : List (Res α)} (h : a <+: b) : collect g [] a <+: collect g [] b := by
  obtain ⟨c, rfl⟩ := h
  rw [collect_append]
  exact List.prefix_append ..

theorem upd_self {γ : Type} (f : Nat → γ) (i : Nat) (x : γ) : upd f i x i = x := by simp [upd]
theorem upd_other {γ : Type} (f : Nat → γ) {i j : Nat} (x : γ) (h : j ≠ i) : upd f i x j = f j := by simp [upd, h]

theorem sent_upd (p : Plan α) (A : Nat → List (Res α)) (i k : Nat) (r : Res α) :
    sent p (upd A i (A i ++ [r])) k = sent p A k ++ if p.prod k = i then oneSent (p.prog i) k (A i) r else [] := by
  unfold sent
  by_cases h : p.prod k = i
  · rw [h, upd_self, collect_snoc, if_pos rfl]
  · rw [upd_other _ _ h, if_neg h]; simp

theorem got_upd (p : Plan α) (A : Nat → List (Res α)) (i k : Nat) (r : Res α) :
    got p (upd A i (A i ++ [r])) k = got p A k ++ if p.cons k = i then oneGot (p.prog i) k (A i) r else [] := by
  unfold got
  by_cases h : p.cons k = i
  · rw [h, upd_self, collect_snoc, if_pos rfl]
  · rw [upd_other _ _ h, if_neg h]; simp

theorem shut_upd (p : Plan α) (A : Nat → List (Res α)) (i k : Nat) (r : Res α) :
    shut p (upd A i (A i ++ [r])) k = shut p A k ++ if p.prod k = i then oneShut (p.prog i) k (A i) r else [] := by
  unfold shut
  by_cases h : p.prod k = i
  · rw [h, upd_self, collect_snoc, if_pos rfl]
  · rw [upd_other _ _ h, if_neg h]; simp

/-! ### Calls that take effect at once -/

/-- With the results `A` so far, the next call of thread `i` can have the result `r` (specification of channel.hpp:58-69, 85-105, 179-194). -/
def AStep (p : Plan α) (A : Nat → List (Res α)) (i : Nat) (r : Res α) : Prop :=
  (∃ k x rest, p.prog i (A i) = .pop k ∧ r = .val (some x) ∧ sent p A k = got p A k ++ x :: rest) ∨
  (∃ k, p.prog i (A i) = .pop k ∧ r = .val none ∧ shut p A k ≠ [] ∧ sent p A k = got p A k) ∨
  (∃ k x, p.prog i (A i) = .push k x ∧ r = .bool true ∧ shut p A k = [] ∧ (sent p A k).length < (got p A k).length + p.cap k) ∨
  (∃ k x, p.prog i (A i) = .push k x ∧ r = .bool false ∧ shut p A k ≠ []) ∨
  (∃ k, p.prog i (A i) = .close k ∧ r = .unit)

/-- The results of executions with calls that take effect at once (specification of channel.hpp:58-212). -/
inductive AReach (p : Plan α) : (Nat → List (Res α)) → Prop where
  | start : AReach p (fun _ => [])
  | step {A i r} : AReach p A → AStep p A i r → AReach p (upd A i (A i ++ [r]))

/-- After `close` the producer pushes nothing. -/
theorem shut_sent {p : Plan α} (ho : p.Owned) {A : Nat → List (Res α)} (h : AReach p A) :
    ∀ k rs, rs <+: A (p.prod k) → collect (oneShut (p.prog (p.prod k)) k) [] rs ≠ [] →
      collect (oneSent (p.prog (p.prod k)) k) [] rs = sent p A k := by
  induction h with
  | start => intro k rs h; simp at h; subst h; simp [sent]
  | @step A i r ha hs ih =>
    intro k rs hrs hne
    rw [sent_upd]
    by_cases hi : p.prod k = i
    · rw [hi, upd_self] at hrs
      rcases List.prefix_concat_iff.1 hrs with e | hrs
      · subst e
        rw [if_pos hi, ← hi, collect_snoc]; rfl
      · have hrs' : rs <+: A (p.prod k) := by rw [hi]; exact hrs
        rw [ih k rs hrs' hne, if_pos hi]
        have hz : oneSent (p.prog i) k (A i) r = [] := by
          have hsh : shut p A k ≠ [] := fun e => hne (List.prefix_nil.1 (e ▸ collect_mono _ hrs'))
          rcases hs with ⟨k', x, rest, hp, rfl, -⟩ | ⟨k', hp, rfl, -⟩ | ⟨k', x, hp, rfl, hc, -⟩ | ⟨k', x, hp, rfl, -⟩ | ⟨k', hp, rfl⟩ <;>
            simp [oneSent, hp]
          rintro rfl; exact absurd hc hsh
        simp [hz]
    · rw [upd_other _ _ hi] at hrs
      rw [if_neg hi, ih k rs hrs hne]; simp

/-- Why a result was possible; stays true (about results of channel.hpp:58-69, 85-105, 179-194). -/
def Just (p : Plan α) (B : Nat → List (Res α)) (i : Nat) (rs : List (Res α)) (r : Res α) : Prop :=
  (∃ k x, p.prog i rs = .pop k ∧ r = .val (some x) ∧ collect (oneGot (p.prog i) k) [] rs ++ [x] <+: sent p B k) ∨
  (∃ k, p.prog i rs = .pop k ∧ r = .val none ∧ shut p B k ≠ [] ∧ sent p B k = collect (oneGot (p.prog i) k) [] rs) ∨
  (∃ k x, p.prog i rs = .push k x ∧ r = .bool true ∧ collect (oneShut (p.prog i) k) [] rs = []) ∨
  (∃ k x, p.prog i rs = .push k x ∧ r = .bool false ∧ collect (oneShut (p.prog i) k) [] rs ≠ []) ∨
  (∃ k, p.prog i rs = .close k ∧ r = .unit)

theorem just_of {p : Plan α} (ho : p.Owned) {A : Nat → List (Res α)} {i : Nat} {r : Res α} (hs : AStep p A i r) :
    Just p A i (A i) r := by
  have h := ho i (A i)
  rcases hs with ⟨k, x, rest, hp, rfl, hq⟩ | ⟨k, hp, rfl, hc, hq⟩ | ⟨k, x, hp, rfl, hc, -⟩ | ⟨k, x, hp, rfl, hc⟩ | ⟨k, hp, rfl⟩
  · have := h.1 k hp
    refine .inl ⟨k, x, hp, rfl, rest, ?_⟩
    rw [hq, ← this]; simp [got]
  · have := h.1 k hp
    refine .inr (.inl ⟨k, hp, rfl, hc, ?_⟩)
    rw [hq, ← this]; rfl
  · have := h.2.1 k x hp
    refine .inr (.inr (.inl ⟨k, x, hp, rfl, ?_⟩))
    rw [← this]; exact hc
  · have := h.2.1 k x hp
    refine .inr (.inr (.inr (.inl ⟨k, x, hp, rfl, ?_⟩)))
    rw [← this]; exact hc
  · exact .inr (.inr (.inr (.inr ⟨k, hp, rfl⟩)))

theorem just_mono {p : Plan α} (ho : p.Owned) {A : Nat → List (Res α)} {i j : Nat} {r r' : Res α} {rs : List (Res α)}
    (ha : AReach p A) (hs : AStep p A i r) (h : Just p A j rs r') : Just p (upd A i (A i ++ [r])) j rs r' := by
  have hpre : ∀ k, A (p.prod k) <+: upd A i (A i ++ [r]) (p.prod k) := by
    intro k
    by_cases e : p.prod k = i
    · rw [e, upd_self]; exact List.prefix_append ..
    · rw [upd_other _ _ e]; exact List.prefix_rfl
  rcases h with ⟨k, x, hp, rfl, hq⟩ | ⟨k, hp, rfl, hc, hq⟩ | h | h | h
  · exact .inl ⟨k, x, hp, rfl, hq.trans (collect_mono _ (hpre k))⟩
  · refine .inr (.inl ⟨k, hp, rfl, fun e => hc (List.prefix_nil.1 (e ▸ collect_mono _ (hpre k))), ?_⟩)
    rw [← hq]
    exact (shut_sent ho (.step ha hs) k (A (p.prod k)) (hpre k) hc).symm
  · exact .inr (.inr (.inl h))
  · exact .inr (.inr (.inr (.inl h)))
  · exact .inr (.inr (.inr (.inr h)))

/-- Every result is justified. -/
theorem justified {p : Plan α} (ho : p.Owned) {A : Nat → List (Res α)} (h : AReach p A) :
    ∀ i rs r, rs ++ [r] <+: A i → Just p A i rs r := by
  induction h with
  | start => intro i rs r h; simp at h
  | @step A i r ha hs ih =>
    intro j rs r' hrs
    by_cases e : j = i
    · subst e
      rw [upd_self] at hrs
      rcases List.prefix_concat_iff.1 hrs with e | hrs
      · obtain ⟨e1, e2⟩ := List.append_inj' e rfl
        simp at e2; subst e1 e2
        exact just_mono ho ha hs (just_of ho hs)
      · exact just_mono ho ha hs (ih _ _ _ hrs)
    · rw [upd_other _ _ e] at hrs
      exact just_mono ho ha hs (ih _ _ _ hrs)

/-- One is a beginning of the other. -/
def Comparable {γ : Type} (a b : List γ) : Prop := a <+: b ∨ b <+: a

theorem prefix_next {γ : Type} {a b : List γ} (h : a <+: b) : a = b ∨ ∃ x, a ++ [x] <+: b := by
  obtain ⟨c, rfl⟩ := h
  cases c with
  | nil => simp
  | cons x c => exact .inr ⟨x, c, by simp⟩

theorem same_next {γ : Type} {l a b : List γ} {x y : γ} (h : Comparable a b) (hx : l ++ [x] <+: a) (hy : l ++ [y] <+: b) : x = y := by
  rcases h with h | h
  · have := List.prefix_of_prefix_length_le (hx.trans h) hy (by simp)
    rw [List.prefix_append_right_inj] at this
    simpa using this
  · have := List.prefix_of_prefix_length_le hx (hy.trans h) (by simp)
    rw [List.prefix_append_right_inj] at this
    simpa using this

theorem no_next {γ : Type} {l : List γ} {x : γ} (h : l ++ [x] <+: l) : False := by
  have := h.length_le
  simp at this
  omega

/-- The results of any two executions are comparable, thread by thread. -/
theorem determined {p : Plan α} (ho : p.Owned) {A B : Nat → List (Res α)} (hA : AReach p A) (hB : AReach p B) :
    ∀ i, Comparable (A i) (B i) := by
  induction hA with
  | start => intro i; exact .inl (List.nil_prefix)
  | @step A i r ha hs ih =>
    intro j
    by_cases e : j = i
    · subst e
      rw [upd_self]
      rcases ih j with h | h
      · rcases prefix_next h with h | ⟨r', h⟩
        · exact .inr (h ▸ List.prefix_append ..)
        · left
          have hr : r = r' := by
            have h1 := just_of ho hs
            have h2 := justified ho hB _ _ _ h
            have hsent : ∀ k, Comparable (sent p A k) (sent p B k) := by
              intro k
              rcases ih (p.prod k) with h | h
              · exact .inl (collect_mono _ h)
              · exact .inr (collect_mono _ h)
            -- a closed channel has the same contents in both
            have hclosed : ∀ k l x, shut p A k ≠ [] → sent p A k = l → l ++ [x] <+: sent p B k → False := by
              intro k l x hc hl hx
              rcases ih (p.prod k) with h | h
              · have := shut_sent ho hB k _ h hc
                rw [← this] at hx
                have e : collect (oneSent (p.prog (p.prod k)) k) [] (A (p.prod k)) = l := hl
                rw [e] at hx
                exact no_next hx
              · have := (collect_mono (oneSent (p.prog (p.prod k)) k) h)
                have := hx.trans this
                rw [show collect (oneSent (p.prog (p.prod k)) k) [] (A (p.prod k)) = l from hl] at this
                exact no_next this
            have hclosed' : ∀ k l x, shut p B k ≠ [] → sent p B k = l → l ++ [x] <+: sent p A k → False := by
              intro k l x hc hl hx
              rcases ih (p.prod k) with h | h
              · have := (collect_mono (oneSent (p.prog (p.prod k)) k) h)
                have := hx.trans this
                rw [show collect (oneSent (p.prog (p.prod k)) k) [] (B (p.prod k)) = l from hl] at this
                exact no_next this
              · have := shut_sent ho ha k _ h hc
                rw [← this] at hx
                have e : collect (oneSent (p.prog (p.prod k)) k) [] (B (p.prod k)) = l := hl
                rw [e] at hx
                exact no_next hx
            rcases h1 with ⟨k, x, hp, rfl, hq⟩ | ⟨k, hp, rfl, hc, hq⟩ | ⟨k, x, hp, rfl, hc⟩ | ⟨k, x, hp, rfl, hc⟩ | ⟨k, hp, rfl⟩ <;>
              rcases h2 with ⟨k', x', hp', rfl, hq'⟩ | ⟨k', hp', rfl, hc', hq'⟩ | ⟨k', x', hp', rfl, hc'⟩ | ⟨k', x', hp', rfl, hc'⟩ |
                ⟨k', hp', rfl⟩ <;> rw [hp] at hp' <;> cases hp'
            · rw [same_next (hsent k) hq hq']
            · exact (hclosed' k _ x hc' hq' hq).elim
            · exact (hclosed k _ x' hc hq hq').elim
            · exact absurd hc hc'
            · exact absurd hc' hc
          rw [hr]; exact h
      · exact .inr (h.trans (List.prefix_append ..))
    · rw [upd_other _ _ e]; exact ih j

/-- An execution that cannot go on has all the results of all executions. -/
theorem maximal {p : Plan α} (ho : p.Owned) {A B : Nat → List (Res α)} (hA : AReach p A) (hs : ∀ i r, ¬ AStep p A i r)
    (hB : AReach p B) : ∀ i, B i <+: A i := by
  induction hB with
  | start => intro i; exact List.nil_prefix
  | @step B i r hb hst ih =>
    intro j
    by_cases e : j = i
    · subst e
      rw [upd_self]
      have hcmp := determined ho hA (.step hb hst) j
      rw [upd_self] at hcmp
      rcases hcmp with h | h
      · rcases List.prefix_concat_iff.1 h with h | h
        · rw [h]; exact List.prefix_rfl
        · exfalso
          have heq : A j = B j := h.eq_of_length_le (ih j).length_le
          have hsub : ∀ k, sent p B k <+: sent p A k := fun k => collect_mono _ (ih _)
          have hgot : ∀ k, got p B k <+: got p A k := fun k => collect_mono _ (ih _)
          have hown := ho j (B j)
          rcases hst with ⟨k, x, rest, hp, rfl, hq⟩ | ⟨k, hp, rfl, hc, hq⟩ | ⟨k, x, hp, rfl, hc, hl⟩ | ⟨k, x, hp, rfl, hc⟩ | ⟨k, hp, rfl⟩
          · have hk := hown.1 k hp
            have hg : got p A k = got p B k := by unfold got; rw [hk, heq]
            obtain ⟨more, hm⟩ := hsub k
            refine hs j (.val (some x)) (.inl ⟨k, x, rest ++ more, by rw [heq]; exact hp, rfl, ?_⟩)
            rw [hg, ← hm, hq]; simp
          · have hk := hown.1 k hp
            have hg : got p A k = got p B k := by unfold got; rw [hk, heq]
            refine hs j (.val none) (.inr (.inl ⟨k, by rw [heq]; exact hp, rfl, ?_, ?_⟩))
            · intro e; exact hc (List.prefix_nil.1 (e ▸ collect_mono _ (ih _)))
            · rw [hg, ← hq]
              exact (shut_sent ho hA k _ (ih _) hc).symm
          · have hk := hown.2.1 k x hp
            refine hs j (.bool true) (.inr (.inr (.inl ⟨k, x, by rw [heq]; exact hp, rfl, ?_, ?_⟩)))
            · unfold shut at hc ⊢; rw [hk] at hc ⊢; rw [heq]; exact hc
            · have h1 : sent p A k = sent p B k := by unfold sent; rw [hk, heq]
              have h2 := (hgot k).length_le
              rw [h1]; omega
          · have hk := hown.2.1 k x hp
            refine hs j (.bool false) (.inr (.inr (.inr (.inl ⟨k, x, by rw [heq]; exact hp, rfl, ?_⟩))))
            unfold shut at hc ⊢; rw [hk] at hc ⊢; rw [heq]; exact hc
          · exact hs j .unit (.inr (.inr (.inr (.inr ⟨k, by rw [heq]; exact hp, rfl⟩))))
      · exact h
    · rw [upd_other _ _ e]; exact ih j

end Verif.Net
