import Verif.RangesThrow.Model
import Verif.RangesAlgo.Props

/-! C101: what is left of views, iterators and algorithms after exceptions. -/
namespace Verif.RangesThrow

open Verif.RangesAlgo (SetImpl insert Finds hashSet_finds hashSet)
open Verif.FlexArray (Cmp)

variable {α β γ τ I : Type}

/-! ### Specification -/

/-- The elements of a list whose positions, counted from `i`, are not among the lost ones. -/
def without (lost : List Nat) : Nat → List α → List α
  | _, [] => []
  | i, x :: l => if i ∈ lost then without lost (i + 1) l else x :: without lost (i + 1) l

/-- The elements that are not equal to one in `s` or to an earlier one. -/
def firstsAfter (eq : α → α → Bool) : List α → List α → List α
  | _, [] => []
  | s, x :: l => if s.any (fun y => eq x y) then firstsAfter eq s l else x :: firstsAfter eq (x :: s) l

/-- The first occurrences. -/
def firsts (eq : α → α → Bool) (l : List α) : List α := firstsAfter eq [] l

/-! ### Single operations -/

theorem draw_length (fs : List Bool) : (draw fs).2.length + (draw fs).1.toNat ≤ fs.length := by
  cases fs with
  | nil => simp [draw]
  | cons b fs => cases b <;> simp [draw]

theorem draw_count (fs : List Bool) : (draw fs).2.count true + (draw fs).1.toNat ≤ fs.count true := by
  cases fs with
  | nil => simp [draw]
  | cons b fs => cases b <;> simp [draw]

theorem insert_spec {set : SetImpl α} {eq : α → α → Bool} (hs : Finds set eq) (seen : List α) (x : α) :
    insert set seen x = if seen.any (fun y => eq x y) then (seen, false) else (x :: seen, true) := by
  have : set seen x = seen.any fun y => eq x y := by
    rw [Bool.eq_iff_iff, hs]; simp
  unfold Verif.RangesAlgo.insert
  rw [this]

/-- **C101.** What a search of `unique_view` does: the elements it passes have been seen before. If it ends on an element, this one is new and becomes seen; if it throws,
what has been seen is the same as before, and it stays on an element. -/
theorem search_unique {set : SetImpl α} {eq : α → α → Bool} (hs : Finds set eq) : ∀ (l : List α) (it : UIt α) (fs : List Bool),
    ∃ k, (findNext set l it fs).it.pos = it.pos + k ∧ k ≤ l.length ∧ (∀ x ∈ l.take k, ∃ y ∈ it.seen, eq x y = true) ∧
      (findNext set l it fs).faults.length + (findNext set l it fs).threw.toNat ≤ fs.length ∧
      (findNext set l it fs).faults.count true + (findNext set l it fs).threw.toNat ≤ fs.count true ∧
      match (findNext set l it fs).threw with
      | true => k < l.length ∧ (findNext set l it fs).it.seen = it.seen
      | false => match l[k]? with
        | none => (findNext set l it fs).it.seen = it.seen
        | some x => (∀ y ∈ it.seen, eq x y = false) ∧ (findNext set l it fs).it.seen = x :: it.seen := by
  intro l
  induction l with
  | nil => intro it fs; exact ⟨0, by simp [findNext]⟩
  | cons x l ih =>
    intro it fs
    have d1 := draw_length fs
    have c1 := draw_count fs
    simp only [findNext]
    generalize draw fs = d at d1 c1
    obtain ⟨b, fs1⟩ := d
    dsimp only at d1 c1
    cases b with
    | true => exact ⟨0, by simp, by simp, by simp, d1, c1, by simp⟩
    | false =>
      dsimp only
      rw [insert_spec hs]
      by_cases hx : it.seen.any (fun y => eq x y) = true
      · rw [if_pos hx]
        dsimp only
        have d2 := draw_length fs1
        have c2 := draw_count fs1
        generalize draw fs1 = d at d2 c2
        obtain ⟨b, fs2⟩ := d
        dsimp only at d2 c2
        simp only [Bool.toNat_false, Nat.add_zero] at d1 c1
        cases b with
        | true => exact ⟨0, by simp, by simp, by simp, Nat.le_trans d2 d1, Nat.le_trans c2 c1, by simp⟩
        | false =>
          dsimp only
          simp only [Bool.toNat_false, Nat.add_zero] at d2 c2
          obtain ⟨k, h1, h2, h3, h4, h5, h6⟩ := ih ⟨it.seen, it.pos + 1⟩ fs2
          refine ⟨k + 1, by rw [h1]; dsimp only; omega, by simp; omega, ?_, by omega, by omega, ?_⟩
          · intro z hz
            simp only [List.take_succ_cons, List.mem_cons] at hz
            rcases hz with rfl | hz
            · simpa using hx
            · exact h3 z hz
          · cases ht : (findNext set l ⟨it.seen, it.pos + 1⟩ fs2).threw with
            | true => rw [ht] at h6; simpa using h6
            | false => rw [ht] at h6; simpa using h6
      · rw [if_neg hx]
        dsimp only
        refine ⟨0, by simp, by simp, by simp, d1, c1, ?_⟩
        simp only [List.getElem?_cons_zero, and_true]
        intro y hy
        simp only [List.any_eq_true, not_exists, not_and, Bool.not_eq_true] at hx
        exact hx y hy

/-- What a search of a filter does. -/
theorem search_filter (keep : α → Bool) : ∀ (l : List α) (p : Nat) (fs : List Bool),
    ∃ k, (findIf keep l p fs).it = p + k ∧ k ≤ l.length ∧ (∀ x ∈ l.take k, keep x = false) ∧
      (findIf keep l p fs).faults.length + (findIf keep l p fs).threw.toNat ≤ fs.length ∧
      (findIf keep l p fs).faults.count true + (findIf keep l p fs).threw.toNat ≤ fs.count true ∧
      match (findIf keep l p fs).threw with
      | true => k < l.length
      | false => ∀ x, l[k]? = some x → keep x = true := by
  intro l
  induction l with
  | nil => intro p fs; exact ⟨0, by simp [findIf]⟩
  | cons x l ih =>
    intro p fs
    have d1 := draw_length fs
    have c1 := draw_count fs
    simp only [findIf]
    generalize draw fs = d at d1 c1
    obtain ⟨b, fs1⟩ := d
    dsimp only at d1 c1
    cases b with
    | true => exact ⟨0, by simp, by simp, by simp, d1, c1, by simp⟩
    | false =>
      dsimp only
      cases hx : keep x with
      | true => exact ⟨0, by simp, by simp, by simp, d1, c1, by simp [hx]⟩
      | false =>
        dsimp only
        have d2 := draw_length fs1
        have c2 := draw_count fs1
        generalize draw fs1 = d at d2 c2
        obtain ⟨b, fs2⟩ := d
        dsimp only at d2 c2
        simp only [Bool.toNat_false, Nat.add_zero] at d1 c1
        cases b with
        | true => exact ⟨0, by simp, by simp, by simp, Nat.le_trans d2 d1, Nat.le_trans c2 c1, by simp⟩
        | false =>
          dsimp only
          simp only [Bool.toNat_false, Nat.add_zero] at d2 c2
          obtain ⟨k, h1, h2, h3, h4, h5, h6⟩ := ih (p + 1) fs2
          refine ⟨k + 1, by rw [h1]; omega, by simp; omega, ?_, by omega, by omega, ?_⟩
          · intro z hz
            simp only [List.take_succ_cons, List.mem_cons] at hz
            rcases hz with rfl | hz
            · exact hx
            · exact h3 z hz
          · cases ht : (findIf keep l (p + 1) fs2).threw with
            | true => rw [ht] at h6; simpa using h6
            | false => rw [ht] at h6; simpa using h6

/-! ### Loops that go on after exceptions -/

theorem firsts_skip {eq : α → α → Bool} {s : List α} (m : List α) : ∀ l : List α, (∀ x ∈ l, ∃ y ∈ s, eq x y = true) →
    firstsAfter eq s (l ++ m) = firstsAfter eq s m := by
  intro l
  induction l with
  | nil => intro _; rfl
  | cons x l ih =>
    intro h
    obtain ⟨y, hy, e⟩ := h x (by simp)
    have : s.any (fun y => eq x y) = true := by simp only [List.any_eq_true]; exact ⟨y, hy, e⟩
    simp only [List.cons_append, firstsAfter, this, if_true]
    exact ih fun z hz => h z (by simp [hz])

theorem filter_skip {keep : α → Bool} (m : List α) {l : List α} (h : ∀ x ∈ l, keep x = false) : (l ++ m).filter keep = m.filter keep := by
  rw [List.filter_append, List.filter_eq_nil_iff.2 (fun x hx => by rw [h x hx]; simp), List.nil_append]

theorem without_none : ∀ (i : Nat) (l : List α), without [] i l = l
  | _, [] => rfl
  | i, x :: l => by simp [without, without_none (i + 1) l]

theorem without_append (lost : List Nat) : ∀ (i : Nat) (l m : List α), without lost i (l ++ m) = without lost i l ++ without lost (i + l.length) m
  | _, [], m => by simp [without]
  | i, x :: l, m => by
    simp only [List.cons_append, without, without_append lost (i + 1) l m, List.length_cons, Nat.add_assoc, Nat.add_comm 1]
    split <;> simp

/-- Positions before or after the list do not matter. -/
theorem without_congr {A B : List Nat} : ∀ (i : Nat) (l : List α), (∀ k, i ≤ k → k < i + l.length → (k ∈ A ↔ k ∈ B)) → without A i l = without B i l
  | _, [], _ => rfl
  | i, x :: l, h => by
    have h0 := h i (Nat.le_refl _) (by simp)
    have := without_congr (i + 1) l fun k h1 h2 => h k (by omega) (by simp; omega)
    simp only [without, this]
    by_cases hi : i ∈ A
    · rw [if_pos hi, if_pos (h0.1 hi)]
    · rw [if_neg hi, if_neg (fun hb => hi (h0.2 hb))]

theorem without_before {A : List Nat} {i : Nat} {l : List α} (h : ∀ k ∈ A, i + l.length ≤ k) : without A i l = l := by
  rw [without_congr (B := []) i l fun k h1 h2 => by simp; intro hk; have := h k hk; omega, without_none]

/-- How `++` of the iterators of a view relates to what the view shows of the elements after the iterator, `F it`. -/
structure Increments (xs : List α) (pos : I → Nat) (incr : I → List Bool → Option (Ran I)) (F : I → List α → List α) : Prop where
  nil : ∀ it, F it [] = []
  spec : ∀ it fs, pos it < xs.length → ∃ r, incr it fs = some r ∧ pos it ≤ pos r.it ∧ pos r.it ≤ xs.length ∧
    r.faults.length + r.threw.toNat ≤ fs.length ∧ r.faults.count true + r.threw.toNat ≤ fs.count true ∧
    match r.threw with
    | true => pos r.it < xs.length ∧ ∀ m, F it ((xs.drop (pos it + 1)).take (pos r.it - (pos it + 1)) ++ m) = F r.it m
    | false => pos it < pos r.it ∧ (∀ m, F it ((xs.drop (pos it + 1)).take (pos r.it - (pos it + 1)) ++ m) = F it m) ∧
        ∀ x, xs[pos r.it]? = some x → ∀ m, F it (x :: m) = x :: F r.it m

theorem drop_split {xs : List α} {p q : Nat} (h : p + 1 ≤ q) : xs.drop (p + 1) = (xs.drop (p + 1)).take (q - (p + 1)) ++ xs.drop q := by
  have h2 : xs.drop q = (xs.drop (p + 1)).drop (q - (p + 1)) := by rw [List.drop_drop]; congr 1; omega
  rw [h2, List.take_append_drop]

theorem drive_spec {xs : List α} {pos : I → Nat} {incr : I → List Bool → Option (Ran I)} {F : I → List α → List α} (H : Increments xs pos incr F) :
    ∀ (n : Nat) (fresh : Bool) (it : I) (fs : List Bool), (xs.length - pos it) + fs.length < n → pos it ≤ xs.length →
    ∃ vs lost, drive xs pos incr n fresh it fs = some (vs, lost) ∧ (∀ k ∈ lost, pos it < k ∧ k < xs.length) ∧ lost.length ≤ fs.count true ∧
      (∀ x, xs[pos it]? = some x → vs = (if fresh then [x] else []) ++ F it (without lost (pos it + 1) (xs.drop (pos it + 1)))) ∧
      (xs[pos it]? = none → vs = []) := by
  intro n
  induction n with
  | zero => intro _ _ _ h; exact absurd h (Nat.not_lt_zero _)
  | succ n ih =>
    intro fresh it fs hn hp
    simp only [drive]
    cases hx : xs[pos it]? with
    | none => exact ⟨[], [], rfl, by simp, by simp, by simp, by simp⟩
    | some x =>
      have hlt : pos it < xs.length := (List.getElem?_eq_some_iff.1 hx).1
      obtain ⟨r, hr, hle, hlen, hfl, hfc, hm⟩ := H.spec it fs hlt
      rw [hr]
      dsimp only
      cases ht : r.threw with
      | true =>
        rw [ht] at hm hfl hfc
        obtain ⟨hq, hm⟩ := hm
        simp only [Bool.toNat_true] at hfl hfc
        obtain ⟨vs, lost, e, h1, h2, h3, -⟩ := ih false r.it r.faults (by omega) hlen
        obtain ⟨y, hy⟩ : ∃ y, xs[pos r.it]? = some y := ⟨_, List.getElem?_eq_getElem hq⟩
        have h3 := h3 y hy
        simp only [Bool.not_true, e, Option.map_some, Bool.true_and]
        refine ⟨_, _, rfl, ?_, ?_, ?_, by simp⟩
        · intro k hk
          by_cases hpq : pos r.it = pos it
          · have : k ∈ lost := by simpa [hpq] using hk
            have := h1 k this; omega
          · have : k = pos r.it ∨ k ∈ lost := by simpa [hpq] using hk
            rcases this with rfl | hk
            · omega
            · have := h1 k hk; omega
        · split <;> simp <;> omega
        · intro z hz
          obtain rfl := Option.some.inj hz
          congr 1
          rw [h3]
          simp only [Bool.false_eq_true, if_false, List.nil_append]
          by_cases hpq : pos r.it = pos it
          · have hm := hm (without lost (pos it + 1) (xs.drop (pos it + 1)))
            simp only [hpq, Nat.sub_eq_zero_of_le (Nat.le_succ _), List.take_zero, List.nil_append] at hm ⊢
            simp [hm]
          · have hlt2 : pos it + 1 ≤ pos r.it := by omega
            have hd : xs.drop (pos r.it) = y :: xs.drop (pos r.it + 1) := by
              rw [List.drop_eq_getElem_cons hq]; rw [List.getElem?_eq_getElem hq] at hy; rw [Option.some.inj hy]
            have hlen2 : ((xs.drop (pos it + 1)).take (pos r.it - (pos it + 1))).length = pos r.it - (pos it + 1) := by simp; omega
            conv => rhs; rw [drop_split hlt2, hd, without_append, hlen2, show pos it + 1 + (pos r.it - (pos it + 1)) = pos r.it by omega]
            have e1 : (if (true && pos r.it != pos it) = true then [pos r.it] else ([] : List Nat)) = [pos r.it] := by simp [hpq]
            simp only [Bool.true_and] at e1
            simp only [e1, List.singleton_append]
            rw [without_before (l := (xs.drop (pos it + 1)).take (pos r.it - (pos it + 1))) (by
              intro k hk
              rw [hlen2]
              rcases List.mem_cons.1 hk with rfl | hk
              · omega
              · have := h1 k hk; omega)]
            rw [hm]
            congr 1
            simp only [without, List.mem_cons, true_or, if_true]
            exact without_congr _ _ fun k hk _ => by simp; omega
      | false =>
        rw [ht] at hm hfl hfc
        obtain ⟨hq, hm, hs⟩ := hm
        simp only [Bool.toNat_false, Nat.add_zero] at hfl hfc
        obtain ⟨vs, lost, e, h1, h2, h3, h4⟩ := ih true r.it r.faults (by omega) hlen
        simp only [Bool.not_false, e, Option.map_some, Bool.false_and, Bool.false_eq_true, if_false, List.nil_append]
        refine ⟨_, _, rfl, fun k hk => by have := h1 k hk; omega, by omega, ?_, by simp⟩
        intro z hz
        obtain rfl := Option.some.inj hz
        congr 1
        have hlen2 : ((xs.drop (pos it + 1)).take (pos r.it - (pos it + 1))).length = pos r.it - (pos it + 1) := by simp; omega
        rw [drop_split (show pos it + 1 ≤ pos r.it by omega), without_append, hlen2, show pos it + 1 + (pos r.it - (pos it + 1)) = pos r.it by omega,
          without_before (by intro k hk; rw [hlen2]; have := h1 k hk; omega), hm]
        by_cases hend : pos r.it = xs.length
        · have : xs[pos r.it]? = none := List.getElem?_eq_none (by omega)
          rw [h4 this, List.drop_eq_nil_of_le (by omega)]
          simp [without, H.nil]
        · have hlt3 : pos r.it < xs.length := by omega
          have hy : xs[pos r.it]? = some xs[pos r.it] := List.getElem?_eq_getElem hlt3
          rw [List.drop_eq_getElem_cons hlt3]
          simp only [without]
          rw [if_neg (fun hk => by have := (h1 _ hk).1; omega), hs _ hy, h3 _ hy]
          simp

theorem unique_increments {set : SetImpl α} {eq : α → α → Bool} (hs : Finds set eq) (xs : List α) :
    Increments xs UIt.pos (uIncr set xs) (fun it => firstsAfter eq it.seen) := by
  refine ⟨fun _ => rfl, fun it fs hp => ?_⟩
  unfold uIncr
  rw [if_neg (by omega)]
  have d1 := draw_length fs
  have c1 := draw_count fs
  generalize draw fs = d at d1 c1
  obtain ⟨b, fs1⟩ := d
  dsimp only at d1 c1
  cases b with
  | true => exact ⟨_, rfl, Nat.le_refl _, Nat.le_of_lt hp, d1, c1, hp, fun m => by simp⟩
  | false =>
    simp only [Bool.toNat_false, Nat.add_zero] at d1 c1
    obtain ⟨k, h1, h2, h3, h4, h5, h6⟩ := search_unique hs (xs.drop (it.pos + 1)) ⟨it.seen, it.pos + 1⟩ fs1
    dsimp only at h1 h3 h6
    have hk : (findNext set (xs.drop (it.pos + 1)) ⟨it.seen, it.pos + 1⟩ fs1).it.pos - (it.pos + 1) = k := by omega
    rw [List.length_drop] at h2
    refine ⟨_, rfl, by omega, by omega, by omega, by omega, ?_⟩
    rw [hk]
    cases ht : (findNext set (xs.drop (it.pos + 1)) ⟨it.seen, it.pos + 1⟩ fs1).threw with
    | true =>
      rw [ht] at h6
      obtain ⟨h6, h7⟩ := h6
      rw [List.length_drop] at h6
      exact ⟨by omega, fun m => by rw [firsts_skip m _ h3, h7]⟩
    | false =>
      rw [ht] at h6
      refine ⟨by omega, fun m => firsts_skip m _ h3, fun x hx m => ?_⟩
      rw [h1] at hx
      have : (xs.drop (it.pos + 1))[k]? = some x := by simpa [List.getElem?_drop] using hx
      rw [this] at h6
      obtain ⟨h6, h7⟩ := h6
      rw [h7]
      have : it.seen.any (fun y => eq x y) = false := by simpa using h6
      simp [firstsAfter, this]

theorem filter_increments (keep : α → Bool) (xs : List α) : Increments xs id (fIncr keep xs) (fun _ l => l.filter keep) := by
  refine ⟨fun _ => rfl, fun p fs hp => ?_⟩
  simp only [id] at hp ⊢
  unfold fIncr
  rw [if_neg (by omega)]
  have d1 := draw_length fs
  have c1 := draw_count fs
  generalize draw fs = d at d1 c1
  obtain ⟨b, fs1⟩ := d
  dsimp only at d1 c1
  cases b with
  | true => exact ⟨_, rfl, Nat.le_refl _, Nat.le_of_lt hp, d1, c1, hp, fun m => by simp⟩
  | false =>
    simp only [Bool.toNat_false, Nat.add_zero] at d1 c1
    obtain ⟨k, h1, h2, h3, h4, h5, h6⟩ := search_filter keep (xs.drop (p + 1)) (p + 1) fs1
    rw [List.length_drop] at h2
    dsimp only
    generalize findIf keep (xs.drop (p + 1)) (p + 1) fs1 = r at h1 h4 h5 h6
    obtain ⟨t, q, fs2⟩ := r
    dsimp only at h1 h4 h5 h6
    subst h1
    cases t with
    | true =>
      dsimp only at h6
      rw [List.length_drop] at h6
      refine ⟨_, rfl, ?_, ?_, ?_, ?_, ?_, ?_⟩ <;> dsimp only
      · omega
      · omega
      · omega
      · omega
      · omega
      · intro m; simp
    | false =>
      dsimp only at h6
      refine ⟨_, rfl, ?_, ?_, ?_, ?_, ?_, ?_, ?_⟩ <;> dsimp only
      · omega
      · omega
      · omega
      · omega
      · omega
      · intro m
        rw [show p + 1 + k - (p + 1) = k by omega, filter_skip m h3]
      · intro x hx m
        have : keep x = true := h6 x (by simpa [List.getElem?_drop] using hx)
        simp [this]

/-- **C101.** A loop over a `unique` view that tries `++it` again after an exception ends, and shows exactly what `unique` shows of the source without the elements on
which exceptions left the iterator; these are at most as many as there were exceptions. -/
theorem unique_retry {set : SetImpl α} {eq : α → α → Bool} (hs : Finds set eq) (xs : List α) (fs : List Bool) {it : UIt α} {fs' : List Bool}
    (hb : uBegin set xs fs = ⟨false, some it, fs'⟩) {n : Nat} (hn : xs.length + fs'.length < n) :
    ∃ vs lost, drive xs UIt.pos (uIncr set xs) n true it fs' = some (vs, lost) ∧ lost.length ≤ fs'.count true ∧ (∀ k ∈ lost, k < xs.length) ∧
      vs = firsts eq (without lost 0 xs) := by
  obtain ⟨k, h1, h2, h3, -, -, h6⟩ := search_unique hs xs ⟨[], 0⟩ fs
  unfold uBegin at hb
  generalize findNext set xs ⟨[], 0⟩ fs = r at hb h1 h6
  obtain ⟨t, jt, fs2⟩ := r
  dsimp only at hb h1 h3 h6
  simp only [Ran.mk.injEq] at hb
  obtain ⟨rfl, hb, rfl⟩ := hb
  simp only [Bool.false_eq_true, if_false, Option.some.injEq] at hb
  subst hb
  dsimp only at h6
  simp only [Nat.zero_add] at h1
  have hk : xs.take k = [] := by
    rw [List.eq_nil_iff_forall_not_mem]
    intro x hx
    obtain ⟨y, hy, -⟩ := h3 x hx
    simp at hy
  have hk0 : k = 0 ∨ xs = [] := by simpa using hk
  obtain ⟨vs, lost, e, a1, a2, a3, a4⟩ := drive_spec (unique_increments hs xs) n true jt fs2 (by omega) (by omega)
  refine ⟨vs, lost, e, a2, fun k hk => (a1 k hk).2, ?_⟩
  rcases hk0 with rfl | rfl
  · cases xs with
    | nil => rw [a4 (by simp)]; rfl
    | cons x xs =>
      have hx : (x :: xs)[jt.pos]? = some x := by rw [h1]; rfl
      rw [a3 x hx]
      simp only [List.getElem?_cons_zero] at h6
      rw [h6.2, h1]
      simp only [if_true, Nat.zero_add, List.drop_succ_cons, List.drop_zero, firsts, without]
      rw [if_neg (fun h0 => by have := (a1 0 h0).1; omega)]
      simp [firstsAfter]
  · rw [a4 (by simp)]; rfl

/-- `{1, 1, 2, 3, 2}`: reading the 2 at position 2 throws once. The loop sees it later. -/
example : uBegin (fun s x => s.contains x) [1, 1, 2, 3, 2] [false, false, false, false, true] = ⟨false, some ⟨[1], 0⟩, [false, false, false, true]⟩ ∧
    drive [1, 1, 2, 3, 2] UIt.pos (uIncr (fun s x => s.contains x) [1, 1, 2, 3, 2]) 20 true ⟨[1], 0⟩ [false, false, false, true] = some ([1, 3, 2], [2]) := by
  decide

/-- **C101.** A loop over a `remove_element` view that tries `++it` again after an exception ends, and shows exactly what the view shows of the source without the elements on
which exceptions left the iterator; these are at most as many as there were exceptions. -/
theorem remove_retry (pred : α → β → Bool) (value : β) (xs : List α) (fs : List Bool) {p : Nat} {fs' : List Bool}
    (hb : fBegin (keeps pred value) xs fs = ⟨false, some p, fs'⟩) {n : Nat} (hn : xs.length + fs'.length < n) :
    ∃ vs lost, drive xs id (fIncr (keeps pred value) xs) n true p fs' = some (vs, lost) ∧ lost.length ≤ fs'.count true ∧ (∀ k ∈ lost, k < xs.length) ∧
      vs = (without lost 0 xs).filter (fun x => !pred x value) := by
  obtain ⟨k, h1, h2, h3, -, -, h6⟩ := search_filter (keeps pred value) xs 0 fs
  unfold fBegin at hb
  generalize findIf (keeps pred value) xs 0 fs = r at hb h1 h6
  obtain ⟨t, q, fs2⟩ := r
  dsimp only at hb h1 h3 h6
  simp only [Ran.mk.injEq] at hb
  obtain ⟨rfl, hb, rfl⟩ := hb
  simp only [Bool.false_eq_true, if_false, Option.some.injEq] at hb
  subst hb
  dsimp only at h6
  simp only [Nat.zero_add] at h1
  subst h1
  obtain ⟨vs, lost, e, a1, a2, a3, a4⟩ := drive_spec (filter_increments (keeps pred value) xs) n true q fs2 (by simp only [id]; omega) (by simpa using h2)
  simp only [id] at a1 a3 a4
  refine ⟨vs, lost, e, a2, fun k hk => (a1 k hk).2, ?_⟩
  show vs = (without lost 0 xs).filter (keeps pred value)
  have hlen : (xs.take q).length = q := by simp; omega
  have hw : without lost 0 xs = xs.take q ++ without lost q (xs.drop q) := by
    conv => lhs; rw [← List.take_append_drop q xs, without_append, hlen, Nat.zero_add]
    rw [without_before (by intro k hk; rw [hlen]; have := (a1 k hk).1; omega)]
  rw [hw, filter_skip _ h3]
  cases hx : xs[q]? with
  | none =>
    rw [a4 hx, List.drop_eq_nil_of_le (List.getElem?_eq_none_iff.1 hx)]
    rfl
  | some x =>
    obtain ⟨hq, hx'⟩ := List.getElem?_eq_some_iff.1 hx
    rw [a3 x hx, List.drop_eq_getElem_cons hq, hx']
    have hq0 : q ∉ lost := fun hk => by have := (a1 _ hk).1; omega
    simp [without, hq0, h6 x hx]

/-- `{5, 1, 7, 8}` without 1: reading the 7 throws once. The iterator stays on the 1, and the loop sees the 7 later. -/
example : fBegin (keeps (fun a b : Nat => a == b) 1) [5, 1, 7, 8] [false, false, false, false, true] = ⟨false, some 0, [false, false, false, true]⟩ ∧
    drive [5, 1, 7, 8] id (fIncr (keeps (fun a b : Nat => a == b) 1) [5, 1, 7, 8]) 20 true 0 [false, false, false, true] = some ([5, 7, 8], [1]) := by
  decide

/-- **C101.** Without exceptions the loops show the first occurrences, and the elements different from the value. -/
theorem no_faults {set : SetImpl α} {eq : α → α → Bool} (hs : Finds set eq) (pred : α → β → Bool) (value : β) (xs : List α) {n : Nat} (hn : xs.length < n) :
    (∃ it, uBegin set xs [] = ⟨false, some it, []⟩ ∧ drive xs UIt.pos (uIncr set xs) n true it [] = some (firsts eq xs, [])) ∧
    ∃ p, fBegin (keeps pred value) xs [] = ⟨false, some p, []⟩ ∧
      drive xs id (fIncr (keeps pred value) xs) n true p [] = some (xs.filter (fun x => !pred x value), []) := by
  constructor
  · obtain ⟨k, -, -, -, h4, -, -⟩ := search_unique hs xs ⟨[], 0⟩ []
    have hb : ∃ it, uBegin set xs [] = ⟨false, some it, []⟩ := by
      unfold uBegin
      generalize findNext set xs ⟨[], 0⟩ [] = r at h4
      obtain ⟨t, it, fs⟩ := r
      simp only [List.length_nil, Nat.le_zero, Nat.add_eq_zero_iff, List.length_eq_zero_iff] at h4
      obtain ⟨rfl, h4⟩ := h4
      cases t with
      | true => simp at h4
      | false => exact ⟨it, by simp⟩
    obtain ⟨it, hb⟩ := hb
    obtain ⟨vs, lost, e, a1, -, a3⟩ := unique_retry hs xs [] hb (n := n) (by simpa using hn)
    have : lost = [] := by simpa using a1
    subst this
    rw [without_none] at a3
    exact ⟨it, hb, by rw [e, a3]⟩
  · obtain ⟨k, -, -, -, h4, -, -⟩ := search_filter (keeps pred value) xs 0 []
    have hb : ∃ it, fBegin (keeps pred value) xs [] = ⟨false, some it, []⟩ := by
      unfold fBegin
      generalize findIf (keeps pred value) xs 0 [] = r at h4
      obtain ⟨t, it, fs⟩ := r
      simp only [List.length_nil, Nat.le_zero, Nat.add_eq_zero_iff, List.length_eq_zero_iff] at h4
      obtain ⟨rfl, h4⟩ := h4
      cases t with
      | true => simp at h4
      | false => exact ⟨it, by simp⟩
    obtain ⟨p, hb⟩ := hb
    obtain ⟨vs, lost, e, a1, -, a3⟩ := remove_retry pred value xs [] hb (n := n) (by simpa using hn)
    have : lost = [] := by simpa using a1
    subst this
    rw [without_none] at a3
    exact ⟨p, hb, by rw [e, a3]⟩

example : ∃ p, fBegin (keeps (fun a b : Nat => a == b) 1) [5, 1, 7] [] = ⟨false, some p, []⟩ :=
  (no_faults (set := fun s x => s.contains x) (eq := fun a b => a == b) (fun s x => by simp [List.any_beq]) (fun a b : Nat => a == b) 1 [5, 1, 7] (n := 4) (by decide)).2.imp fun _ h => h.1

/-- **C101.** Where an iterator of `remove_element` stands after an increment that threw: where it was, or on the next element of the source, whichever element the exception
came from and whether the view shows that element or not. -/
theorem remove_incr_throws {keep : α → Bool} {xs : List α} {p : Nat} {fs : List Bool} {r : Ran Nat} (h : fIncr keep xs p fs = some r) (ht : r.threw = true) :
    r.it = p ∨ (r.it = p + 1 ∧ p + 1 < xs.length) := by
  unfold fIncr at h
  split at h
  · cases h
  · split at h
    · obtain rfl := Option.some.inj h; exact .inl rfl
    · rename_i fs1 _
      obtain ⟨k, -, -, -, -, -, h6⟩ := search_filter keep (xs.drop (p + 1)) (p + 1) fs1
      split at h <;> obtain rfl := Option.some.inj h
      · cases ht
      · rename_i heq
        rw [heq] at h6
        simp only [List.length_drop] at h6
        exact .inr ⟨rfl, by omega⟩

example : ∃ r, fIncr (keeps (fun a b : Nat => a == b) 1) [5, 1, 7] 0 [false, false, true] = some r ∧ r.threw = true ∧ r.it = 1 := ⟨_, rfl, rfl, rfl⟩

/-- **C101.** Where an iterator of `unique` stands after an increment that threw, and what it has seen: nothing new; between the old and the new position there are only
elements it has seen. -/
theorem unique_incr_throws {set : SetImpl α} {eq : α → α → Bool} (hs : Finds set eq) {xs : List α} {it : UIt α} {fs : List Bool} {r : Ran (UIt α)}
    (h : uIncr set xs it fs = some r) (ht : r.threw = true) :
    r.it.seen = it.seen ∧ it.pos ≤ r.it.pos ∧ r.it.pos < xs.length ∧ ∀ k x, it.pos < k → k < r.it.pos → xs[k]? = some x → ∃ y ∈ it.seen, eq x y = true := by
  unfold uIncr at h
  split at h
  · cases h
  · split at h
    · obtain rfl := Option.some.inj h
      exact ⟨rfl, Nat.le_refl _, by dsimp only; omega, fun k x h1 h2 => by dsimp only at h2; omega⟩
    · rename_i fs1 _
      obtain rfl := Option.some.inj h
      obtain ⟨k, h1, h2, h3, -, -, h6⟩ := search_unique hs (xs.drop (it.pos + 1)) ⟨it.seen, it.pos + 1⟩ fs1
      rw [ht] at h6
      simp only [List.length_drop] at h6
      dsimp only at h1 h3
      refine ⟨h6.2, by omega, by omega, fun j x a b hx => h3 x ?_⟩
      rw [h1] at b
      refine List.mem_of_getElem? (i := j - (it.pos + 1)) ?_
      rw [List.getElem?_take_of_lt (by omega), List.getElem?_drop, show it.pos + 1 + (j - (it.pos + 1)) = j by omega]
      exact hx

example : ∃ r, uIncr (fun s x => s.contains x) [1, 1, 2] ⟨[1], 0⟩ [false, false, false, true] = some r ∧ r.threw = true := ⟨_, rfl, rfl⟩

/-- **C101, refuted**: an increment that throws does not leave the iterator as it was, nor on an element the view shows. `unique` stands on a second 1; the only 2 of
`{1, 2}` is never shown by a loop that goes on; `remove_element(1)` stands on a 1. -/
theorem strong_guarantee_refuted :
    (uIncr (fun s x => s.contains x) [1, 1, 2] ⟨[1], 0⟩ [false, true]).map (fun r => (r.threw, r.it)) = some (true, ⟨[1], 1⟩) ∧
    drive [1, 2] UIt.pos (uIncr (fun s x => s.contains x) [1, 2]) 20 true ⟨[1], 0⟩ [false, true] = some ([1], [1]) ∧
    (fIncr (keeps (fun a b : Nat => a == b) 1) [5, 1, 7] 0 [false, false, false, true]).map (fun r => (r.threw, r.it)) = some (true, 1) := by decide

/-! ### Iterators as values -/

/-- What an iterator knows and shows: it has seen the first occurrences among the elements up to its own, without the lost ones; it is at the end, or on the newest of these
first occurrences, or on a lost element. -/
def Knows (eq : α → α → Bool) (xs : List α) (lost : List Nat) (it : UIt α) : Prop :=
  it.pos ≤ xs.length ∧ it.seen = (firsts eq (without lost 0 (xs.take (it.pos + 1)))).reverse ∧
    ∀ x, xs[it.pos]? = some x → it.pos ∈ lost ∨ it.seen.head? = some x

theorem firstsAfter_append {eq : α → α → Bool} : ∀ (l m s : List α),
    firstsAfter eq s (l ++ m) = firstsAfter eq s l ++ firstsAfter eq ((firstsAfter eq s l).reverse ++ s) m := by
  intro l
  induction l with
  | nil => intro m s; rfl
  | cons x l ih =>
    intro m s
    simp only [List.cons_append, firstsAfter]
    split
    · exact ih m s
    · rw [ih]; simp

/-- After a search from the end of a known prefix. -/
theorem knows_after {set : SetImpl α} {eq : α → α → Bool} (hs : Finds set eq) {xs : List α} {lost : List Nat} {seen : List α} {p : Nat} (hp : p ≤ xs.length)
    (hk : seen = (firsts eq (without lost 0 (xs.take p))).reverse) (hl : ∀ k ∈ lost, k < p) (fs : List Bool) :
    ∃ lost', lost'.length = lost.length + (findNext set (xs.drop p) ⟨seen, p⟩ fs).threw.toNat ∧
      (∀ k ∈ lost', k ≤ (findNext set (xs.drop p) ⟨seen, p⟩ fs).it.pos) ∧ p ≤ (findNext set (xs.drop p) ⟨seen, p⟩ fs).it.pos ∧
      Knows eq xs lost' (findNext set (xs.drop p) ⟨seen, p⟩ fs).it := by
  obtain ⟨k, h1, h2, h3, -, -, h6⟩ := search_unique hs (xs.drop p) ⟨seen, p⟩ fs
  dsimp only at h1 h3 h6
  rw [List.length_drop] at h2
  have take1 : ∀ q, p ≤ q → xs.take q = xs.take p ++ (xs.drop p).take (q - p) := by
    intro q hq
    rw [← List.take_append_drop p (xs.take q), List.take_take, Nat.min_eq_left hq, List.drop_take]
  have plen : (xs.take p).length = p := by simp; omega
  have skip : ∀ L : List Nat, (∀ j ∈ L, j < p ∨ p + k ≤ j) → (∀ j, j < p → (j ∈ L ↔ j ∈ lost)) → ∀ m,
      firsts eq (without L 0 (xs.take p ++ ((xs.drop p).take k ++ m))) = firsts eq (without lost 0 (xs.take p)) ++ firstsAfter eq seen (without L (p + k) m) := by
    intro L hL hL' m
    rw [without_append, without_append, plen, Nat.zero_add, without_congr (A := L) (B := lost) 0 (xs.take p) (fun j _ hj => hL' j (by rw [plen] at hj; omega))]
    have e1 : without L p ((xs.drop p).take k) = (xs.drop p).take k := by
      rw [without_congr (B := []) p _ (fun j h1 h2 => ?_), without_none]
      simp only [List.not_mem_nil, iff_false]
      intro hj
      rw [List.length_take, List.length_drop] at h2
      rcases hL j hj with h | h <;> omega
    have e2 : ((xs.drop p).take k).length = k := by simp; omega
    rw [e1, e2]
    unfold firsts
    rw [firstsAfter_append, List.append_nil]
    congr 1
    have := hk
    unfold firsts at this
    rw [← this]
    exact firsts_skip _ _ h3
  cases ht : (findNext set (xs.drop p) ⟨seen, p⟩ fs).threw with
  | true =>
    rw [ht] at h6
    obtain ⟨h6, h7⟩ := h6
    rw [List.length_drop] at h6
    refine ⟨(p + k) :: lost, by simp, ?_, by omega, by omega, ?_, ?_⟩
    · intro j hj
      rcases List.mem_cons.1 hj with rfl | hj
      · omega
      · have := hl j hj; omega
    · rw [h7, h1, take1 (p + k + 1) (by omega), show p + k + 1 - p = k + 1 by omega, List.take_add_one]
      rw [skip ((p + k) :: lost) (fun j hj => by
        rcases List.mem_cons.1 hj with rfl | hj
        · exact .inr (Nat.le_refl _)
        · exact .inl (hl j hj)) (fun j hj => by simp; omega)]
      have : without ((p + k) :: lost) (p + k) (xs.drop p)[k]?.toList = [] := by
        cases (xs.drop p)[k]? <;> simp [without]
      rw [this]
      simp [firstsAfter, hk]
    · intro x _
      exact .inl (by rw [h1]; simp)
  | false =>
    rw [ht] at h6
    refine ⟨lost, by simp, fun j hj => by have := hl j hj; omega, by omega, by omega, ?_, ?_⟩
    · rw [h1, take1 (p + k + 1) (by omega), show p + k + 1 - p = k + 1 by omega, List.take_add_one]
      rw [skip lost (fun j hj => .inl (hl j hj)) (fun _ _ => Iff.rfl)]
      cases hx : (xs.drop p)[k]? with
      | none =>
        rw [hx] at h6
        rw [h6]
        simp [without, firstsAfter, hk]
      | some x =>
        rw [hx] at h6
        obtain ⟨h6, h7⟩ := h6
        rw [h7]
        have hnl : p + k ∉ lost := fun hj => by have := hl _ hj; omega
        have hany : seen.any (fun y => eq x y) = false := by simpa using h6
        simp only [Option.toList_some, without, if_neg hnl, firstsAfter, hany, Bool.false_eq_true, if_false, List.reverse_append, List.reverse_cons, List.reverse_nil,
          List.nil_append, List.singleton_append]
        rw [← hk]
    · intro x hx
      rw [h1] at hx
      have : (xs.drop p)[k]? = some x := by simpa [List.getElem?_drop] using hx
      rw [this] at h6
      exact .inr (by rw [h6.2]; rfl)

/-- The invariant of programs. -/
def Inv (eq : α → α → Bool) (xs : List α) (s : St α) : Prop :=
  ∀ it, some it ∈ s.its → ∃ lost, lost.length ≤ s.thrown ∧ (∀ k ∈ lost, k ≤ it.pos) ∧ Knows eq xs lost it

theorem it?_mem {s : St α} {i : Nat} {it : UIt α} (h : s.it? i = some it) : some it ∈ s.its := by
  unfold St.it? at h
  cases hx : s.its[i]? with
  | none => rw [hx] at h; cases h
  | some o =>
    rw [hx] at h
    simp only [Option.join_some] at h
    subst h
    exact List.mem_of_getElem? hx

theorem Inv.mono {eq : α → α → Bool} {xs : List α} {s : St α} (h : Inv eq xs s) {s' : St α} (ht : s.thrown ≤ s'.thrown)
    (hm : ∀ it, some it ∈ s'.its → some it ∈ s.its) : Inv eq xs s' := fun it hit => by
  obtain ⟨lost, h1, h2, h3⟩ := h it (hm it hit)
  exact ⟨lost, by omega, h2, h3⟩

theorem step_inv {set : SetImpl α} {eq : α → α → Bool} (hs : Finds set eq) {xs : List α} {s s' : St α} {o : Op} (h : Inv eq xs s) (hst : step set xs s o = some s') :
    Inv eq xs s' := by
  cases o with
  | begin =>
    obtain ⟨lost, h1, h2, -, h4⟩ := knows_after hs (xs := xs) (lost := []) (seen := []) (Nat.zero_le _) (by simp [without, firsts, firstsAfter]) (by simp) s.faults
    simp only [step, uBegin] at hst
    simp only [List.drop_zero, List.length_nil, Nat.zero_add] at h1 h2 h4
    generalize findNext set xs ⟨[], 0⟩ s.faults = r at h1 h2 h4 hst
    obtain ⟨t, it, fs⟩ := r
    cases t with
    | true =>
      simp only [if_true, Option.some.injEq] at hst
      subst hst
      exact h.mono (Nat.le_succ _) fun _ h => h
    | false =>
      simp only [Bool.false_eq_true, if_false, Option.some.injEq] at hst
      subst hst
      intro jt hj
      simp only [List.mem_append, List.mem_singleton, Option.some.injEq] at hj
      rcases hj with hj | rfl
      · exact h jt hj
      · exact ⟨lost, by simp at h1; simp [h1], h2, h4⟩
  | copy j =>
    simp only [step, Option.map_eq_some_iff] at hst
    obtain ⟨it, hj, hst⟩ := hst
    split at hst <;> subst hst
    · intro jt hm
      simp only [List.mem_append, List.mem_singleton, Option.some.injEq] at hm
      rcases hm with hm | rfl
      · exact h jt hm
      · exact h jt (it?_mem hj)
    · exact h.mono (Nat.le_succ _) fun _ h => h
  | move j =>
    simp only [step, Option.map_eq_some_iff] at hst
    obtain ⟨it, hj, rfl⟩ := hst
    intro jt hm
    simp only [List.mem_append, List.mem_singleton, Option.some.injEq] at hm
    rcases hm with hm | rfl
    · rcases List.mem_or_eq_of_mem_set hm with hm | hm
      · exact h jt hm
      · cases hm
    · exact h jt (it?_mem hj)
  | assign i j =>
    simp only [step, Option.bind_eq_some_iff] at hst
    obtain ⟨it, hj, hst⟩ := hst
    split at hst
    · obtain rfl := Option.some.inj hst; exact h
    · split at hst
      · cases hst
      · split at hst <;> obtain rfl := Option.some.inj hst
        · intro jt hm
          rcases List.mem_or_eq_of_mem_set hm with hm | hm
          · exact h jt hm
          · obtain rfl := Option.some.inj hm; exact h jt (it?_mem hj)
        · exact h.mono (Nat.le_succ _) fun jt hm => by
            rcases List.mem_or_eq_of_mem_set hm with hm | hm
            · exact hm
            · cases hm
  | incr i =>
    simp only [step, Option.bind_eq_some_iff, Option.map_eq_some_iff] at hst
    obtain ⟨it, hi, r, hr, rfl⟩ := hst
    have old := h it (it?_mem hi)
    have key : ∃ lost, lost.length ≤ s.thrown + r.threw.toNat ∧ (∀ k ∈ lost, k ≤ r.it.pos) ∧ Knows eq xs lost r.it := by
      obtain ⟨lost, a1, a2, a3, a4, a5⟩ := old
      unfold uIncr at hr
      split at hr
      · cases hr
      · rename_i hlt
        split at hr <;> obtain rfl := Option.some.inj hr
        · exact ⟨lost, by simp; omega, a2, a3, a4, a5⟩
        · rename_i fs _
          obtain ⟨lost', b1, b2, -, b4⟩ := knows_after hs (xs := xs) (lost := lost) (p := it.pos + 1) (by omega) a4 (fun k hk => by have := a2 k hk; omega) fs
          exact ⟨lost', by omega, b2, b4⟩
    intro jt hm
    rcases List.mem_or_eq_of_mem_set hm with hm | hm
    · obtain ⟨lost, c1, c2, c3⟩ := h jt hm
      exact ⟨lost, Nat.le_trans c1 (Nat.le_add_right _ _), c2, c3⟩
    · obtain rfl := Option.some.inj hm; exact key

/-- **C101.** Whatever a program does with the iterators of a `unique` view, copying, moving and assigning them in the middle of loops and going on after exceptions: every
iterator has seen exactly the first occurrences up to its position, except for lost elements, of which there are at most as many as there were exceptions; it is at the end,
or on the newest first occurrence, or on a lost element. -/
theorem history {set : SetImpl α} {eq : α → α → Bool} (hs : Finds set eq) {xs : List α} {fs : List Bool} {ops : List Op} {s : St α}
    (hr : run set xs ⟨[], fs, 0⟩ ops = some s) {i : Nat} {it : UIt α} (hi : s.it? i = some it) :
    ∃ lost, lost.length ≤ s.thrown ∧ (∀ k ∈ lost, k ≤ it.pos) ∧ Knows eq xs lost it := by
  have : ∀ (ops : List Op) (s s' : St α), Inv eq xs s → run set xs s ops = some s' → Inv eq xs s' := by
    intro ops
    induction ops with
    | nil => intro s s' h hr; obtain rfl := Option.some.inj hr; exact h
    | cons o os ih =>
      intro s s' h hr
      simp only [run, Option.bind_eq_some_iff] at hr
      obtain ⟨s1, h1, hr⟩ := hr
      exact ih s1 s' (step_inv hs h h1) hr
  exact this ops _ s (fun it h => by simp at h) hr it (it?_mem hi)

example : (run (fun s x => s.contains x) [1, 1, 2] ⟨[], [false, false, true], 0⟩ [.begin, .copy 0, .incr 0]).isNone = false := by decide

/-- **C101.** Going on from an iterator shows what `unique` shows of the elements after it, given what it has seen; together with what it has seen before: all first
occurrences, if there were no exceptions. -/
theorem goes_on {set : SetImpl α} {eq : α → α → Bool} (hs : Finds set eq) {xs : List α} {it : UIt α} (hk : Knows eq xs [] it) {n : Nat} (hn : xs.length < n) :
    ∃ vs, drive xs UIt.pos (uIncr set xs) n false it [] = some (vs, []) ∧ it.seen.reverse ++ vs = firsts eq xs := by
  obtain ⟨h1, h2, h3⟩ := hk
  obtain ⟨vs, lost, e, a1, a2, a3, a4⟩ := drive_spec (unique_increments hs xs) n false it [] (by simp; omega) h1
  have : lost = [] := by simpa using a2
  subst this
  refine ⟨vs, e, ?_⟩
  rw [without_none] at h2
  rw [h2, List.reverse_reverse]
  cases hx : xs[it.pos]? with
  | none =>
    rw [a4 hx, List.append_nil, List.take_of_length_le (by have := List.getElem?_eq_none_iff.1 hx; omega)]
  | some x =>
    rw [a3 x hx, without_none]
    conv => rhs; rw [← List.take_append_drop (it.pos + 1) xs]
    unfold firsts at h2 ⊢
    rw [firstsAfter_append, h2]
    simp

example : Knows (fun a b : Nat => a == b) [1, 1, 2] [] ⟨[1], 0⟩ := ⟨by decide, by decide, fun x hx => .inr (by simpa using hx)⟩

/-- **C101.** Operations on an iterator do not affect the others, also if they throw; a copy is equal to the original; a copy, assignment or `begin()` that throws makes no
iterator and leaves the original. -/
theorem independent {set : SetImpl α} {xs : List α} {s s' : St α} {o : Op} (hst : step set xs s o = some s') :
    (∀ k, k < s.its.length → (∀ i j, o = .assign i j → k ≠ i) → (∀ j, o = .move j → k ≠ j) → (∀ i, o = .incr i → k ≠ i) → s'.its[k]? = s.its[k]?) ∧
    (∀ j, o = .copy j ∨ o = .move j → (s'.thrown = s.thrown ∧ s'.its.length = s.its.length + 1 ∧ s'.it? s.its.length = s.it? j) ∨
      (o = .copy j ∧ s'.thrown = s.thrown + 1 ∧ s'.its = s.its)) ∧
    (∀ i j, o = .assign i j → (s'.thrown = s.thrown ∧ s'.it? i = s.it? j) ∨ (s'.thrown = s.thrown + 1 ∧ s'.it? i = none)) ∧
    (o = .begin → (s'.thrown = s.thrown ∧ ∃ it, s'.its = s.its ++ [some it]) ∨ (s'.thrown = s.thrown + 1 ∧ s'.its = s.its)) := by
  cases o with
  | begin =>
    refine ⟨fun k hk _ _ _ => ?_, by simp, by simp, fun _ => ?_⟩ <;> simp only [step] at hst <;> split at hst <;> obtain rfl := Option.some.inj hst
    · exact List.getElem?_append_left hk
    · rfl
    · exact .inl ⟨rfl, _, rfl⟩
    · exact .inr ⟨rfl, rfl⟩
  | copy j =>
    simp only [step, Option.map_eq_some_iff] at hst
    obtain ⟨it, hj, hst⟩ := hst
    refine ⟨fun k hk _ _ _ => ?_, fun i hi => ?_, by simp, by simp⟩
    · split at hst <;> subst hst
      · exact List.getElem?_append_left hk
      · rfl
    · have : j = i := by simpa using hi
      subst this
      split at hst <;> subst hst
      · exact .inl ⟨rfl, by simp, by rw [hj]; simp [St.it?]⟩
      · exact .inr ⟨rfl, rfl, rfl⟩
  | move j =>
    simp only [step, Option.map_eq_some_iff] at hst
    obtain ⟨it, hj, rfl⟩ := hst
    refine ⟨fun k hk _ h _ => ?_, fun i hi => ?_, by simp, by simp⟩
    · rw [List.getElem?_append_left (by simpa using hk), List.getElem?_set_ne (Ne.symm (h j rfl))]
    · have : j = i := by simpa using hi
      subst this
      exact .inl ⟨rfl, by simp, by rw [hj]; simp [St.it?]⟩
  | assign i j =>
    simp only [step, Option.bind_eq_some_iff] at hst
    obtain ⟨it, hj, hst⟩ := hst
    refine ⟨fun k hk h _ _ => ?_, by simp, fun a b hab => ?_, by simp⟩
    · split at hst
      · obtain rfl := Option.some.inj hst; rfl
      · split at hst
        · cases hst
        · split at hst <;> obtain rfl := Option.some.inj hst <;> exact List.getElem?_set_ne (Ne.symm (h i j rfl))
    · obtain ⟨rfl, rfl⟩ : i = a ∧ j = b := by simpa using hab
      split at hst
      · rename_i hij
        obtain rfl := Option.some.inj hst
        exact .inl ⟨rfl, by rw [hij]⟩
      · split at hst
        · cases hst
        · rename_i hlen
          have hlen : i < s.its.length := by omega
          split at hst <;> obtain rfl := Option.some.inj hst
          · exact .inl ⟨rfl, by rw [hj]; simp [St.it?, hlen]⟩
          · exact .inr ⟨rfl, by simp [St.it?, hlen]⟩
  | incr i =>
    simp only [step, Option.bind_eq_some_iff, Option.map_eq_some_iff] at hst
    obtain ⟨it, hi, r, hr, rfl⟩ := hst
    exact ⟨fun k hk _ _ h => List.getElem?_set_ne (Ne.symm (h i rfl)), by simp, by simp, by simp⟩

example : ∃ s', step (fun s x => s.contains x) [1, 1, 2] ⟨[some ⟨[1], 0⟩], [true], 0⟩ (.copy 0) = some s' ∧ s'.thrown = 1 ∧ s'.its = [some ⟨[1], 0⟩] := ⟨_, rfl, rfl, rfl⟩

/-- **C101.** Incrementing is defined exactly for iterators that are not at the end, also after exceptions. -/
theorem incr_defined_iff {set : SetImpl α} {xs : List α} {s : St α} {i : Nat} :
    (step set xs s (.incr i)).isSome = true ↔ ∃ it, s.it? i = some it ∧ it.pos < xs.length := by
  simp only [step]
  cases s.it? i with
  | none => simp
  | some it =>
    simp only [Option.bind_some, Option.isSome_map, Option.some.injEq, exists_eq_left']
    unfold uIncr
    split
    · simp; omega
    · rename_i h
      split <;> simp <;> omega

/-! ### Pipelines -/

/-- **C101.** A `remove_element` pipeline keeps the value it was made with, and so do the views made from it, whatever the program does later. -/
theorem pipeline_values {s s' : PSt β} {ops : List (POp β)} (h : prun s ops = some s') : s.pipes <+: s'.pipes ∧ s.views <+: s'.views := by
  induction ops generalizing s with
  | nil => obtain rfl := Option.some.inj h; exact ⟨List.prefix_refl _, List.prefix_refl _⟩
  | cons o os ih =>
    simp only [prun, Option.bind_eq_some_iff] at h
    obtain ⟨s1, h1, h⟩ := h
    have key : s.pipes <+: s1.pipes ∧ s.views <+: s1.views := by
      cases o with
      | set v b => obtain rfl := Option.some.inj h1; exact ⟨List.prefix_refl _, List.prefix_refl _⟩
      | make v =>
        simp only [pstep, Option.map_eq_some_iff] at h1
        obtain ⟨b, -, h1⟩ := h1
        split at h1 <;> subst h1
        · exact ⟨List.prefix_append _ _, List.prefix_refl _⟩
        · exact ⟨List.prefix_refl _, List.prefix_refl _⟩
      | makeMove v =>
        simp only [pstep, Option.map_eq_some_iff] at h1
        obtain ⟨b, -, rfl⟩ := h1
        exact ⟨List.prefix_append _ _, List.prefix_refl _⟩
      | use p =>
        simp only [pstep, Option.map_eq_some_iff] at h1
        obtain ⟨b, -, h1⟩ := h1
        split at h1 <;> subst h1
        · exact ⟨List.prefix_refl _, List.prefix_append _ _⟩
        · exact ⟨List.prefix_refl _, List.prefix_refl _⟩
    obtain ⟨a, b⟩ := ih h
    exact ⟨key.1.trans a, key.2.trans b⟩

/-- **C101.** Making a pipeline from a variable and using a pipeline copy the value; if the copy throws, nothing happens. Only moving changes the variable. -/
theorem pipeline_steps (s : PSt β) :
    (∀ v b, s.vars v = some b → ∃ s', pstep s (.make v) = some s' ∧ s'.vars = s.vars ∧ s'.views = s.views ∧ s'.faults = s.faults.tail ∧
      s'.pipes = if s.faults.head? = some true then s.pipes else s.pipes ++ [b]) ∧
    (∀ v b, s.vars v = some b → ∃ s', pstep s (.makeMove v) = some s' ∧ s'.vars v = none ∧ (∀ w, w ≠ v → s'.vars w = s.vars w) ∧ s'.views = s.views ∧
      s'.pipes = s.pipes ++ [b] ∧ s'.faults = s.faults) ∧
    (∀ p b, s.pipes[p]? = some b → ∃ s', pstep s (.use p) = some s' ∧ s'.vars = s.vars ∧ s'.pipes = s.pipes ∧ s'.faults = s.faults.tail ∧
      s'.views = if s.faults.head? = some true then s.views else s.views ++ [b]) := by
  obtain ⟨vars, pipes, views, fs⟩ := s
  refine ⟨fun v b h => ?_, fun v b h => ?_, fun p b h => ?_⟩
  · simp only [pstep] at h ⊢
    rw [h]
    cases fs with
    | nil => simp [draw]
    | cons f fs => cases f <;> simp [draw]
  · simp only [pstep] at h ⊢
    rw [h]
    refine ⟨_, rfl, by simp, fun w hw => by simp [hw], rfl, rfl, rfl⟩
  · simp only [pstep] at h ⊢
    rw [h]
    cases fs with
    | nil => simp [draw]
    | cons f fs => cases f <;> simp [draw]

example : (prun (β := Nat) ⟨fun _ => none, [], [], [false, false, true]⟩ [.set 0 3, .make 0, .use 0, .set 0 9, .use 0, .use 0]).map (fun s => (s.pipes, s.views)) =
    some ([3], [3, 3]) := by decide

/-! ### Function objects that throw -/

/-- Call the function object for each of the values, in order: the answers and the final state. -/
def answers (p : τ → α → γ × τ) : τ → List α → List γ × τ
  | t, [] => ([], t)
  | t, x :: l => let r := answers p (p t x).2 l; ((p t x).1 :: r.1, r.2)

/-- The function object was called exactly once for each element of a prefix, in order. All answers were `go`, except for the last one if there is one given; if there is none,
all elements were asked. -/
def Stops (p : τ → α → γ × τ) (t : τ) (l : List α) (go : γ) (last : Option γ) (t' : τ) : Prop :=
  ∃ asked rest, l = asked ++ rest ∧ t' = (answers p t asked).2 ∧
    match last with
    | none => rest = [] ∧ (answers p t asked).1 = List.replicate l.length go
    | some a => a ≠ go ∧ ∃ n, (answers p t asked).1 = List.replicate n go ++ [a]

theorem stops_nil (p : τ → α → γ × τ) (t : τ) (go : γ) : Stops p t [] go none t := ⟨[], [], rfl, rfl, by simp [answers]⟩

theorem stops_here {p : τ → α → γ × τ} {t t' : τ} {x : α} {go a : γ} (l : List α) (h : p t x = (a, t')) (ha : a ≠ go) : Stops p t (x :: l) go (some a) t' :=
  ⟨[x], l, rfl, by simp [answers, h], ha, 0, by simp [answers, h]⟩

theorem stops_later {p : τ → α → γ × τ} {t t' t'' : τ} {x : α} {go : γ} {last : Option γ} {l : List α} (h : p t x = (go, t')) (hl : Stops p t' l go last t'') :
    Stops p t (x :: l) go last t'' := by
  obtain ⟨asked, rest, hl, ht, hf⟩ := hl
  refine ⟨x :: asked, rest, by simp [hl], by simp [answers, h, ht], ?_⟩
  cases last with
  | none => exact ⟨hf.1, by simp [answers, h, hf.2, List.replicate_succ]⟩
  | some a =>
    obtain ⟨ha, n, hn⟩ := hf
    exact ⟨ha, n + 1, by simp [answers, h, hn, List.replicate_succ]⟩

/-- **C101.** `all_of`, `any_of` and `none_of` with predicates that can throw: they ask one element after the other, up to the first one that decides the result or throws;
the exception reaches the caller (`none`). -/
theorem quantifiers_throw (p : τ → α → Option Bool × τ) (t : τ) (l : List α) :
    (∃ last, Stops p t l (some true) last (allOfT p t l).2 ∧ (allOfT p t l).1 = last.getD (some true)) ∧
    (∃ last, Stops p t l (some false) last (anyOfT p t l).2 ∧ (anyOfT p t l).1 = last.getD (some false)) ∧
    (∃ last, Stops p t l (some false) last (noneOfT p t l).2 ∧ (noneOfT p t l).1 = (last.getD (some false)).map (!·)) := by
  induction l generalizing t with
  | nil => exact ⟨⟨none, stops_nil _ _ _, rfl⟩, ⟨none, stops_nil _ _ _, rfl⟩, ⟨none, stops_nil _ _ _, rfl⟩⟩
  | cons x l ih =>
    cases h : p t x with
    | mk b t' =>
      obtain ⟨⟨la, h1, e1⟩, ⟨lb, h2, e2⟩, ⟨lc, h3, e3⟩⟩ := ih t'
      rcases b with _ | _ | _
      · simp only [allOfT, anyOfT, noneOfT, h]
        exact ⟨⟨_, stops_here l h (by simp), rfl⟩, ⟨_, stops_here l h (by simp), rfl⟩, ⟨_, stops_here l h (by simp), rfl⟩⟩
      · simp only [allOfT, anyOfT, noneOfT, h]
        exact ⟨⟨_, stops_here l h (by simp), rfl⟩, ⟨lb, stops_later h h2, e2⟩, ⟨lc, stops_later h h3, e3⟩⟩
      · simp only [allOfT, anyOfT, noneOfT, h]
        exact ⟨⟨la, stops_later h h1, e1⟩, ⟨_, stops_here l h (by simp), rfl⟩, ⟨_, stops_here l h (by simp), rfl⟩⟩

/-- a predicate that counts its calls and throws at 5 -/
example : allOfT (fun (n : Nat) (x : Nat) => (if x = 5 then none else some true, n + 1)) 0 [1, 2, 5, 1] = (none, 3) := by decide

/-- **C101.** `all_equal`: if the first element cannot be copied, nothing is asked. -/
theorem all_equal_throws (p : τ → α → α → Option Bool × τ) (t : τ) (first : α) (l : List α) (b : Bool) :
    allEqualT b p t [] = (some true, t) ∧ allEqualT true p t (first :: l) = (none, t) ∧
    ∃ last, Stops (fun t current => p t current first) t l (some true) last (allEqualT false p t (first :: l)).2 ∧
      (allEqualT false p t (first :: l)).1 = last.getD (some true) :=
  ⟨rfl, rfl, (quantifiers_throw (fun t current => p t current first) t l).1⟩

/-- **C101.** `is_sorted_unique` asks for one pair of neighbours after the other. -/
theorem is_sorted_unique_throws (cmp : τ → α → α → Option Bool × τ) (t : τ) (l : List α) :
    ∃ last, Stops (fun t (xy : α × α) => cmp t xy.1 xy.2) t (l.zip l.tail) (some true) last (isSortedUniqueT cmp t l).2 ∧
      (isSortedUniqueT cmp t l).1 = last.getD (some true) := by
  cases l with
  | nil => exact ⟨none, stops_nil _ _ _, rfl⟩
  | cons x l =>
    simp only [isSortedUniqueT, List.tail_cons]
    induction l generalizing t x with
    | nil => exact ⟨none, stops_nil _ _ _, rfl⟩
    | cons y l ih =>
      rw [List.zip_cons_cons]
      have hp : (fun t (xy : α × α) => cmp t xy.1 xy.2) t (x, y) = cmp t x y := rfl
      cases h : cmp t x y with
      | mk b t' =>
        rw [h] at hp
        obtain ⟨last, h1, e1⟩ := ih t' y
        rcases b with _ | _ | _
        · simp only [sortedT, h]
          exact ⟨_, stops_here _ hp (by simp), rfl⟩
        · simp only [sortedT, h]
          exact ⟨_, stops_here _ hp (by simp), rfl⟩
        · simp only [sortedT, h]
          exact ⟨last, stops_later hp h1, e1⟩

/-- **C101.** `lexicographical_compare_three_way` asks for one pair of corresponding elements after the other; the lengths matter only if all of them are equal. -/
theorem lex_compare_throws (cmp : τ → α → β → Option Cmp × τ) (t : τ) (l : List α) (m : List β) :
    ∃ last, Stops (fun t (xy : α × β) => cmp t xy.1 xy.2) t (l.zip m) (some .equal) last (lexCompareT cmp t l m).2 ∧
      (lexCompareT cmp t l m).1 = last.getD (some (if l.length < m.length then .less else if m.length < l.length then .greater else .equal)) := by
  induction l generalizing t m with
  | nil =>
    cases m with
    | nil => exact ⟨none, stops_nil _ _ _, rfl⟩
    | cons y m => exact ⟨none, stops_nil _ _ _, by simp [lexCompareT]⟩
  | cons x l ih =>
    cases m with
    | nil => exact ⟨none, stops_nil _ _ _, by simp [lexCompareT]⟩
    | cons y m =>
      rw [List.zip_cons_cons]
      have hp : (fun t (xy : α × β) => cmp t xy.1 xy.2) t (x, y) = cmp t x y := rfl
      cases h : cmp t x y with
      | mk b t' =>
        rw [h] at hp
        obtain ⟨last, h1, e1⟩ := ih t' m
        rcases b with _ | b
        · simp only [lexCompareT, h]
          exact ⟨_, stops_here _ hp (by simp), rfl⟩
        · cases b
          case equal =>
            simp only [lexCompareT, h]
            exact ⟨last, stops_later hp h1, by simpa using e1⟩
          all_goals
            simp only [lexCompareT, h]
            exact ⟨_, stops_here _ hp (by simp), rfl⟩

/-- **C101.** `all_distinct` with insertions that can throw: `true` says that no two elements are equal, `false` that two are, and an exception comes from the first insertion
that throws, before any equal elements were met. -/
theorem all_distinct_throws {set : SetImpl α} {eq : α → α → Bool} (hs : Finds set eq) (xs : List α) (fs : List Bool) :
    match (allDistinctT set [] xs fs).1 with
    | some true => xs.Pairwise (fun x y => eq y x = false) ∧ true ∉ fs.take xs.length
    | some false => ∃ i j x y, i < j ∧ xs[i]? = some x ∧ xs[j]? = some y ∧ eq y x = true ∧ true ∉ fs.take (j + 1)
    | none => ∃ i, i < xs.length ∧ fs[i]? = some true ∧ true ∉ fs.take i ∧ (xs.take i).Pairwise (fun x y => eq y x = false) := by
  have key : ∀ (l pre : List α) (fs : List Bool), pre.Pairwise (fun x y => eq y x = false) →
      match (allDistinctT set pre.reverse l fs).1 with
      | some true => (pre ++ l).Pairwise (fun x y => eq y x = false) ∧ true ∉ fs.take l.length
      | some false => ∃ i j x y, i < pre.length + j ∧ (pre ++ l)[i]? = some x ∧ l[j]? = some y ∧ eq y x = true ∧ true ∉ fs.take (j + 1)
      | none => ∃ i, i < l.length ∧ fs[i]? = some true ∧ true ∉ fs.take i ∧ (pre ++ l.take i).Pairwise (fun x y => eq y x = false) := by
    intro l
    induction l with
    | nil => intro pre fs h; simpa [allDistinctT] using h
    | cons x l ih =>
      intro pre fs h
      have hd : ∃ b fs', draw fs = (b, fs') ∧ ((b = true ∧ fs = true :: fs') ∨ (b = false ∧ ((fs = [] ∧ fs' = []) ∨ fs = false :: fs'))) := by
        cases fs with
        | nil => exact ⟨false, [], rfl, by simp⟩
        | cons b fs => cases b <;> exact ⟨_, _, rfl, by simp⟩
      obtain ⟨b, fs', hd, hb⟩ := hd
      simp only [allDistinctT, hd]
      rcases hb with ⟨rfl, rfl⟩ | ⟨rfl, hb⟩
      · exact ⟨0, by simp, by simp, by simp, by simpa using h⟩
      · dsimp only
        have take : ∀ n, true ∉ fs'.take n → true ∉ fs.take (n + 1) := by
          intro n hn
          rcases hb with ⟨rfl, rfl⟩ | rfl
          · simp
          · simpa using hn
        have at_ : ∀ n, fs'[n]? = some true → fs[n + 1]? = some true := by
          intro n hn
          rcases hb with ⟨rfl, rfl⟩ | rfl
          · simp at hn
          · simpa using hn
        rw [insert_spec hs]
        by_cases hx : pre.reverse.any (fun y => eq x y) = true
        · rw [if_pos hx]
          dsimp only
          simp only [List.any_reverse, List.any_eq_true] at hx
          obtain ⟨y, hy, e⟩ := hx
          obtain ⟨i, hi, hy⟩ := List.getElem_of_mem hy
          exact ⟨i, 0, y, x, by simpa using hi, by rw [List.getElem?_append_left hi, List.getElem?_eq_getElem hi, hy], by simp, e, take 0 (by simp)⟩
        · rw [if_neg hx]
          dsimp only
          have hpre : (pre ++ [x]).Pairwise (fun x y => eq y x = false) := by
            rw [List.pairwise_append]
            refine ⟨h, by simp, fun a ha b hb => ?_⟩
            obtain rfl : b = x := by simpa using hb
            simp only [List.any_reverse, List.any_eq_true, not_exists, not_and, Bool.not_eq_true] at hx
            exact hx a ha
          have ih := ih (pre ++ [x]) fs' hpre
          simp only [List.reverse_append, List.reverse_cons, List.reverse_nil, List.nil_append, List.singleton_append] at ih
          cases hr : (allDistinctT set (x :: pre.reverse) l fs').1 with
          | none =>
            rw [hr] at ih
            obtain ⟨i, h1, h2, h3, h4⟩ := ih
            exact ⟨i + 1, by simpa using h1, at_ i h2, take i h3, by simpa using h4⟩
          | some b =>
            rw [hr] at ih
            cases b with
            | true => exact ⟨by simpa using ih.1, take _ ih.2⟩
            | false =>
              obtain ⟨i, j, u, v, h1, h2, h3, h4, h5⟩ := ih
              exact ⟨i, j + 1, u, v, by simp at h1; omega, by simpa using h2, by simpa using h3, h4, take _ h5⟩
  have := key xs [] fs (by simp)
  simpa using this

example : allDistinctT (fun s x => s.contains x) [] [1, 2, 1] [false, false, true] = (none, []) := by decide

end Verif.RangesThrow
