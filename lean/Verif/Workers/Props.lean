import Verif.Workers.Pres

/-!
C107: layers of workers that share channels, the last worker of a layer closing its output, together handle every element
exactly once, never deadlock and always come to an end.
-/
namespace Verif.Workers

open Verif.Channel
open Verif.Pipeline (upd upd_eq upd_ne Cls cls taken rest sumTo sumTo_congr sumTo_le next_ne_idle_cls call_enabled)

variable {α : Type}

/-! ### From weights to permutations -/

theorem mem_of_weight {x : α} {b : List α} (h : ∀ g : α → Nat, g x ≤ gsum g b) : x ∈ b := by
  classical
  have h1 := h (fun y => if y = x then 1 else 0)
  simp only [if_true] at h1
  apply Classical.byContradiction
  intro hx
  have : ∀ l : List α, x ∉ l → gsum (fun y => if y = x then 1 else 0) l = 0 := by
    intro l
    induction l with
    | nil => simp
    | cons a l ih =>
      intro hl
      simp only [List.mem_cons, not_or] at hl
      rw [gsum_cons, ih hl.2, if_neg (fun e => hl.1 e.symm)]
  rw [this b hx] at h1
  omega

theorem gsum_perm {g : α → Nat} {a b : List α} (h : a.Perm b) : gsum g a = gsum g b := by
  induction h with
  | nil => rfl
  | cons x _ ih => simp [ih]
  | swap x y l => simp; omega
  | trans _ _ h1 h2 => exact h1.trans h2

theorem perm_of_le {a : List α} : ∀ {b : List α}, (∀ g : α → Nat, gsum g a ≤ gsum g b) → ∃ r, (a ++ r).Perm b := by
  induction a with
  | nil => intro b _; exact ⟨b, .refl _⟩
  | cons x a ih =>
    intro b h
    have hx : x ∈ b := mem_of_weight (fun g => by have := h g; simp only [gsum_cons] at this; omega)
    obtain ⟨b1, b2, rfl⟩ := List.append_of_mem hx
    have hp : (b1 ++ x :: b2).Perm (x :: (b1 ++ b2)) := List.perm_middle
    obtain ⟨r, hr⟩ := ih (b := b1 ++ b2) (fun g => by
      have := h g; rw [gsum_perm hp] at this; simp only [gsum_cons] at this; omega)
    exact ⟨r, (hr.cons x).trans hp.symm⟩

theorem perm_of_eq {a b : List α} (h : ∀ g : α → Nat, gsum g a = gsum g b) : a.Perm b := by
  obtain ⟨r, hr⟩ := perm_of_le (fun g => Nat.le_of_eq (h g))
  have h1 := h (fun _ => 1)
  rw [← gsum_perm hr, gsum_append] at h1
  have : r = [] := by
    cases r with
    | nil => rfl
    | cons y r => simp only [gsum_cons] at h1; omega
  subst this
  simpa using hr

theorem gsum_concat {g : α → Nat} {n : Nat} {f : Nat → List α} : gsum g (concat n f) = sumTo n (fun j => gsum g (f j)) := by
  induction n with
  | zero => rfl
  | succ n ih => simp [concat, sumTo, ih]

theorem gsum_flatMap {g : α → Nat} {f : α → List α} {l : List α} :
    gsum g (l.flatMap f) = gsum (fun x => gsum g (f x)) l := by
  induction l with
  | nil => rfl
  | cons x l ih => simp [ih]

theorem gsum_one {l : List α} : gsum (fun _ => 1) l = l.length := by
  induction l with
  | nil => rfl
  | cons x l ih => simp [ih]; omega

/-! ### What has been seen -/

theorem made_sum {p : Plan α} {s : Sys α} {k : Nat} (g : α → Nat) :
    sumTo (p.width k) (fun j => gsum g (made p k j (s.worker k j))) =
      if k = 0 then gsum g (concat (p.width 0) p.source) else gsum (fun x => gsum g (p.body k x)) (seen p s k) := by
  by_cases h : k = 0
  · subst h; simp [made, gsum_concat]
  · simp only [h, if_false, made, seen, gsum_concat, gsum_flatMap]

theorem seen_le {p : Plan α} {s : Sys α} (h : Inv p s) (k : Nat) (hk : k ≤ p.inner) (g : α → Nat) :
    gsum g (seen p s (k + 1)) ≤ gsum g (stream p k) := by
  have step : ∀ k, k ≤ p.inner → ∀ g : α → Nat,
      gsum g (seen p s (k + 1)) ≤ sumTo (p.width k) (fun j => gsum g (made p k j (s.worker k j))) := by
    intro k hk g
    have h1 := (h.links k hk).flow g
    have h2 : sumTo (p.width (k + 1)) (fun j => gsum g (s.worker (k + 1) j).got) ≤ sumTo (p.width (k + 1))
        (fun j => gsum g (s.worker (k + 1) j).got + gsum g (taken (clsAt (s.chan k) (p.width k + j)))) :=
      sumTo_le (fun j _ => by omega)
    rw [seen, gsum_concat]; omega
  induction k generalizing g with
  | zero => have := step 0 hk g; rw [made_sum] at this; exact this
  | succ k ih =>
    have h1 := step (k + 1) hk g
    rw [made_sum, if_neg (by omega)] at h1
    have h2 := ih (by omega) (fun x => gsum g (p.body (k + 1) x))
    rw [stream, gsum_flatMap]; omega

/-- At every moment the loops of a layer together have seen a part of the elements that the layers before compute from
the sources, each of them at most once (C107; channel.hpp:85-105, 179-194, 214-291). -/
theorem workers_subset {p : Plan α} {s : Sys α} (h : Reach p s) (k : Nat) (hk : k ≤ p.inner) :
    ∃ rest, (seen p s (k + 1) ++ rest).Perm (stream p k) :=
  perm_of_le (seen_le (inv_reach h) k hk)

theorem rest_nil {k : Cls α} : rest ([] : List α) k = [] := by
  simp only [rest]; split <;> rfl

theorem seen_eq {p : Plan α} {s : Sys α} (h : Inv p s) (hw : ∀ i, i ≤ p.inner + 1 → 1 ≤ p.width i) (k : Nat)
    (hk : k ≤ p.inner) (hg : ∀ j, j < p.width (k + 1) → gone (s.worker (k + 1) j)) (g : α → Nat) :
    gsum g (seen p s (k + 1)) = gsum g (stream p k) := by
  have step : ∀ k, k ≤ p.inner → (∀ j, j < p.width (k + 1) → gone (s.worker (k + 1) j)) →
      (∀ j, j < p.width k → gone (s.worker k j)) ∧ ∀ g : α → Nat,
        gsum g (seen p s (k + 1)) = sumTo (p.width k) (fun j => gsum g (made p k j (s.worker k j))) := by
    intro k hk hg
    have hlk := h.links k hk
    have hc : ∀ j, j < p.width (k + 1) → clsAt (s.chan k) (p.width k + j) = .idle ∧ (s.chan k).closed = true ∧
        (s.chan k).q = [] := by
      intro j hj
      have h1 := hlk.cons j hj
      rcases hg j hj with hp | hp <;> simpa only [ConsOk, hp] using h1
    have h0 := hc 0 (hw (k + 1) (by omega))
    have hgk := hlk.closed h0.2.1
    refine ⟨hgk, fun g => ?_⟩
    have h1 := hlk.flow g
    have h2 : sumTo (p.width (k + 1)) (fun j => gsum g (s.worker (k + 1) j).got) = sumTo (p.width (k + 1))
        (fun j => gsum g (s.worker (k + 1) j).got + gsum g (taken (clsAt (s.chan k) (p.width k + j)))) :=
      sumTo_congr (fun j hj => by rw [(hc j hj).1]; simp [taken])
    have h3 : sumTo (p.width k) (fun j => gsum g (rest (s.worker k j).todo (clsAt (s.chan k) j))) =
        sumTo (p.width k) (fun _ => 0) := by
      refine sumTo_congr (fun j hj => ?_)
      have := (h.workers k j ⟨by omega, hj⟩).todo
        (by rcases hgk j hj with hp | hp <;> simp [hp]) (by rcases hgk j hj with hp | hp <;> simp [hp])
      rw [this, rest_nil]; rfl
    rw [sumTo_const] at h3
    rw [h0.2.2] at h1
    rw [seen, gsum_concat]
    simp only [gsum_nil] at h1
    omega
  induction k generalizing g with
  | zero =>
    have := (step 0 hk hg).2 g
    rw [made_sum] at this; exact this
  | succ k ih =>
    obtain ⟨h0, h1⟩ := step (k + 1) hk hg
    have h1 := h1 g
    rw [made_sum, if_neg (by omega)] at h1
    rw [stream, gsum_flatMap, ← ih (by omega) h0]; exact h1

/-- When all workers of a layer have finished, their loops together have seen exactly the elements that the layers before
compute from the sources, each of them exactly once, in some order (C107; channel.hpp:58-69, 85-105, 179-194, 214-291). -/
theorem workers_result {p : Plan α} {s : Sys α} (hw : ∀ i, i ≤ p.inner + 1 → 1 ≤ p.width i) (h : Reach p s) (k : Nat)
    (hk : k ≤ p.inner) (hover : ∀ j, j < p.width (k + 1) → (s.worker (k + 1) j).pos = .over) :
    (seen p s (k + 1)).Perm (stream p k) :=
  perm_of_eq (seen_eq (inv_reach h) hw k hk (fun j hj => .inr (hover j hj)))

/-! ### No deadlock -/

theorem idle_of {c : St α} {t : Nat} (ht : t < c.pcs.length) (h : clsAt c t = .idle) : c.pcs[t]? = some .idle := by
  have h1 : c.pcs[t]? = some c.pcs[t] := List.getElem?_eq_getElem ht
  rw [clsAt_of h1] at h
  rw [h1, next_ne_idle_cls h]

theorem users_length {p : Plan α} {s : Sys α} (h : Inv p s) {k : Nat} (hk : k ≤ p.inner) :
    (s.chan k).pcs.length = p.users k := reachable_length (h.links k hk).reach

theorem prod_call {p : Plan α} {s : Sys α} (h : Inv p s) {i j : Nat} (hij : p.has i j) (hi : i ≤ p.inner)
    (hp : (s.worker i j).pos = .loop ∨ (s.worker i j).pos = .ended) (op : Op α) :
    next (p.cfg i) (s.chan i) (.call j op) ≠ none := by
  have h1 := (h.links i hi).prod j hij.2
  refine call_enabled (idle_of ?_ (by rcases hp with hp | hp <;> simpa only [ProdOk, hp] using h1))
  rw [users_length h hi, Plan.users]
  have := hij.2; omega

theorem finish_enabled {p : Plan α} {s : Sys α} (h : Inv p s) {i j : Nat} (hij : p.has i j)
    (hp : (s.worker i j).pos = .loop ∨ (s.worker i j).pos = .ended) : s.finish p i j ≠ none := by
  unfold Sys.finish
  split
  · rename_i hc
    simp only [Sys.call, ne_eq, Option.map_eq_none_iff]
    exact prod_call h hij hc.2 hp _
  · simp

theorem begin_enabled {p : Plan α} {s : Sys α} (h : Inv p s) {i j : Nat} (hij : p.has i j)
    (hp : (s.worker i j).pos = .loop ∨ (s.worker i j).pos = .ended) : s.begin p i j ≠ none := by
  unfold Sys.begin
  split
  · rename_i y ys hp' ht
    have hle : i ≤ p.inner := by
      apply Classical.byContradiction
      intro hn
      have := ((h.workers i j hij).last (by have := hij.1; omega)).1
      rw [ht] at this; simp at this
    rw [if_pos hle]
    simp only [Sys.call, ne_eq, Option.map_eq_none_iff]
    exact prod_call h hij hle hp _
  · rename_i hp' ht
    split
    · exact finish_enabled h hij hp
    · rename_i h0
      obtain ⟨k, rfl⟩ : ∃ k, i = k + 1 := ⟨i - 1, by omega⟩
      have hk : k ≤ p.inner := by have := hij.1; omega
      have h2 := (h.links k hk).cons j hij.2
      simp only [Sys.call, ne_eq, Option.map_eq_none_iff, Nat.add_sub_cancel]
      refine call_enabled (idle_of ?_ (by simpa only [ConsOk, hp'] using h2))
      rw [users_length h hk, Plan.users]
      have := hij.2; omega
  · exact finish_enabled h hij hp
  · rename_i h3 h1 h2
    exfalso
    rcases hp with hp | hp
    · cases ht : (s.worker i j).todo with
      | nil => exact h2 hp ht
      | cons y ys => exact h1 y ys hp ht
    · exact h3 hp

theorem quiet {p : Plan α} {s : Sys α} (h : Inv p s) (hs : Stuck p s) {k : Nat} (hk : k ≤ p.inner) :
    Quiescent (p.cfg k) (s.chan k) := by
  intro t w
  have hlk := h.links k hk
  have hlen := users_length h hk
  by_cases ht : t < p.users k
  · by_cases h0 : clsAt (s.chan k) t = .idle
    · have := idle_of (by omega) h0
      simp [next, this, stepAt]
    · by_cases hp : t < p.width k
      · have h1 := hlk.prod t hp
        have hpos : (s.worker k t).pos = .inPush ∨ (s.worker k t).pos = .inClose := by
          unfold ProdOk at h1
          split at h1 <;> simp_all
        have h3 := (hs k t w).2
        have hij : p.has k t := ⟨by omega, hp⟩
        simp only [step, if_pos hij, Sys.inside] at h3
        rcases hpos with hpos | hpos <;> simpa [hpos, place] using h3
      · obtain ⟨j, rfl⟩ : ∃ j, t = p.width k + j := ⟨t - p.width k, by omega⟩
        have hj : j < p.width (k + 1) := by simp only [Plan.users] at ht; omega
        have h2 := hlk.cons j hj
        have hpos : (s.worker (k + 1) j).pos = .inPop := by
          unfold ConsOk at h2
          split at h2 <;> simp_all
        have h3 := (hs (k + 1) j w).2
        have hij : p.has (k + 1) j := ⟨by omega, hj⟩
        simp only [step, if_pos hij, Sys.inside] at h3
        simpa [hpos, place] using h3
  · have : (s.chan k).pcs[t]? = none := by simp; omega
    simp [next, this]

/-- In a stuck state every worker is asleep in `push`, asleep in `pop` or finished. -/
theorem stuck_pos {p : Plan α} {s : Sys α} (h : Inv p s) (hs : Stuck p s) {i j : Nat} (hij : p.has i j) :
    (s.worker i j).pos = .over ∨
      ((s.worker i j).pos = .inPush ∧ i ≤ p.inner ∧ p.cap i ≤ (s.chan i).q.length ∧ (s.chan i).closed = false) ∨
      ((s.worker i j).pos = .inPop ∧ ∃ k, i = k + 1 ∧ k ≤ p.inner ∧ (s.chan k).q = [] ∧ (s.chan k).closed = false) := by
  have hb := (hs i j none).1
  simp only [step, if_pos hij] at hb
  have hst := h.workers i j hij
  have hi := hij.1
  have hj := hij.2
  cases hp : (s.worker i j).pos with
  | loop => exact absurd hb (begin_enabled h hij (.inl hp))
  | ended => exact absurd hb (begin_enabled h hij (.inr hp))
  | over => exact .inl rfl
  | inPush =>
    have hle : i ≤ p.inner := by
      have : i ≠ p.inner + 1 := fun h0 => (hst.last h0).2.1 hp
      omega
    have hlk := h.links i hle
    have hq := quiet h hs hle
    have h1 := hlk.prod j hj
    have hlt : j < (s.chan i).pcs.length := by rw [users_length h hle, Plan.users]; omega
    have h0 := List.getElem?_eq_getElem hlt
    rw [clsAt_of h0] at h1
    simp only [ProdOk, hp] at h1
    obtain ⟨y, ys, -, h1⟩ := h1
    rcases quiescent_pc (lockInv_reach hlk.reach) hq h0 with hx | hx | ⟨v, hx⟩
    · rw [hx] at h1; simp [cls] at h1
    · rw [hx] at h1; simp [cls] at h1
    · rw [hx] at h0; exact .inr (.inl ⟨rfl, hle, quiescent_producer rfl hlk.reach hq h0⟩)
  | inClose =>
    have hle : i ≤ p.inner := by
      have : i ≠ p.inner + 1 := fun h0 => (hst.last h0).2.2 hp
      omega
    have hlk := h.links i hle
    have hq := quiet h hs hle
    have h1 := hlk.prod j hj
    have hlt : j < (s.chan i).pcs.length := by rw [users_length h hle, Plan.users]; omega
    have h0 := List.getElem?_eq_getElem hlt
    rw [clsAt_of h0] at h1
    simp only [ProdOk, hp] at h1
    rcases quiescent_pc (lockInv_reach hlk.reach) hq h0 with hx | hx | ⟨v, hx⟩ <;> rw [hx] at h1 <;> simp [cls] at h1
  | inPop =>
    obtain ⟨k, rfl⟩ : ∃ k, i = k + 1 := by
      have : i ≠ 0 := fun h0 => (hst.first h0).2.1 hp
      exact ⟨i - 1, by omega⟩
    have hle : k ≤ p.inner := by omega
    have hlk := h.links k hle
    have hq := quiet h hs hle
    have h1 := hlk.cons j hj
    have hlt : p.width k + j < (s.chan k).pcs.length := by rw [users_length h hle, Plan.users]; omega
    have h0 := List.getElem?_eq_getElem hlt
    rw [clsAt_of h0] at h1
    simp only [ConsOk, hp] at h1
    rcases quiescent_pc (lockInv_reach hlk.reach) hq h0 with hx | hx | ⟨v, hx⟩
    · rw [hx] at h1; simp [cls] at h1
    · rw [hx] at h0; exact .inr (.inr ⟨rfl, k, rfl, hle, quiescent_consumer rfl hlk.reach hq h0⟩)
    · rw [hx] at h1; simp [cls] at h1

/-- Layers with at least one worker each, joined by channels with room for at least one element, do not deadlock: when no
worker can go on, all workers have finished, and the last layer has seen the whole result (C107; channel.hpp:58-69, 85-105,
179-194). -/
theorem workers_no_deadlock {p : Plan α} {s : Sys α} (hw : ∀ i, i ≤ p.inner + 1 → 1 ≤ p.width i)
    (hcap : ∀ k, k ≤ p.inner → 1 ≤ p.cap k) (h : Reach p s) (hs : Stuck p s) :
    (∀ i j, i ≤ p.inner + 1 → j < p.width i → (s.worker i j).pos = .over) ∧
      (seen p s (p.inner + 1)).Perm (stream p p.inner) := by
  have hi := inv_reach h
  have nopush : ∀ d i, i + d = p.inner + 1 → ∀ j, j < p.width i → (s.worker i j).pos ≠ .inPush := by
    intro d
    induction d with
    | zero =>
      intro i hid j hj hp
      exact ((hi.workers i j ⟨by omega, hj⟩).last (by omega)).2.1 hp
    | succ d ih =>
      intro i hid j hj hp
      have hj0 := hw (i + 1) (by omega)
      have h1 := stuck_pos hi hs (i := i) (j := j) ⟨by omega, hj⟩
      have h2 := stuck_pos hi hs (i := i + 1) (j := 0) ⟨by omega, hj0⟩
      rcases h1 with h1 | ⟨-, hle, hq, hc⟩ | ⟨h1, -⟩
      · rw [hp] at h1; simp at h1
      · rcases h2 with h2 | ⟨h2, -⟩ | ⟨-, k, hk, -, hq2, -⟩
        · have := (hi.links i hle).cons 0 hj0
          simp only [ConsOk, h2] at this
          rw [this.2.1] at hc; simp at hc
        · exact ih (i + 1) (by omega) 0 hj0 h2
        · obtain rfl : k = i := by omega
          rw [hq2] at hq
          have := hcap k hle
          simp at hq; omega
      · rw [hp] at h1; simp at h1
  have nopop : ∀ i, i ≤ p.inner + 1 → ∀ j, j < p.width i → (s.worker i j).pos ≠ .inPop := by
    intro i
    induction i with
    | zero => intro _ j hj hp; exact ((hi.workers 0 j ⟨by omega, hj⟩).first rfl).2.1 hp
    | succ i ih =>
      intro hile j hj hp
      have h1 := stuck_pos hi hs (i := i + 1) (j := j) ⟨hile, hj⟩
      rcases h1 with h1 | ⟨h1, -⟩ | ⟨-, k, hk, hkl, -, hc⟩
      · rw [hp] at h1; simp at h1
      · rw [hp] at h1; simp at h1
      · obtain rfl : k = i := by omega
        have hov : ∀ j', j' < p.width k → (s.worker k j').pos = .over := by
          intro j' hj'
          rcases stuck_pos hi hs (i := k) (j := j') ⟨by omega, hj'⟩ with h2 | ⟨h2, -⟩ | ⟨h2, -⟩
          · exact h2
          · exact absurd h2 (nopush (p.inner + 1 - k) k (by omega) j' hj')
          · exact absurd h2 (ih (by omega) j' hj')
        have hact : s.active k = 0 := by
          rw [hi.counts k (by omega), sumTo_congr (g := fun _ => 0) (fun j' hj' => by simp [live, hov j' hj']), sumTo_const]
          simp
        rcases (hi.links k hkl).last (hw k (by omega)) hact with h3 | ⟨j', hj', h3⟩
        · rw [h3] at hc; simp at hc
        · rw [hov j' hj'] at h3; simp at h3
  have hall : ∀ i j, i ≤ p.inner + 1 → j < p.width i → (s.worker i j).pos = .over := by
    intro i j hile hj
    rcases stuck_pos hi hs ⟨hile, hj⟩ with h1 | ⟨h1, -⟩ | ⟨h1, -⟩
    · exact h1
    · exact absurd h1 (nopush (p.inner + 1 - i) i (by omega) j hj)
    · exact absurd h1 (nopop i hile j hj)
  exact ⟨hall, workers_result hw h p.inner (Nat.le_refl _) (fun j hj => hall _ j (Nat.le_refl _) hj)⟩

/-! ### Examples -/

/-- An action of worker `j` of layer `i` that is enabled, waking the first of `n` threads that can be woken (for examples;
channel.hpp:58-194). -/
def tryRun (p : Plan α) (s : Sys α) (i j : Nat) : Nat → Option (WAct × Sys α)
  | 0 => match step p s (.run i j none) with
    | some s' => some (.run i j none, s')
    | none => (step p s (.begin i j)).map (fun s' => (.begin i j, s'))
  | n + 1 => match step p s (.run i j (some n)) with
    | some s' => some (.run i j (some n), s')
    | none => tryRun p s i j n

/-- An action of one of the first `j` workers of layer `i` (for examples; channel.hpp:58-194). -/
def pickIn (p : Plan α) (s : Sys α) (i : Nat) : Nat → Option (WAct × Sys α)
  | 0 => none
  | j + 1 => match tryRun p s i j 8 with
    | some r => some r
    | none => pickIn p s i j

/-- An action of one of the first `i` layers (for examples; channel.hpp:58-194). -/
def pick (p : Plan α) (s : Sys α) : Nat → Option (WAct × Sys α)
  | 0 => none
  | i + 1 => match pickIn p s i (p.width i) with
    | some r => some r
    | none => pick p s i

/-- A schedule (for examples; channel.hpp:58-194). -/
def sched (p : Plan α) : Nat → Sys α → List WAct
  | 0, _ => []
  | n + 1, s =>
    match pick p s (p.inner + 2) with
    | none => []
    | some (a, s') => a :: sched p n s'

/-- Two producers, two workers in the middle that push every element and its square, two consumers; channels for one
element each (example for channel.hpp:58-194). -/
def squares : Plan Nat where
  inner := 1
  width _ := 2
  cap _ := 1
  source j := if j = 0 then [2, 3] else [4]
  body _ x := [x, x * x]

theorem squares_width : ∀ i, i ≤ squares.inner + 1 → 1 ≤ squares.width i := fun _ _ => Nat.le_succ 1

theorem squares_run : (exec squares (start squares) (sched squares 400 (start squares))).map
    (fun s => ([(s.worker 0 0).pos, (s.worker 0 1).pos, (s.worker 1 0).pos, (s.worker 1 1).pos, (s.worker 2 0).pos,
      (s.worker 2 1).pos], seen squares s 2)) =
      some ([.over, .over, .over, .over, .over, .over], [4, 16, 2, 4, 3, 9]) := by decide +kernel

theorem squares_over : ∃ s, Reach squares s ∧ seen squares s 2 = [4, 16, 2, 4, 3, 9] ∧
    ∀ i j, i ≤ squares.inner + 1 → j < squares.width i → (s.worker i j).pos = .over := by
  have h := squares_run
  simp only [Option.map_eq_some_iff] at h
  obtain ⟨s, h1, h2⟩ := h
  simp only [Prod.mk.injEq, List.cons.injEq, and_true] at h2
  obtain ⟨⟨h00, h01, h10, h11, h20, h21⟩, h3⟩ := h2
  refine ⟨s, ⟨_, h1⟩, h3, fun i j hi hj => ?_⟩
  simp only [squares] at hi hj
  have hi : i = 0 ∨ i = 1 ∨ i = 2 := by omega
  have hj : j = 0 ∨ j = 1 := by omega
  rcases hi with rfl | rfl | rfl <;> rcases hj with rfl | rfl <;> assumption

/-- `workers_subset` and `workers_result` apply to a state in which everything has been computed. -/
example : ∃ s, Reach squares s ∧ (seen squares s 2).Perm [2, 4, 3, 9, 4, 16] ∧
    ∃ rest, (seen squares s 1 ++ rest).Perm [2, 3, 4] := by
  obtain ⟨s, h1, -, h3⟩ := squares_over
  exact ⟨s, h1, workers_result squares_width h1 1 (by decide) (fun j hj => h3 2 j (by decide) hj),
    workers_subset h1 0 (by decide)⟩

/-- A stuck state of `squares`, which meets the hypotheses of `workers_no_deadlock`. -/
example : (∀ i, i ≤ squares.inner + 1 → 1 ≤ squares.width i) ∧ (∀ k, k ≤ squares.inner → 1 ≤ squares.cap k) ∧
    ∃ s, Reach squares s ∧ Stuck squares s := by
  have _use := @workers_no_deadlock Nat squares
  refine ⟨squares_width, fun _ _ => Nat.le_refl _, ?_⟩
  obtain ⟨s, h1, -, h3⟩ := squares_over
  refine ⟨s, h1, fun i j w => ?_⟩
  simp only [step, Sys.begin, Sys.inside]
  constructor <;> split <;> try rfl
  · rename_i hi; rw [h3 i j hi.1 hi.2]
  · rename_i hi; rw [h3 i j hi.1 hi.2]; rfl

/-- With more than one worker in a layer the order is not kept: the elements of the second producer, and what is computed
from them, may come first, although each channel is a queue (C107; channel.hpp:100,188). -/
theorem workers_order_refuted :
    ∃ (p : Plan Nat) (s : Sys Nat), Reach p s ∧
      (∀ i j, i ≤ p.inner + 1 → j < p.width i → (s.worker i j).pos = .over) ∧
      seen p s (p.inner + 1) ≠ stream p p.inner := by
  obtain ⟨s, h1, h2, h3⟩ := squares_over
  exact ⟨squares, s, h1, h3, by rw [show squares.inner + 1 = 2 from rfl, h2]; decide⟩

end Verif.Workers
