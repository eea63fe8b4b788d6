import Verif.Relay.Pres

/-!
C108: threads joined by exchange channels to a relay skip values but never the newest one, never deadlock and always come
to an end.
-/
namespace Verif.Relay

open Verif.Exchange
open Verif.Channel (Op Res Ev Act)
open Verif.Pipeline (upd upd_eq upd_ne Cls taken rest sumTo sumTo_congr sumTo_le sumTo_upd sumTo_zero)

variable {α : Type}

theorem got_sublist {p : Plan α} {s : Sys α} (h : Inv p s) (k : Nat) (hk : k ≤ p.inner) :
    (s.stage (k + 1)).got.Sublist (p.source.map (through p k)) := by
  have key : ∀ k, k ≤ p.inner → (s.stage (k + 1)).got.Sublist (made p k (s.stage k)) := by
    intro k hk
    obtain ⟨pc0, pc1, pre, -, -, -, h3, h4⟩ := (h.links k hk).pcs
    rw [h3]
    exact (List.sublist_append_left _ _).trans (h4.1.trans (List.sublist_append_left _ _))
  induction k with
  | zero => simpa [made, through] using key 0 hk
  | succ k ih =>
    have h1 := key (k + 1) hk
    simp only [made, Nat.add_one_ne_zero, if_false] at h1
    have h2 := (ih (by omega)).map (p.body (k + 1))
    rw [List.map_map] at h2
    exact h1.trans h2

/-- At every moment the loop of every thread has seen a subsequence of what the threads before it make of the source: in
order, nothing invented, nothing twice (C108; exchange_channel.hpp:79-96, 124-136, 151-245). -/
theorem relay_subsequence {p : Plan α} {s : Sys α} (h : Reach p s) (k : Nat) (hk : k ≤ p.inner) :
    (s.stage (k + 1)).got.Sublist (p.source.map (through p k)) :=
  got_sublist (inv_reach h) k hk

theorem rest_nil (k : Cls α) : rest ([] : List α) k = [] := by simp only [rest]; split <;> rfl

/-- Nothing is in channel `k` nor in a call of `pop` on it (exchange_channel.hpp:32,135). -/
def Calm (s : Sys α) (k : Nat) : Prop :=
  (s.chan k).slot = none ∧ ∀ pc, (s.chan k).pcs[1]? = some pc → taken (cls pc) = []

theorem fresh_chain {p : Plan α} {s : Sys α} (h : Inv p s) {pre : List α} (hpre : p.source = pre ++ (s.stage 0).todo)
    (h0 : (s.stage 0).pos ≠ .inPush) (k : Nat) (hk : k ≤ p.inner) (hc : ∀ j, j ≤ k → Calm s j)
    (ht : ∀ j, 1 ≤ j → j ≤ k → (s.stage j).todo = []) :
    Fresh (s.stage (k + 1)).got (pre.map (through p k)) := by
  induction k with
  | zero =>
    obtain ⟨pc0, pc1, pre', e, h1, -, h3, h4⟩ := (h.links 0 hk).pcs
    obtain ⟨c1, c2⟩ := hc 0 (Nat.le_refl _)
    rw [c1, c2 pc1 (by rw [e]; rfl)] at h4
    have hr : rest (s.stage 0).todo (cls pc0) = (s.stage 0).todo := by
      unfold ProdOk at h1
      split at h1
      · rename_i hp; exact absurd hp h0
      · rcases h1 with h1 | ⟨h1, -⟩ <;> rw [h1] <;> rfl
      · rw [h1.1]; rfl
      · rw [h1.1]; rfl
    simp only [made, if_true, hr, hpre] at h3
    obtain rfl : pre = pre' := List.append_cancel_right h3
    simpa [through] using h4
  | succ k ih =>
    have ih := ih (by omega) (fun j hj => hc j (by omega)) (fun j h1 hj => ht j h1 (by omega))
    obtain ⟨pc0, pc1, pre', e, h1, -, h3, h4⟩ := (h.links (k + 1) hk).pcs
    obtain ⟨c1, c2⟩ := hc (k + 1) (Nat.le_refl _)
    rw [c1, c2 pc1 (by rw [e]; rfl)] at h4
    rw [ht (k + 1) (by omega) (Nat.le_refl _), rest_nil] at h3
    simp only [made, Nat.add_one_ne_zero, if_false, List.append_nil] at h3
    simp only [Option.toList_none, List.append_nil] at h4
    subst h3
    have h5 := ih.map (p.body (k + 1))
    rw [List.map_map] at h5
    exact h4.trans h5

/-- A thread behind its loop: its input is closed and empty, and the thread before it is behind its loop as well. -/
theorem behind {p : Plan α} {s : Sys α} (h : Inv p s) {k : Nat} (hk : k ≤ p.inner)
    (hp : (s.stage (k + 1)).pos = .shut ∨ (s.stage (k + 1)).pos = .inClose ∨ (s.stage (k + 1)).pos = .over) :
    Calm s k ∧ ((s.stage k).pos = .inClose ∨ (s.stage k).pos = .over) := by
  obtain ⟨pc0, pc1, pre, e, h1, h2, -, -⟩ := (h.links k hk).pcs
  have h2' : cls pc1 = .idle ∧ (s.chan k).closed = true ∧ (s.chan k).slot = none := by
    rcases hp with hp | hp | hp <;> simpa only [ConsOk, hp] using h2
  refine ⟨⟨h2'.2.2, ?_⟩, ?_⟩
  · intro pc hpc
    obtain rfl : pc1 = pc := by simpa [e] using hpc
    rw [h2'.1]; rfl
  · rw [h2'.2.1] at h1
    unfold ProdOk at h1
    split at h1
    · simp at h1
    · rename_i hp; exact .inl hp
    · rename_i hp; exact .inr hp
    · simp at h1

theorem behind_all {p : Plan α} {s : Sys α} (h : Inv p s) {k : Nat} (hk : k ≤ p.inner)
    (hp : (s.stage (k + 1)).pos = .shut ∨ (s.stage (k + 1)).pos = .inClose ∨ (s.stage (k + 1)).pos = .over) :
    ∀ j, j ≤ k → Calm s j ∧ ((s.stage j).pos = .inClose ∨ (s.stage j).pos = .over) := by
  induction k with
  | zero =>
    intro j hj
    obtain rfl : j = 0 := by omega
    exact behind h hk hp
  | succ k ih =>
    intro j hj
    have h1 := behind h hk hp
    by_cases hjk : j = k + 1
    · subst hjk; exact h1
    · exact ih (by omega) (.inr h1.2) j (by omega)

theorem done_fresh {p : Plan α} {s : Sys α} (h : Inv p s) {k : Nat} (hk : k ≤ p.inner)
    (hp : (s.stage (k + 1)).pos = .shut ∨ (s.stage (k + 1)).pos = .inClose ∨ (s.stage (k + 1)).pos = .over) :
    Fresh (s.stage (k + 1)).got (p.source.map (through p k)) := by
  have hb := behind_all h hk hp
  have ht : ∀ j, j ≤ k → (s.stage j).todo = [] := by
    intro j hj
    rcases (hb j hj).2 with hx | hx
    · exact (h.stages j (by omega)).todo (by simp [hx]) (by simp [hx])
    · exact (h.stages j (by omega)).todo (by simp [hx]) (by simp [hx])
  refine fresh_chain h (by rw [ht 0 (Nat.zero_le _)]; simp) ?_ k hk (fun j hj => (hb j hj).1) (fun j _ hj => ht j hj)
  rcases (hb 0 (Nat.zero_le _)).2 with hx | hx <;> simp [hx]

/-- When a thread of the relay has finished, the last element that its loop has seen is what the threads before it make of
the last element of the source; it has seen nothing at all only if the source is empty (C108; exchange_channel.hpp:53-63,
79-96, 124-136, 151-245). -/
theorem relay_newest {p : Plan α} {s : Sys α} (h : Reach p s) {k : Nat} (hk : k ≤ p.inner)
    (hover : (s.stage (k + 1)).pos = .over) :
    (s.stage (k + 1)).got.getLast? = p.source.getLast?.map (through p k) := by
  have := (done_fresh (inv_reach h) hk (.inr (.inr hover))).2
  rwa [List.getLast?_map] at this

/-- No push of a relay is refused (C108; exchange_channel.hpp:80-89): every value reaches its channel, and whoever misses it
misses it because a newer one has replaced it. -/
theorem relay_no_refusal {p : Plan α} {s : Sys α} (h : Reach p s) {k : Nat} (hk : k ≤ p.inner) {t : Nat} {v : α} :
    (s.chan k).pcs[t]? ≠ some (.done (.push v) (.bool false)) := by
  obtain ⟨pc0, pc1, pre, e, h1, h2, -, -⟩ := ((inv_reach h).links k hk).pcs
  intro hx
  match t with
  | 0 =>
    obtain rfl : pc0 = .done (.push v) (.bool false) := by simpa [e] using hx
    unfold ProdOk at h1
    split at h1 <;> simp [cls] at h1
  | 1 =>
    obtain rfl : pc1 = .done (.push v) (.bool false) := by simpa [e] using hx
    unfold ConsOk at h2
    split at h2 <;> simp [cls] at h2
  | t + 2 => simp [e] at hx

/-! ### No deadlock -/

theorem call_enabled {c : St α} {t : Nat} {op : Op α} (h : c.pcs[t]? = some .idle) (ho : ∀ v, op ≠ .tryPush v) :
    next {} c (.call t op) ≠ none := by
  simp only [next, h]
  cases op <;> simp [entry]
  exact ho _ rfl

theorem closeOut_enabled {p : Plan α} {s : Sys α} (h : Inv p s) {i : Nat}
    (hp : (s.stage i).pos = .loop ∨ (s.stage i).pos = .shut) : s.closeOut p i ≠ none := by
  unfold Sys.closeOut
  split
  · rename_i hle
    obtain ⟨pc0, pc1, pre, e, h1, -, -, -⟩ := (h.links i hle).pcs
    have : pc0 = .idle := idle_of_cls (by rcases hp with hp | hp <;> simp only [ProdOk, hp] at h1 <;> exact h1.1)
    simp only [Sys.call, ne_eq, Option.map_eq_none_iff]
    exact call_enabled (by rw [e, this]; rfl) (by simp)
  · simp

theorem begin_enabled {p : Plan α} {s : Sys α} (h : Inv p s) {i : Nat} (hi : i ≤ p.inner + 1)
    (hp : (s.stage i).pos = .loop ∨ (s.stage i).pos = .shut) : s.begin p i ≠ none := by
  unfold Sys.begin
  split
  · rename_i y ys hp ht
    have hle : i ≤ p.inner := by
      apply Classical.byContradiction
      intro hn
      have := ((h.stages i hi).last (by omega)).1
      rw [ht] at this; simp at this
    rw [if_pos hle]
    obtain ⟨pc0, pc1, pre, e, h1, -, -, -⟩ := (h.links i hle).pcs
    have : pc0 = .idle := idle_of_cls (by simp only [ProdOk, hp] at h1; exact h1.1)
    simp only [Sys.call, ne_eq, Option.map_eq_none_iff]
    exact call_enabled (by rw [e, this]; rfl) (by simp)
  · rename_i hp ht
    split
    · exact closeOut_enabled h (.inl hp)
    · rename_i h0
      obtain ⟨k, rfl⟩ : ∃ k, i = k + 1 := ⟨i - 1, by omega⟩
      obtain ⟨pc0, pc1, pre, e, -, h2, -, -⟩ := (h.links k (by omega)).pcs
      have : pc1 = .idle := idle_of_cls (by simpa only [ConsOk, hp] using h2)
      simp only [Sys.call, ne_eq, Option.map_eq_none_iff, Nat.add_sub_cancel]
      exact call_enabled (by rw [e, this]; rfl) (by simp)
  · rename_i hp; exact closeOut_enabled h (.inr hp)
  · rename_i h1 h2 h3
    exfalso
    rcases hp with hp | hp
    · cases ht : (s.stage i).todo with
      | nil => first | exact h2 hp ht | exact h3 hp ht | exact h1 hp ht
      | cons y ys => first | exact h1 y ys hp ht | exact h2 y ys hp ht | exact h3 y ys hp ht
    · first | exact h3 hp | exact h1 hp | exact h2 hp

theorem quiet {p : Plan α} {s : Sys α} (h : Inv p s) {k : Nat} (hk : k ≤ p.inner)
    (hP : Blocked p s k ∨ (s.stage k).pos = .loop) (hC : Blocked p s (k + 1) ∨ (s.stage (k + 1)).pos = .loop) :
    Quiescent {} (s.chan k) := by
  obtain ⟨pc0, pc1, pre, e, h1, h2, -, -⟩ := (h.links k hk).pcs
  intro t w
  match t with
  | 0 =>
    by_cases h0 : pc0 = .idle
    · simp [next, e, h0, stepAt]
    · have hp : (s.stage k).pos = .inPush ∨ (s.stage k).pos = .inClose := by
        have hc : cls pc0 ≠ .idle := fun hc => h0 (idle_of_cls hc)
        unfold ProdOk at h1
        split at h1 <;> simp_all
      rcases hP with hP | hP
      · have h3 := hP.2 w
        simp only [step, if_pos (Nat.le_succ_of_le hk), Sys.inside] at h3
        rcases hp with hp | hp <;> simpa [hp, place] using h3
      · rw [hP] at hp; simp at hp
  | 1 =>
    by_cases h0 : pc1 = .idle
    · simp [next, e, h0, stepAt]
    · have hp : (s.stage (k + 1)).pos = .inPop := by
        have hc : cls pc1 ≠ .idle := fun hc => h0 (idle_of_cls hc)
        unfold ConsOk at h2
        split at h2 <;> simp_all
      rcases hC with hC | hC
      · have h3 := hC.2 w
        simp only [step, if_pos (Nat.succ_le_succ hk), Sys.inside] at h3
        simpa [hp, place] using h3
      · rw [hC] at hp; simp at hp
  | t + 2 => simp [next, e]

/-- A blocked thread whose neighbours on its input are at rest has finished or is asleep in `pop` on an empty channel that
is not closed. -/
theorem blocked_pos {p : Plan α} {s : Sys α} (h : Inv p s) {k : Nat} (hk : k ≤ p.inner) (hb : Blocked p s (k + 1))
    (hP : Blocked p s k ∨ (s.stage k).pos = .loop)
    (hN : k + 1 ≤ p.inner → Blocked p s (k + 2)) :
    Calm s k ∧ ((s.stage (k + 1)).pos = .over ∨ ((s.stage (k + 1)).pos = .inPop ∧ (s.chan k).closed = false)) := by
  have hst := h.stages (k + 1) (by omega)
  have hb1 := hb.1
  simp only [step, if_pos (Nat.succ_le_succ hk)] at hb1
  have hq := quiet h hk hP (.inl hb)
  cases hp : (s.stage (k + 1)).pos with
  | loop => exact absurd hb1 (begin_enabled h (by omega) (.inl hp))
  | shut => exact absurd hb1 (begin_enabled h (by omega) (.inr hp))
  | over => exact ⟨(behind h hk (.inr (.inr hp))).1, .inl rfl⟩
  | inPop =>
    have hlk := h.links k hk
    obtain ⟨pc0, pc1, pre, e, -, h2, -, -⟩ := hlk.pcs
    have h0 : (s.chan k).pcs[1]? = some pc1 := by rw [e]; rfl
    simp only [ConsOk, hp] at h2
    rcases quiescent_pc (lockInv_reach hlk.reach) hq h0 with rfl | rfl
    · simp [cls] at h2
    · have := quiescent_consumer rfl hlk.reach hq h0
      refine ⟨⟨this.1, ?_⟩, .inr ⟨rfl, this.2⟩⟩
      intro pc hpc
      rw [h0] at hpc; injection hpc with hpc; subst hpc; rfl
  | inPush =>
    exfalso
    have hle : k + 1 ≤ p.inner := by
      have : k + 1 ≠ p.inner + 1 := fun h0 => (hst.last h0).2.1 hp
      omega
    have hlk := h.links (k + 1) hle
    obtain ⟨pc0, pc1, pre, e, h1, -, -, -⟩ := hlk.pcs
    have hq := quiet h hle (.inl hb) (.inl (hN hle))
    have h0 : (s.chan (k + 1)).pcs[0]? = some pc0 := by rw [e]; rfl
    simp only [ProdOk, hp] at h1
    obtain ⟨y, ys, -, h1, -⟩ := h1
    rcases quiescent_pc (lockInv_reach hlk.reach) hq h0 with rfl | rfl <;> simp [cls] at h1
  | inClose =>
    exfalso
    have hle : k + 1 ≤ p.inner := by
      have : k + 1 ≠ p.inner + 1 := fun h0 => (hst.last h0).2.2 hp
      omega
    have hlk := h.links (k + 1) hle
    obtain ⟨pc0, pc1, pre, e, h1, -, -, -⟩ := hlk.pcs
    have hq := quiet h hle (.inl hb) (.inl (hN hle))
    have h0 : (s.chan (k + 1)).pcs[0]? = some pc0 := by rw [e]; rfl
    simp only [ProdOk, hp] at h1
    rcases quiescent_pc (lockInv_reach hlk.reach) hq h0 with rfl | rfl <;> simp [cls] at h1

/-- While the first thread is between two pushes (it computes the next value, or waits for it), the other threads come to
rest only when the newest value has reached all of them: if none of them can go on, the last element that each of their
loops has seen is what the threads before it make of the value that was pushed last (C108; exchange_channel.hpp:79-96,
124-136, 151-245). -/
theorem relay_up_to_date {p : Plan α} {s : Sys α} (h : Reach p s) (h0 : (s.stage 0).pos = .loop)
    (hb : ∀ i, 1 ≤ i → i ≤ p.inner + 1 → Blocked p s i) {pre : List α} (hpre : p.source = pre ++ (s.stage 0).todo)
    {k : Nat} (hk : k ≤ p.inner) :
    (s.stage (k + 1)).got.getLast? = pre.getLast?.map (through p k) := by
  have hi := inv_reach h
  have hbp : ∀ j, j ≤ p.inner → Calm s j ∧
      ((s.stage (j + 1)).pos = .over ∨ ((s.stage (j + 1)).pos = .inPop ∧ (s.chan j).closed = false)) := by
    intro j hj
    refine blocked_pos hi hj (hb (j + 1) (by omega) (by omega)) ?_ (fun hj' => hb (j + 2) (by omega) (by omega))
    by_cases hj0 : j = 0
    · subst hj0; exact .inr h0
    · exact .inl (hb j (by omega) (by omega))
  have ht : ∀ j, 1 ≤ j → j ≤ k → (s.stage j).todo = [] := by
    intro j h1 hj
    obtain ⟨m, rfl⟩ : ∃ m, j = m + 1 := ⟨j - 1, by omega⟩
    have := (hbp m (by omega)).2
    have hst := hi.stages (m + 1) (by omega)
    rcases this with hx | ⟨hx, -⟩ <;> exact hst.todo (by simp [hx]) (by simp [hx])
  have := (fresh_chain hi hpre (by simp [h0]) k hk (fun j hj => (hbp j (by omega)).1) ht).2
  rwa [List.getLast?_map] at this

/-- Relays do not deadlock: when no thread can go on, all threads have finished (C108; exchange_channel.hpp:53-63, 79-96,
124-136). -/
theorem relay_no_deadlock {p : Plan α} {s : Sys α} (h : Reach p s) (hb : ∀ i, i ≤ p.inner + 1 → Blocked p s i) :
    ∀ i, i ≤ p.inner + 1 → (s.stage i).pos = .over := by
  have hi := inv_reach h
  intro i
  induction i with
  | zero =>
    intro _
    have hst := hi.stages 0 (by omega)
    have hb0 := hb 0 (by omega)
    have hb1 := hb0.1
    simp only [step, Nat.zero_le, if_true] at hb1
    have hlk := hi.links 0 (Nat.zero_le _)
    have hq := quiet hi (Nat.zero_le _) (.inl hb0) (.inl (hb 1 (by omega)))
    obtain ⟨pc0, pc1, pre, e, h1, -, -, -⟩ := hlk.pcs
    have h0 : (s.chan 0).pcs[0]? = some pc0 := by rw [e]; rfl
    cases hp : (s.stage 0).pos with
    | loop => exact absurd hb1 (begin_enabled hi (by omega) (.inl hp))
    | shut => exact absurd hb1 (begin_enabled hi (by omega) (.inr hp))
    | over => rfl
    | inPop => exact absurd hp (hst.first rfl).2.1
    | inPush =>
      exfalso
      simp only [ProdOk, hp] at h1
      obtain ⟨y, ys, -, h1, -⟩ := h1
      rcases quiescent_pc (lockInv_reach hlk.reach) hq h0 with rfl | rfl <;> simp [cls] at h1
    | inClose =>
      exfalso
      simp only [ProdOk, hp] at h1
      rcases quiescent_pc (lockInv_reach hlk.reach) hq h0 with rfl | rfl <;> simp [cls] at h1
  | succ k ih =>
    intro hk
    have hk' : k ≤ p.inner := by omega
    have ih := ih (by omega)
    obtain ⟨-, hx | ⟨-, hx⟩⟩ := blocked_pos hi hk' (hb (k + 1) hk) (.inl (hb k (by omega)))
      (fun hle => hb (k + 2) (by omega))
    · exact hx
    · obtain ⟨pc0, pc1, pre, e, h1, -, -, -⟩ := (hi.links k hk').pcs
      simp only [ProdOk, ih] at h1
      rw [h1.2] at hx; simp at hx

/-! ### Executions come to an end -/

/-- Calls made by all threads (of exchange_channel.hpp:53,79,124). -/
def allCalls (p : Plan α) (s : Sys α) : Nat := sumTo (p.inner + 2) (fun i => (s.stage i).calls)

/-- Work left in all calls (of exchange_channel.hpp:53,79,124). -/
def allWork (p : Plan α) (s : Sys α) : Nat := sumTo (p.inner + 1) (fun k => work 2 (s.chan k).pcs)

theorem calls_bound {p : Plan α} {s : Sys α} (h : Inv p s) {i : Nat} (hi : i ≤ p.inner + 1) :
    (s.stage i).calls ≤ 2 * p.source.length + 2 := by
  have hst := h.stages i hi
  have hc := hst.calls
  have hf : flag (s.stage i).pos ≤ 2 := by cases (s.stage i).pos <;> simp [flag]
  match i with
  | 0 =>
    simp only [made, if_true, (hst.first rfl).1, Nat.zero_le, List.length_nil] at hc
    omega
  | k + 1 =>
    have h1 := (got_sublist h k (by omega)).length_le
    simp only [List.length_map] at h1
    simp only [made, Nat.add_one_ne_zero, if_false, List.length_map] at hc
    split at hc <;> omega

theorem sumTo_const' (n c : Nat) : sumTo n (fun _ => c) = n * c := by
  induction n with
  | zero => simp [sumTo]
  | succ n ih => simp only [sumTo, ih]; rw [Nat.succ_mul]

theorem allCalls_le {p : Plan α} {s : Sys α} (h : Inv p s) :
    allCalls p s ≤ (p.inner + 2) * (2 * p.source.length + 2) := by
  rw [← sumTo_const']
  exact sumTo_le (fun _ hj => calls_bound h (by omega))

theorem work_call {c c' : St α} {t : Nat} {op : Op α} (h : next {} c (.call t op) = some c') :
    work 2 c'.pcs ≤ work 2 c.pcs + 9 := by
  obtain ⟨h0, pc, hpc, -, -, hpcs⟩ := call_eq h
  have := work_set (n := 2) (pc' := pc) h0
  have h2 : rank 2 pc ≤ 9 := by cases op <;> simp [entry] at hpc <;> subst hpc <;> simp [rank]
  have h0 : rank 2 (.idle : PC α) = 0 := rfl
  rw [hpcs]; omega

theorem call_count {p : Plan α} {s s' : Sys α} {i k t : Nat} {op : Op α} {pos : Pos} (hi : i ≤ p.inner + 1)
    (hk : k ≤ p.inner) (h : s.call i k t op pos = some s') :
    allCalls p s' = allCalls p s + 1 ∧ allWork p s' ≤ allWork p s + 9 := by
  simp only [Sys.call, Option.map_eq_some_iff] at h
  obtain ⟨c, h1, rfl⟩ := h
  have a := sumTo_upd (n := p.inner + 2) (by omega : i < _) s.stage Stage.calls
    { s.stage i with pos := pos, calls := (s.stage i).calls + 1 }
  have b := sumTo_upd (n := p.inner + 1) (by omega : k < _) s.chan (fun c => work 2 c.pcs) c
  have d := work_call h1
  dsimp only at a
  simp only [allCalls, allWork]
  constructor <;> omega

theorem closeOut_count {p : Plan α} {s s' : Sys α} {i : Nat} (hi : i ≤ p.inner + 1) (h : s.closeOut p i = some s') :
    allCalls p s' = allCalls p s + 1 ∧ allWork p s' ≤ allWork p s + 9 := by
  unfold Sys.closeOut at h
  split at h
  · rename_i hle; exact call_count hi hle h
  · injection h with h; subst h
    have a := sumTo_upd (n := p.inner + 2) (by omega : i < _) s.stage Stage.calls
      { s.stage i with pos := .over, calls := (s.stage i).calls + 1 }
    dsimp only at a
    simp only [allCalls, allWork]
    constructor <;> omega

theorem begin_count {p : Plan α} {s s' : Sys α} {i : Nat} (hi : i ≤ p.inner + 1) (h : s.begin p i = some s') :
    allCalls p s' = allCalls p s + 1 ∧ allWork p s' ≤ allWork p s + 9 := by
  unfold Sys.begin at h
  split at h
  · split at h
    · rename_i hle; exact call_count hi hle h
    · simp at h
  · split at h
    · exact closeOut_count hi h
    · exact call_count hi (by omega) h
  · exact closeOut_count hi h
  · simp at h

theorem deliver_calls {p : Plan α} {i : Nat} {st : Stage α} {r : Res α} : (deliver p i st r).calls = st.calls := by
  unfold deliver; split <;> rfl

theorem place_le {p : Plan α} {i k t : Nat} {st : Stage α} (h : StInv p i st) (hi : i ≤ p.inner + 1)
    (hp : place i st.pos = some (k, t)) : k ≤ p.inner := by
  cases hpos : st.pos <;> simp only [place, hpos] at hp <;> simp at hp <;> obtain ⟨rfl, rfl⟩ := hp
  · omega
  · have : i ≠ p.inner + 1 := fun h0 => (h.last h0).2.1 hpos
    omega
  · have : i ≠ p.inner + 1 := fun h0 => (h.last h0).2.2 hpos
    omega

theorem inside_count {p : Plan α} {s s' : Sys α} {i : Nat} {a : Nat → Act α} (h : Inv p s) (hi : i ≤ p.inner + 1)
    (hs : s.inside p i a = some s') :
    ∃ k t c, k ≤ p.inner ∧ next {} (s.chan k) (a t) = some c ∧ allCalls p s' = allCalls p s ∧
      allWork p s' + work 2 (s.chan k).pcs = allWork p s + work 2 c.pcs := by
  unfold Sys.inside at hs
  split at hs
  · simp at hs
  · rename_i k t hpl
    simp only [Option.map_eq_some_iff] at hs
    obtain ⟨c, hc, rfl⟩ := hs
    have hk := place_le (h.stages i hi) hi hpl
    have b := sumTo_upd (n := p.inner + 1) (by omega : k < _) s.chan (fun c => work 2 c.pcs) c
    refine ⟨k, t, c, hk, hc, ?_, ?_⟩
    · split
      · rename_i op r _
        have a := sumTo_upd (n := p.inner + 2) (by omega : i < _) s.stage Stage.calls (deliver p i (s.stage i) r)
        rw [deliver_calls] at a
        simp only [allCalls]; omega
      · rfl
    · split <;> exact b

theorem len2 {p : Plan α} {s : Sys α} (h : Inv p s) {k : Nat} (hk : k ≤ p.inner) : (s.chan k).pcs.length = 2 :=
  reachable_length (h.links k hk).reach

theorem run_count {p : Plan α} {s s' : Sys α} {i : Nat} {w : Option Nat} (h : Inv p s) (hi : i ≤ p.inner + 1)
    (hs : s.inside p i (fun t => .step t w) = some s') :
    allCalls p s' = allCalls p s ∧ allWork p s' + 1 ≤ allWork p s := by
  obtain ⟨k, t, c, hk, hc, h1, h2⟩ := inside_count h hi hs
  simp only [next] at hc
  split at hc
  · rename_i pc hp
    have := (work_step hp hc).1
    rw [len2 h hk] at this
    exact ⟨h1, by omega⟩
  · simp at hc

theorem stale_count {p : Plan α} {s s' : Sys α} {i : Nat} (h : Inv p s) (hi : i ≤ p.inner + 1)
    (hs : s.inside p i (fun t => .stale t) = some s') :
    allCalls p s' = allCalls p s ∧ allWork p s' + 1 ≤ allWork p s := by
  obtain ⟨k, t, c, hk, hc, h1, h2⟩ := inside_count h hi hs
  have := (work_stale hc).1
  rw [len2 h hk] at this
  exact ⟨h1, by omega⟩

theorem spurious_count {p : Plan α} {s s' : Sys α} {i : Nat} (h : Inv p s) (hi : i ≤ p.inner + 1)
    (hs : s.inside p i (fun t => .spurious t) = some s') :
    allCalls p s' = allCalls p s ∧ allWork p s' ≤ allWork p s + 2 := by
  obtain ⟨k, t, c, hk, hc, h1, h2⟩ := inside_count h hi hs
  simp only [next] at hc
  split at hc
  · rename_i hp
    injection hc with hc; subst hc
    have := work_set (n := 2) (pc' := .pLock) hp
    simp only [rank] at this
    simp only [St.goto] at h2
    exact ⟨h1, by omega⟩
  · simp at hc

/-- The number of spurious wakeups in an execution (exchange_channel.hpp:126). -/
def wakeups : List RAct → Nat
  | [] => 0
  | .spurious _ :: l => wakeups l + 1
  | _ :: l => wakeups l

theorem exec_count {p : Plan α} {s s' : Sys α} {acts : List RAct} (h : Inv p s) (hs : exec p s acts = some s') :
    acts.length + allWork p s' + 10 * allCalls p s ≤ allWork p s + 10 * allCalls p s' + 3 * wakeups acts := by
  induction acts generalizing s with
  | nil => simp [exec] at hs; subst hs; simp [wakeups]
  | cons a l ih =>
    simp only [exec, Option.bind_eq_some_iff] at hs
    obtain ⟨s1, h1, h2⟩ := hs
    have h3 := ih (inv_step h h1) h2
    cases a <;> simp only [step] at h1 <;> split at h1 <;> try (simp at h1; done)
    · rename_i hi
      have := begin_count hi h1
      simp only [wakeups, List.length_cons]; omega
    · rename_i hi
      have := run_count h hi h1
      simp only [wakeups, List.length_cons]; omega
    · rename_i hi
      have := spurious_count h hi h1
      simp only [wakeups, List.length_cons]; omega
    · rename_i hi
      have := stale_count h hi h1
      simp only [wakeups, List.length_cons]; omega

/-- Every execution of a relay is bounded: at most ten actions per call, at most `2 * length of the source + 2` calls per
thread, and every spurious wakeup gives at most three more actions (C108; exchange_channel.hpp:53-63, 79-96, 124-136). -/
theorem relay_bounded {p : Plan α} {s : Sys α} {acts : List RAct} (h : exec p (start p) acts = some s) :
    acts.length ≤ 10 * ((p.inner + 2) * (2 * p.source.length + 2)) + 3 * wakeups acts := by
  have h1 := exec_count (inv_start p) h
  have h2 := allCalls_le (inv_exec (inv_start p) h)
  have h3 : allWork p (start p) = 0 := sumTo_zero (fun j => by simp [start, init, work, rank])
  omega

/-- From every state of a relay the threads can finish, without spurious wakeups (C108; exchange_channel.hpp:53-63, 79-96,
124-136). -/
theorem relay_can_finish {p : Plan α} {s : Sys α} (h : Reach p s) :
    ∃ acts s', exec p s acts = some s' ∧ wakeups acts = 0 ∧ ∀ i, i ≤ p.inner + 1 → (s'.stage i).pos = .over := by
  obtain ⟨acts0, h0⟩ := h
  generalize hm : allWork p s + 10 * ((p.inner + 2) * (2 * p.source.length + 2) - allCalls p s) = m
  induction m using Nat.strongRecOn generalizing s acts0 with
  | _ m ih =>
    have hi := inv_exec (inv_start p) h0
    by_cases hs : ∀ i, i ≤ p.inner + 1 → Blocked p s i
    · exact ⟨[], s, rfl, rfl, relay_no_deadlock ⟨acts0, h0⟩ hs⟩
    · have : ∃ a s1, step p s a = some s1 ∧ wakeups [a] = 0 ∧
          ((allCalls p s1 = allCalls p s + 1 ∧ allWork p s1 ≤ allWork p s + 9) ∨
            (allCalls p s1 = allCalls p s ∧ allWork p s1 + 1 ≤ allWork p s)) := by
        simp only [Blocked, Classical.not_forall, Classical.not_and_iff_not_or_not] at hs
        obtain ⟨i, hle, hs | ⟨w, hs⟩⟩ := hs
        · obtain ⟨s1, h1⟩ := Option.ne_none_iff_exists'.mp hs
          refine ⟨_, s1, h1, rfl, .inl ?_⟩
          simp only [step, hle, if_true] at h1
          exact begin_count hle h1
        · obtain ⟨s1, h1⟩ := Option.ne_none_iff_exists'.mp hs
          refine ⟨_, s1, h1, rfl, .inr ?_⟩
          simp only [step, hle, if_true] at h1
          exact run_count hi hle h1
      obtain ⟨a, s1, h1, hw, hd⟩ := this
      have hex : exec p (start p) (acts0 ++ [a]) = some s1 := by
        have : ∀ (l : List RAct) (x : Sys α), exec p x l = some s → exec p x (l ++ [a]) = some s1 := by
          intro l
          induction l with
          | nil => intro x hx; simp [exec] at hx; subst hx; simp [exec, h1]
          | cons b l ih =>
            intro x hx
            simp only [exec, Option.bind_eq_some_iff, List.cons_append] at hx ⊢
            obtain ⟨y, h2, h3⟩ := hx
            exact ⟨y, h2, ih y h3⟩
        exact this _ _ h0
      have hb := allCalls_le (inv_step hi h1)
      obtain ⟨acts, s', h2, h3, h4⟩ := ih _ (by rcases hd with ⟨hx, hy⟩ | ⟨hx, hy⟩ <;> omega) (acts0 ++ [a]) hex rfl
      refine ⟨a :: acts, s', by simp [exec, h1, h2], ?_, h4⟩
      cases a <;> simp_all [wakeups]

/-! ### Examples -/

/-- An action that is enabled, threads tried in the given order (for examples; exchange_channel.hpp:53-136). -/
def pick (p : Plan α) (s : Sys α) : List Nat → Option (RAct × Sys α)
  | [] => none
  | i :: l =>
    match step p s (.run i none) with
    | some s' => some (.run i none, s')
    | none => match step p s (.run i (some 1)) with
      | some s' => some (.run i (some 1), s')
      | none => match step p s (.begin i) with
        | some s' => some (.begin i, s')
        | none => pick p s l

/-- A schedule (for examples; exchange_channel.hpp:53-136). -/
def sched (p : Plan α) (order : List Nat) : Nat → Sys α → List RAct
  | 0, _ => []
  | n + 1, s =>
    match pick p s order with
    | none => []
    | some (a, s') => a :: sched p order n s'

/-- Three threads: the middle one squares (example for exchange_channel.hpp:53-136). -/
def squares : Plan Nat := { inner := 1, source := [2, 3, 4], body := fun _ x => x * x }

/-- The positions of the threads and what the last one has seen (for examples; exchange_channel.hpp:53-136). -/
def report (s : Sys Nat) : List Pos × List Nat × List Nat :=
  ([(s.stage 0).pos, (s.stage 1).pos, (s.stage 2).pos], (s.stage 2).got, (s.stage 0).todo)

/-- The threads at the end first: every value arrives. -/
theorem squares_all : (exec squares (start squares) (sched squares [2, 1, 0] 400 (start squares))).map report =
    some ([.over, .over, .over], [4, 9, 16], []) := by decide +kernel

/-- The first thread first: only the newest value arrives. -/
theorem squares_newest : (exec squares (start squares) (sched squares [0, 1, 2] 400 (start squares))).map report =
    some ([.over, .over, .over], [16], []) := by decide +kernel

/-- Not every value arrives: a slow thread misses values (C108; exchange_channel.hpp:91). -/
theorem relay_all_refuted :
    ∃ (p : Plan Nat) (s : Sys Nat), Reach p s ∧ (∀ i, i ≤ p.inner + 1 → (s.stage i).pos = .over) ∧
      (s.stage (p.inner + 1)).got ≠ p.source.map (through p p.inner) := by
  have h := squares_newest
  simp only [Option.map_eq_some_iff] at h
  obtain ⟨s, h1, h2⟩ := h
  simp only [report, Prod.mk.injEq, List.cons.injEq] at h2
  obtain ⟨⟨h20, h21, h22, -⟩, h23, -⟩ := h2
  refine ⟨squares, s, ⟨_, h1⟩, ?_, ?_⟩
  · intro i hi
    have : i = 0 ∨ i = 1 ∨ i = 2 := by simp [squares] at hi; omega
    rcases this with rfl | rfl | rfl <;> assumption
  · show (s.stage 2).got ≠ _
    rw [h23]; decide

/-- `relay_subsequence`, `relay_newest` and `relay_no_deadlock` apply to the end of an execution. -/
example : ∃ s, Reach squares s ∧ (∀ i, i ≤ squares.inner + 1 → Blocked squares s i) ∧
    (s.stage (squares.inner + 1)).pos = .over ∧ (s.stage 2).got.getLast? = some 16 ∧
    (s.stage 2).got.Sublist [4, 9, 16] ∧ (s.chan 0).pcs[0]? ≠ some (.done (.push 3) (.bool false)) := by
  have _use := @relay_no_deadlock Nat squares
  have h := squares_newest
  simp only [Option.map_eq_some_iff] at h
  obtain ⟨s, h1, h2⟩ := h
  simp only [report, Prod.mk.injEq, List.cons.injEq] at h2
  obtain ⟨⟨h20, h21, h22, -⟩, -⟩ := h2
  refine ⟨s, ⟨_, h1⟩, ?_, h22, relay_newest (p := squares) (k := 1) ⟨_, h1⟩ (by decide) h22,
    relay_subsequence (p := squares) ⟨_, h1⟩ 1 (by decide), relay_no_refusal (p := squares) ⟨_, h1⟩ (by decide)⟩
  intro i hi
  have : (s.stage i).pos = .over := by
    have : i = 0 ∨ i = 1 ∨ i = 2 := by simp [squares] at hi; omega
    rcases this with rfl | rfl | rfl <;> assumption
  constructor
  · simp [step, hi, Sys.begin, this]
  · intro w; simp [step, hi, Sys.inside, this, place]

/-- The first thread stops after its second push, the others go on until they are asleep. -/
def paused : List RAct := sched squares [0] 14 (start squares) ++
  (match exec squares (start squares) (sched squares [0] 14 (start squares)) with
    | none => []
    | some s => sched squares [1, 2] 100 s)

/-- The hypotheses of `relay_up_to_date`: the first thread has still one value to push, the others are asleep, the last one
has seen the square of the value that was pushed last. -/
theorem paused_run : (exec squares (start squares) paused).map
    (fun s => (report s, [(s.chan 0).pcs, (s.chan 1).pcs])) =
    some (([.loop, .inPop, .inPop], [9], [4]), [[.idle, .pSleep], [.idle, .pSleep]]) := by decide +kernel

example : ∃ s, Reach squares s ∧ (s.stage 0).pos = .loop ∧ (∀ i, 1 ≤ i → i ≤ squares.inner + 1 → Blocked squares s i) ∧
    squares.source = [2, 3] ++ (s.stage 0).todo ∧ (s.stage 2).got.getLast? = some 9 := by
  have h := paused_run
  simp only [Option.map_eq_some_iff] at h
  obtain ⟨s, h1, h2⟩ := h
  simp only [report, Prod.mk.injEq, List.cons.injEq] at h2
  obtain ⟨⟨⟨h20, h21, h22, -⟩, -, h24⟩, h25, h26, -⟩ := h2
  have hb : ∀ i, 1 ≤ i → i ≤ squares.inner + 1 → Blocked squares s i := by
    intro i hi1 hi
    have : i = 1 ∨ i = 2 := by simp [squares] at hi; omega
    rcases this with rfl | rfl
    · constructor
      · simp [step, hi, Sys.begin, h21]
      · intro w; simp [step, hi, Sys.inside, h21, place, next, h25, stepAt]
    · constructor
      · simp [step, hi, Sys.begin, h22]
      · intro w; simp [step, hi, Sys.inside, h22, place, next, h26, stepAt]
  have hsrc : squares.source = [2, 3] ++ (s.stage 0).todo := by rw [h24]; rfl
  exact ⟨s, ⟨_, h1⟩, h20, hb, hsrc, relay_up_to_date (p := squares) (k := 1) ⟨_, h1⟩ h20 hb hsrc (by decide)⟩

/-- From its start, `squares` can finish within the bound of `relay_bounded`. -/
example : ∃ acts s', exec squares (start squares) acts = some s' ∧ acts.length ≤ 240 := by
  obtain ⟨acts, s', h1, h2, -⟩ := relay_can_finish (p := squares) ⟨[], rfl⟩
  have := relay_bounded h1
  rw [h2] at this
  exact ⟨acts, s', h1, this⟩

end Verif.Relay
