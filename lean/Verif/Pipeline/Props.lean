import Verif.Pipeline.Inside

/-!
C106: threads joined by channels to a pipeline compute the composition of their loop bodies, never deadlock and always
come to an end, also when threads leave their loops early.
-/
namespace Verif.Pipeline

open Verif.Channel

variable {α : Type}

theorem flatMap_prefix {f : α → List α} {a b : List α} (h : a <+: b) : a.flatMap f <+: b.flatMap f := by
  obtain ⟨t, rfl⟩ := h
  exact ⟨t.flatMap f, by simp⟩

theorem takeQ_prefix {q : Option Nat} {a b : List α} (h : a <+: b) (hq : ∀ n, q = some n → a.length ≤ n) :
    a <+: takeQ q b := by
  cases q with
  | none => exact h
  | some n =>
    have := hq n rfl
    obtain ⟨t, rfl⟩ := h
    exact ⟨(t.take (n - a.length)), by simp [takeQ, List.take_append, List.take_of_length_le this]⟩

theorem got_prefix {p : Plan α} {s : Sys α} (h : Inv p s) (k : Nat) (hk : k ≤ p.inner) :
    (s.stage (k + 1)).got <+: takeQ (p.quota (k + 1)) (stream p k) := by
  induction k with
  | zero =>
    refine takeQ_prefix ?_ (h.stages 1 (by omega)).quota
    obtain ⟨pc0, pc1, -, -, -, h3⟩ := (h.links 0 hk).pcs
    simp only [made, if_true] at h3
    rw [stream, h3, List.append_assoc, List.append_assoc]
    exact List.prefix_append _ _
  | succ k ih =>
    refine takeQ_prefix ?_ (h.stages (k + 2) (by omega)).quota
    obtain ⟨pc0, pc1, -, -, -, h3⟩ := (h.links (k + 1) hk).pcs
    have h4 := flatMap_prefix (f := p.body (k + 1)) (ih (by omega))
    have h5 : (s.stage (k + 2)).got <+: made p (k + 1) (s.stage (k + 1)) := by
      rw [h3, List.append_assoc, List.append_assoc]; exact List.prefix_append _ _
    simp only [made, Nat.add_one_ne_zero, if_false] at h5
    exact h5.trans h4

/-- At every moment the loop of every thread has seen a beginning of the elements that the threads before it compute from
the source one after the other, in order, without gaps or repetitions (C106; channel.hpp:85-105, 179-194, 214-291). -/
theorem pipeline_prefix {p : Plan α} {s : Sys α} (h : Reach p s) (k : Nat) (hk : k ≤ p.inner) :
    (s.stage (k + 1)).got <+: takeQ (p.quota (k + 1)) (stream p k) :=
  got_prefix (inv_reach h) k hk

theorem enough_true {p : Plan α} {i : Nat} {got : List α} (h : p.enough i got = true) :
    ∃ n, p.quota i = some n ∧ n ≤ got.length := by
  unfold Plan.enough at h
  split at h
  · simp at h
  · rename_i n hn; exact ⟨n, hn, by simpa using h⟩

theorem done_got {p : Plan α} {s : Sys α} (h : Inv p s) (k : Nat) (hk : k ≤ p.inner)
    (hpos : (s.stage (k + 1)).pos = .shutOut ∨ (s.stage (k + 1)).pos = .inCloseOut ∨ (s.stage (k + 1)).pos = .over)
    (hrej : (s.stage (k + 1)).rej = false) :
    (s.stage (k + 1)).got = takeQ (p.quota (k + 1)) (stream p k) := by
  induction k with
  | zero =>
    have hp := got_prefix h 0 hk
    have hst := h.stages 1 (by omega)
    have hlk := h.links 0 hk
    cases hl : (s.stage 1).left with
    | true =>
      rcases hst.why hl with h1 | ⟨_, h1⟩
      · rw [hrej] at h1; simp at h1
      · obtain ⟨n, hn, hle⟩ := enough_true h1
        refine hp.eq_of_length_le ?_
        simp [hn, takeQ]; omega
    | false =>
      obtain ⟨pc0, pc1, -, h1, h2, h3⟩ := hlk.pcs
      have hc : cls pc1 = .idle ∧ (s.chan 0).closed = true ∧ (s.chan 0).q = [] := by
        rcases hpos with hp | hp | hp <;> simp only [ConsOk, hp, hl] at h2 <;> simpa using h2
      have hrej0 : (s.stage 0).rej = false := by
        cases hx : (s.stage 0).rej with
        | false => rfl
        | true => rw [hlk.rejected hx] at hl; simp at hl
      have htodo : (s.stage 0).todo = [] := by
        rcases hlk.closed hc.2.1 with h | h | h'
        · exact (‹Inv p s›.stages 0 (by omega)).todo hrej0 (by simp [h]) (by simp [h])
        · exact (‹Inv p s›.stages 0 (by omega)).todo hrej0 (by simp [h]) (by simp [h])
        · rw [hl] at h'; simp at h'
      have : (s.stage 1).got = stream p 0 := by
        simp only [made, if_true, htodo, hc.1, hc.2.2, taken] at h3
        have hr : rest ([] : List α) (cls pc0) = [] := by
          simp only [rest]; split <;> rfl
        rw [hr] at h3
        simpa [stream] using h3.symm
      have h6 := hst.quota
      rw [← this]
      cases hq : p.quota 1 with
      | none => rfl
      | some n => simp [takeQ, List.take_of_length_le (h6 n hq)]
  | succ k ih =>
    have hp : (s.stage (k + 2)).got <+: _ := got_prefix h (k + 1) hk
    have hst := h.stages (k + 2) (by omega)
    have hlk := h.links (k + 1) hk
    cases hl : (s.stage (k + 2)).left with
    | true =>
      rcases hst.why hl with h1 | ⟨_, h1⟩
      · rw [hrej] at h1; simp at h1
      · obtain ⟨n, hn, hle⟩ := enough_true h1
        refine hp.eq_of_length_le ?_
        simp [hn, takeQ]; omega
    | false =>
      obtain ⟨pc0, pc1, -, h1, h2, h3⟩ := hlk.pcs
      have hc : cls pc1 = .idle ∧ (s.chan (k + 1)).closed = true ∧ (s.chan (k + 1)).q = [] := by
        rcases hpos with hp | hp | hp <;> simp only [ConsOk, hp, hl] at h2 <;> simpa using h2
      have hrej0 : (s.stage (k + 1)).rej = false := by
        cases hx : (s.stage (k + 1)).rej with
        | false => rfl
        | true => rw [hlk.rejected hx] at hl; simp at hl
      have hpk : (s.stage (k + 1)).pos = .inCloseOut ∨ (s.stage (k + 1)).pos = .over := by
        rcases hlk.closed hc.2.1 with h | h | h'
        · exact .inl h
        · exact .inr h
        · rw [hl] at h'; simp at h'
      have htodo : (s.stage (k + 1)).todo = [] := by
        rcases hpk with hx | hx
        · exact (h.stages (k + 1) (by omega)).todo hrej0 (by simp [hx]) (by simp [hx])
        · exact (h.stages (k + 1) (by omega)).todo hrej0 (by simp [hx]) (by simp [hx])
      have hgot := ih (by omega) (.inr hpk) hrej0
      have : (s.stage (k + 2)).got = stream p (k + 1) := by
        simp only [made, Nat.add_one_ne_zero, if_false, htodo, hc.1, hc.2.2, taken] at h3
        have hr : rest ([] : List α) (cls pc0) = [] := by
          simp only [rest]; split <;> rfl
        rw [hr] at h3
        simp only [List.append_nil] at h3
        rw [stream, ← hgot]
        exact h3.symm
      have h6 := hst.quota
      rw [← this]
      cases hq : p.quota (k + 2) with
      | none => rfl
      | some n => simp [takeQ, List.take_of_length_le (h6 n hq)]

/-- When the last thread has finished, its loop has seen exactly the elements that the bodies compute from the source, up
to its quota, in order (C106; channel.hpp:58-69, 85-105, 179-194, 214-291). The same holds for every thread in the middle
that has finished without one of its pushes having been refused. -/
theorem pipeline_result {p : Plan α} {s : Sys α} (h : Reach p s) (hover : (s.stage (p.inner + 1)).pos = .over) :
    (s.stage (p.inner + 1)).got = takeQ (p.quota (p.inner + 1)) (stream p p.inner) :=
  done_got (inv_reach h) p.inner (Nat.le_refl _) (.inr (.inr hover))
    (((inv_reach h).stages (p.inner + 1) (Nat.le_refl _)).last rfl).2.2.2

theorem call_enabled {cfg : Cfg} {c : St α} {t : Nat} {op : Op α} (h : c.pcs[t]? = some .idle) :
    next cfg c (.call t op) ≠ none := by
  simp [next, h]

theorem closeOut_enabled {p : Plan α} {s : Sys α} (h : Inv p s) {i : Nat}
    (hp : (s.stage i).pos = .loop ∨ (s.stage i).pos = .shutIn ∨ (s.stage i).pos = .shutOut) :
    s.closeOut p i ≠ none := by
  unfold Sys.closeOut
  split
  · rename_i hle
    obtain ⟨pc0, pc1, e, h1, -, -⟩ := (h.links i hle).pcs
    have : pc0 = .idle := next_ne_idle_cls (by rcases hp with hp | hp | hp <;> simpa only [ProdOk, hp] using h1)
    simp only [Sys.call, ne_eq, Option.map_eq_none_iff]
    exact call_enabled (by rw [e, this]; rfl)
  · simp

theorem leave_enabled {p : Plan α} {s : Sys α} (h : Inv p s) {i : Nat} (hi : i ≤ p.inner + 1)
    (hp : (s.stage i).pos = .loop ∨ (s.stage i).pos = .shutIn) : s.leave p i ≠ none := by
  unfold Sys.leave
  split
  · exact closeOut_enabled h (by rcases hp with hp | hp <;> simp [hp])
  · rename_i h0
    obtain ⟨k, rfl⟩ : ∃ k, i = k + 1 := ⟨i - 1, by omega⟩
    obtain ⟨pc0, pc1, e, -, h2, -⟩ := (h.links k (by omega)).pcs
    have : pc1 = .idle := next_ne_idle_cls (by rcases hp with hp | hp <;> simpa only [ConsOk, hp] using h2)
    simp only [Sys.call, ne_eq, Option.map_eq_none_iff, Nat.add_sub_cancel]
    exact call_enabled (by rw [e, this]; rfl)

theorem begin_enabled {p : Plan α} {s : Sys α} (h : Inv p s) {i : Nat} (hi : i ≤ p.inner + 1)
    (hp : (s.stage i).pos = .loop ∨ (s.stage i).pos = .shutIn ∨ (s.stage i).pos = .shutOut) :
    s.begin p i ≠ none := by
  unfold Sys.begin
  split
  · rename_i y ys hp ht
    have hle : i ≤ p.inner := by
      apply Classical.byContradiction
      intro hn
      have := ((h.stages i hi).last (by omega)).1
      rw [ht] at this; simp at this
    rw [if_pos hle]
    obtain ⟨pc0, pc1, e, h1, -, -⟩ := (h.links i hle).pcs
    have : pc0 = .idle := next_ne_idle_cls (by simpa only [ProdOk, hp] using h1)
    simp only [Sys.call, ne_eq, Option.map_eq_none_iff]
    exact call_enabled (by rw [e, this]; rfl)
  · rename_i hp ht
    split
    · exact closeOut_enabled h (.inl hp)
    · rename_i h0
      split
      · exact leave_enabled h hi (.inl hp)
      · obtain ⟨k, rfl⟩ : ∃ k, i = k + 1 := ⟨i - 1, by omega⟩
        obtain ⟨pc0, pc1, e, -, h2, -⟩ := (h.links k (by omega)).pcs
        have : pc1 = .idle := next_ne_idle_cls (by simpa only [ConsOk, hp] using h2)
        simp only [Sys.call, ne_eq, Option.map_eq_none_iff, Nat.add_sub_cancel]
        exact call_enabled (by rw [e, this]; rfl)
  · rename_i hp; exact leave_enabled h hi (.inr hp)
  · rename_i hp; exact closeOut_enabled h (.inr (.inr hp))
  · rename_i h3 h4 h1 h2
    exfalso
    rcases hp with hp | hp | hp
    · cases ht : (s.stage i).todo with
      | nil => exact h2 hp ht
      | cons y ys => exact h1 y ys hp ht
    · exact h3 hp
    · exact h4 hp

theorem quiet {p : Plan α} {s : Sys α} (h : Inv p s) (hs : Stuck p s) {k : Nat} (hk : k ≤ p.inner) :
    Quiescent (p.cfg k) (s.chan k) := by
  obtain ⟨pc0, pc1, e, h1, h2, -⟩ := (h.links k hk).pcs
  intro t w
  match t with
  | 0 =>
    by_cases h0 : pc0 = .idle
    · simp [next, e, h0, stepAt]
    · have hp : (s.stage k).pos = .inPush ∨ (s.stage k).pos = .inCloseOut := by
        have hc : cls pc0 ≠ .idle := fun hc => h0 (next_ne_idle_cls hc)
        unfold ProdOk at h1
        split at h1 <;> simp_all
      have h3 := (hs k w).2
      simp only [step, if_pos (Nat.le_succ_of_le hk), Sys.inside] at h3
      rcases hp with hp | hp <;> simpa [hp, place] using h3
  | 1 =>
    by_cases h0 : pc1 = .idle
    · simp [next, e, h0, stepAt]
    · have hp : (s.stage (k + 1)).pos = .inPop ∨ (s.stage (k + 1)).pos = .inCloseIn := by
        have hc : cls pc1 ≠ .idle := fun hc => h0 (next_ne_idle_cls hc)
        unfold ConsOk at h2
        split at h2 <;> simp_all
      have h3 := (hs (k + 1) w).2
      simp only [step, if_pos (Nat.succ_le_succ hk), Sys.inside] at h3
      rcases hp with hp | hp <;> simpa [hp, place] using h3
  | t + 2 => simp [next, e]

/-- In a stuck state every thread is asleep in `push`, asleep in `pop` or finished. -/
theorem stuck_pos {p : Plan α} {s : Sys α} (h : Inv p s) (hs : Stuck p s) {i : Nat} (hi : i ≤ p.inner + 1) :
    (s.stage i).pos = .over ∨
      ((s.stage i).pos = .inPush ∧ i ≤ p.inner ∧ p.cap i ≤ (s.chan i).q.length ∧ (s.chan i).closed = false) ∨
      ((s.stage i).pos = .inPop ∧ ∃ k, i = k + 1 ∧ k ≤ p.inner ∧ (s.chan k).q = [] ∧ (s.chan k).closed = false) := by
  have hb := (hs i none).1
  simp only [step, if_pos hi] at hb
  have hst := h.stages i hi
  cases hp : (s.stage i).pos with
  | loop => exact absurd hb (begin_enabled h hi (.inl hp))
  | shutIn => exact absurd hb (begin_enabled h hi (.inr (.inl hp)))
  | shutOut => exact absurd hb (begin_enabled h hi (.inr (.inr hp)))
  | over => exact .inl rfl
  | inPush =>
    have hle : i ≤ p.inner := by
      have : i ≠ p.inner + 1 := fun h0 => (hst.last h0).2.1 hp
      omega
    have hlk := h.links i hle
    have hq := quiet h hs hle
    obtain ⟨pc0, pc1, e, h1, -, -⟩ := hlk.pcs
    have h0 : (s.chan i).pcs[0]? = some pc0 := by rw [e]; rfl
    simp only [ProdOk, hp] at h1
    obtain ⟨y, ys, -, h1⟩ := h1
    rcases quiescent_pc (lockInv_reach hlk.reach) hq h0 with rfl | rfl | ⟨v, rfl⟩
    · simp [cls] at h1
    · simp [cls] at h1
    · exact .inr (.inl ⟨rfl, hle, quiescent_producer rfl hlk.reach hq h0⟩)
  | inCloseOut =>
    have hle : i ≤ p.inner := by
      have : i ≠ p.inner + 1 := fun h0 => (hst.last h0).2.2.1 hp
      omega
    have hlk := h.links i hle
    have hq := quiet h hs hle
    obtain ⟨pc0, pc1, e, h1, -, -⟩ := hlk.pcs
    have h0 : (s.chan i).pcs[0]? = some pc0 := by rw [e]; rfl
    simp only [ProdOk, hp] at h1
    rcases quiescent_pc (lockInv_reach hlk.reach) hq h0 with rfl | rfl | ⟨v, rfl⟩ <;> simp [cls] at h1
  | inPop =>
    obtain ⟨k, rfl⟩ : ∃ k, i = k + 1 := by
      have : i ≠ 0 := fun h0 => (hst.first h0).2.1 hp
      exact ⟨i - 1, by omega⟩
    have hle : k ≤ p.inner := by omega
    have hlk := h.links k hle
    have hq := quiet h hs hle
    obtain ⟨pc0, pc1, e, -, h2, -⟩ := hlk.pcs
    have h0 : (s.chan k).pcs[1]? = some pc1 := by rw [e]; rfl
    simp only [ConsOk, hp] at h2
    rcases quiescent_pc (lockInv_reach hlk.reach) hq h0 with rfl | rfl | ⟨v, rfl⟩
    · simp [cls] at h2
    · exact .inr (.inr ⟨rfl, k, rfl, hle, quiescent_consumer rfl hlk.reach hq h0⟩)
    · simp [cls] at h2
  | inCloseIn =>
    obtain ⟨k, rfl⟩ : ∃ k, i = k + 1 := by
      have : i ≠ 0 := fun h0 => (hst.first h0).2.2 hp
      exact ⟨i - 1, by omega⟩
    have hle : k ≤ p.inner := by omega
    have hlk := h.links k hle
    have hq := quiet h hs hle
    obtain ⟨pc0, pc1, e, -, h2, -⟩ := hlk.pcs
    have h0 : (s.chan k).pcs[1]? = some pc1 := by rw [e]; rfl
    simp only [ConsOk, hp] at h2
    rcases quiescent_pc (lockInv_reach hlk.reach) hq h0 with rfl | rfl | ⟨v, rfl⟩ <;> simp [cls] at h2

theorem over_closed {p : Plan α} {s : Sys α} (h : Inv p s) {k : Nat} (hk : k ≤ p.inner)
    (ho : (s.stage k).pos = .over ∨ (s.stage (k + 1)).pos = .over) : (s.chan k).closed = true := by
  obtain ⟨pc0, pc1, e, h1, h2, -⟩ := (h.links k hk).pcs
  rcases ho with ho | ho
  · simp only [ProdOk, ho] at h1; exact h1.2
  · simp only [ConsOk, ho] at h2; exact h2.2.1

/-- Pipelines whose channels have room for at least one element do not deadlock: when no thread can go on, all threads
have finished, and the last one has the whole result (C106; channel.hpp:58-69, 85-105, 179-194). -/
theorem pipeline_no_deadlock {p : Plan α} {s : Sys α} (hcap : ∀ k, k ≤ p.inner → 1 ≤ p.cap k) (h : Reach p s)
    (hs : Stuck p s) :
    (∀ i, i ≤ p.inner + 1 → (s.stage i).pos = .over) ∧
      (s.stage (p.inner + 1)).got = takeQ (p.quota (p.inner + 1)) (stream p p.inner) := by
  have hi := inv_reach h
  have nopush : ∀ d i, i + d = p.inner + 1 → (s.stage i).pos ≠ .inPush := by
    intro d
    induction d with
    | zero =>
      intro i hid hp
      exact ((hi.stages i (by omega)).last (by omega)).2.1 hp
    | succ d ih =>
      intro i hid hp
      have h1 := stuck_pos hi hs (i := i) (by omega)
      have h2 := stuck_pos hi hs (i := i + 1) (by omega)
      rcases h1 with h1 | ⟨-, hle, hq, hc⟩ | ⟨h1, -⟩
      · rw [hp] at h1; simp at h1
      · rcases h2 with h2 | ⟨h2, -⟩ | ⟨-, k, hk, -, hq2, -⟩
        · rw [over_closed hi hle (.inr h2)] at hc; simp at hc
        · exact ih (i + 1) (by omega) h2
        · obtain rfl : k = i := by omega
          rw [hq2] at hq
          have := hcap k hle
          simp at hq; omega
      · rw [hp] at h1; simp at h1
  have nopop : ∀ i, i ≤ p.inner + 1 → (s.stage i).pos ≠ .inPop := by
    intro i
    induction i with
    | zero => intro _ hp; exact ((hi.stages 0 (by omega)).first rfl).2.1 hp
    | succ i ih =>
      intro hile hp
      have h1 := stuck_pos hi hs (i := i + 1) hile
      have h2 := stuck_pos hi hs (i := i) (by omega)
      rcases h1 with h1 | ⟨h1, -⟩ | ⟨-, k, hk, hkl, -, hc⟩
      · rw [hp] at h1; simp at h1
      · rw [hp] at h1; simp at h1
      · obtain rfl : k = i := by omega
        rcases h2 with h2 | ⟨h2, -⟩ | ⟨h2, -⟩
        · rw [over_closed hi hkl (.inl h2)] at hc; simp at hc
        · exact nopush (p.inner + 1 - k) k (by omega) h2
        · exact ih (by omega) h2
  have hall : ∀ i, i ≤ p.inner + 1 → (s.stage i).pos = .over := by
    intro i hile
    rcases stuck_pos hi hs hile with h1 | ⟨h1, -⟩ | ⟨h1, -⟩
    · exact h1
    · exact absurd h1 (nopush (p.inner + 1 - i) i (by omega))
    · exact absurd h1 (nopop i hile)
  exact ⟨hall, pipeline_result h (hall _ (Nat.le_refl _))⟩

/-! ### Examples -/

/-- An action that is enabled, stages tried from the last to the first (for examples; channel.hpp:58-194). -/
def pick (p : Plan α) (s : Sys α) : Nat → Option (PAct × Sys α)
  | 0 => none
  | i + 1 =>
    match step p s (.run i none) with
    | some s' => some (.run i none, s')
    | none => match step p s (.run i (some 0)) with
      | some s' => some (.run i (some 0), s')
      | none => match step p s (.run i (some 1)) with
        | some s' => some (.run i (some 1), s')
        | none => match step p s (.begin i) with
          | some s' => some (.begin i, s')
          | none => pick p s i

/-- A schedule (for examples; channel.hpp:58-194). -/
def sched (p : Plan α) : Nat → Sys α → List PAct
  | 0, _ => []
  | n + 1, s =>
    match pick p s (p.inner + 2) with
    | none => []
    | some (a, s') => a :: sched p n s'

/-- Three threads, channels for one element each: the middle one pushes every element and its square (example for channel.hpp:58-194). -/
def squares : Plan Nat := { inner := 1, cap := fun _ => 1, source := [2, 3, 4], body := fun _ x => [x, x * x] }

/-- The last thread stops after three elements (example for channel.hpp:58-194). -/
def squares3 : Plan Nat := { squares with quota := fun i => if i = 2 then some 3 else none }

theorem squares_run : (exec squares (start squares) (sched squares 400 (start squares))).map
    (fun s => ((s.stage 0).pos, (s.stage 1).pos, (s.stage 2).pos, (s.stage 2).got)) =
      some (.over, .over, .over, [2, 4, 3, 9, 4, 16]) := by decide +kernel

theorem squares3_run : (exec squares3 (start squares3) (sched squares3 400 (start squares3))).map
    (fun s => ((s.stage 0).pos, (s.stage 1).pos, (s.stage 2).pos, (s.stage 2).got, (s.stage 1).rej)) =
      some (.over, .over, .over, [2, 4, 3], true) := by decide +kernel

/-- `pipeline_prefix` and `pipeline_result` apply to a state in which everything has been computed. -/
example : ∃ s, Reach squares s ∧ (s.stage (squares.inner + 1)).pos = .over ∧
    (s.stage 2).got = [2, 4, 3, 9, 4, 16] ∧ (s.stage 1).got <+: [2, 3, 4] := by
  have h := squares_run
  simp only [Option.map_eq_some_iff] at h
  obtain ⟨s, h1, h2⟩ := h
  simp only [Prod.mk.injEq] at h2
  exact ⟨s, ⟨_, h1⟩, h2.2.2.1, pipeline_result (p := squares) ⟨_, h1⟩ h2.2.2.1,
    pipeline_prefix (p := squares) ⟨_, h1⟩ 0 (by decide)⟩

/-- The last thread of `squares3` leaves early: the result is cut off, a push of the middle thread is refused. -/
example : ∃ s, Reach squares3 s ∧ (s.stage (squares3.inner + 1)).pos = .over ∧ (s.stage 1).rej = true ∧
    takeQ (squares3.quota 2) (stream squares3 1) = [2, 4, 3] := by
  have h := squares3_run
  simp only [Option.map_eq_some_iff] at h
  obtain ⟨s, h1, h2⟩ := h
  simp only [Prod.mk.injEq] at h2
  exact ⟨s, ⟨_, h1⟩, h2.2.2.1, h2.2.2.2.2, by decide⟩

/-- A stuck state of `squares`, whose capacities meet the hypothesis of `pipeline_no_deadlock`. -/
example : (∀ k, k ≤ squares.inner → 1 ≤ squares.cap k) ∧ ∃ s, Reach squares s ∧ Stuck squares s := by
  have _use := @pipeline_no_deadlock Nat squares
  refine ⟨fun _ _ => Nat.le_refl _, ?_⟩
  have h := squares_run
  simp only [Option.map_eq_some_iff] at h
  obtain ⟨s, h1, h2⟩ := h
  simp only [Prod.mk.injEq] at h2
  obtain ⟨h20, h21, h22, -⟩ := h2
  refine ⟨s, ⟨_, h1⟩, fun i w => ?_⟩
  have : i ≤ squares.inner + 1 → (s.stage i).pos = .over := by
    intro hi
    have : i = 0 ∨ i = 1 ∨ i = 2 := by simp [squares] at hi; omega
    rcases this with rfl | rfl | rfl <;> assumption
  simp only [step, Sys.begin, Sys.inside]
  constructor <;> split <;> try rfl
  · rename_i hi; rw [this hi]
  · rename_i hi; rw [this hi]; rfl

end Verif.Pipeline
