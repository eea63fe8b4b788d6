import Verif.MultiX.Doze

/-!
Where a removal has thrown and left the value, it might as well have lost it: nobody can tell until the next removal. So a consumer
that sleeps although there is a value is not seen in the results.
-/
namespace Verif.MultiX

open Verif.Exchange
open Verif.Channel (Op Res Ev Act)
open Verif.Multi (Thr set MAct set_self set_other set_same)

variable {α : Type}

/-- As `absO`, with the values of the channels in `L` lost (exchange_channel.hpp:53-149). -/
def absL (p : Prog α) (s : Sys α) (ov : Nat → Bool) (L : Nat → Bool) : ASys α :=
  ⟨fun k => if L k then none else (s.chan k).slot, fun k => (s.chan k).closed, fun i => (s.thr i).res ++ over (ov i) (pend p s i)⟩

/-- The values that may be lost (exchange_channel.hpp:135,148). -/
def OkL (s : Sys α) (L : Nat → Bool) : Prop := ∀ k, L k = true → taint (s.chan k).hist = true

theorem effect_lose {cfg : Cfg} {q q' : Option α} {c c' b : Bool} {op : Op α} {r : Res α} (h : Effect cfg q c op r q' c')
    (hu : upd b op r = true) : Effect cfg q c op r none c' ∨ (b = true ∧ Effect cfg none c op r none c') := by
  rcases h with h | ⟨-, rfl, -, -, -, v, rfl⟩ | ⟨hm, rfl, rfl, hop, x, rfl, -⟩
  · cases op with
    | push v =>
      simp only [would] at h
      split at h
      · rename_i hc
        simp at h; obtain ⟨rfl, rfl, rfl⟩ := h
        exact .inr ⟨hu, .inl (by simp [would, hc])⟩
      · simp at h; obtain ⟨rfl, rfl, rfl⟩ := h; simp [upd] at hu
    | tryPush v => simp [would] at h
    | pop =>
      cases q with
      | none =>
        simp only [would] at h
        split at h <;> simp at h
        obtain ⟨rfl, rfl, rfl⟩ := h; simp [upd] at hu
      | some x => simp [would] at h; obtain ⟨rfl, rfl, rfl⟩ := h; simp [upd] at hu
    | tryPop => simp [would] at h; obtain ⟨rfl, rfl, rfl⟩ := h; simp [upd] at hu
    | close => simp [would] at h; obtain ⟨rfl, rfl, rfl⟩ := h; exact .inr ⟨hu, .inl rfl⟩
    | isClosed => simp [would] at h; obtain ⟨rfl, rfl, rfl⟩ := h; exact .inr ⟨hu, .inl rfl⟩
  · simp [upd] at hu
  · exact .inl (.inr (.inr ⟨hm, rfl, rfl, hop, x, rfl, .inr rfl⟩))

theorem lose_step {p : Prog α} {s s' : Sys α} {a : MAct} (h : Inv p s) (hs : step p s a = some s') {ov' L' : Nat → Bool}
    (ho : Ok p s' ov') (hL : OkL s' L') :
    ∃ ov L, Ok p s ov ∧ OkL s L ∧ (absL p s' ov' L' = absL p s ov L ∨ AStep p (absL p s ov L) (absL p s' ov' L')) := by
  obtain ⟨-, i, hj, hk⟩ := step_kind h hs
  have hoj : ∀ j, j ≠ i → ov' j = true → ∃ k op v, p.code j (s.thr j).res = some (k, op) ∧ (p.cfg k).moveThrow = true ∧
      pend p s j = [.val (some v)] := by
    intro j e hv
    have := ho j hv
    rwa [(hj j e).1, (hj j e).2] at this
  cases hk with
  | same hc hr hp =>
    have hi : ov' i = true → pend p s' i = pend p s i ∧ s'.thr i = s.thr i := by
      intro hv
      rcases hp with hp | hp
      · obtain ⟨_, _, v, -, -, e⟩ := ho i hv
        rw [hp] at e; cases e
      · exact hp
    refine ⟨ov', L', fun j hv => ?_, fun k hv => by rw [← (hc k).taint]; exact hL k hv, .inl ?_⟩
    · by_cases e : j = i
      · subst e
        have := ho j hv
        rwa [(hi hv).1, (hi hv).2] at this
      · exact hoj j e hv
    · simp only [absL, ASys.mk.injEq]
      refine ⟨funext fun k => by rw [(hc k).slot], funext fun k => (hc k).closed, funext fun j => ?_⟩
      by_cases e : j = i
      · subst e
        cases hv : ov' j with
        | false => simpa [over] using hr
        | true => rw [(hi hv).1, (hi hv).2]
      · rw [(hj j e).1, (hj j e).2]
  | @eff k op r hin hcode ht h0 h1 hc he hta =>
    have hold : ∀ k', k' ≠ k → L' k' = true → taint (s.chan k').hist = true := fun k' e hv => by
      rw [← (hc k' e).taint]; exact hL k' hv
    -- the result as it will be
    have hres : ∀ q q' c', Effect (p.cfg k) q (s.chan k).closed op r q' c' →
        Effect (p.cfg k) q (s.chan k).closed op (if ov' i then .threw else r) q' c' := by
      intro q q' c' he
      cases hv : ov' i with
      | false => exact he
      | true =>
        obtain ⟨k1, op1, v, e1, hm, e2⟩ := ho i hv
        rw [ht, hcode] at e1; injection e1 with e1; injection e1 with e1 _; subst e1
        rw [h1] at e2; injection e2 with e2; subst e2
        exact effect_recant hm he
    have fin : ∀ L : Nat → Bool, OkL s L → (∀ k', k' ≠ k → L k' = L' k') →
        Effect (p.cfg k) (if L k then none else (s.chan k).slot) (s.chan k).closed op r (if L' k then none else (s'.chan k).slot)
          (s'.chan k).closed →
        ∃ ov L, Ok p s ov ∧ OkL s L ∧ (absL p s' ov' L' = absL p s ov L ∨ AStep p (absL p s ov L) (absL p s' ov' L')) := by
      intro L hLs hLk he'
      refine ⟨set ov' i false, L, fun j hv => ?_, hLs, .inr ?_⟩
      · by_cases e : j = i
        · subst e; rw [set_self] at hv; cases hv
        · rw [set_other _ _ e] at hv; exact hoj j e hv
      · have hA : absL p s' ov' L' = ⟨set (absL p s (set ov' i false) L).slot k (if L' k then none else (s'.chan k).slot),
            set (absL p s (set ov' i false) L).closed k (s'.chan k).closed,
            set (absL p s (set ov' i false) L).res i ((absL p s (set ov' i false) L).res i ++ [if ov' i then .threw else r])⟩ := by
          simp only [absL, ASys.mk.injEq]
          refine ⟨funext fun k' => ?_, funext fun k' => ?_, funext fun j => ?_⟩
          · by_cases e : k' = k
            · subst e; rw [set_self]
            · rw [set_other _ _ e, hLk k' e, (hc k' e).slot]
          · by_cases e : k' = k
            · subst e; rw [set_self]
            · rw [set_other _ _ e]; exact (hc k' e).closed
          · by_cases e : j = i
            · subst e
              rw [set_self, ht, h1, h0]
              cases ov' j <;> simp [over]
            · rw [set_other _ _ e, (hj j e).1, (hj j e).2, set_other _ _ e]
        rw [hA]
        refine .call (op := op) hin ?_ (hres _ _ _ he')
        simp only [absL, h0, set_self]
        simpa [over] using hcode
    cases hLk : L' k with
    | false =>
      refine fin (set L' k false) (fun k' hv => ?_) (fun k' e => set_other _ _ e) ?_
      · by_cases e : k' = k
        · subst e; rw [set_self] at hv; cases hv
        · rw [set_other _ _ e] at hv; exact hold k' e hv
      · simpa [set_self, hLk] using he
    | true =>
      have hu := hL k hLk
      rw [hta] at hu
      rcases effect_lose he hu with he' | ⟨hb, he'⟩
      · refine fin (set L' k false) (fun k' hv => ?_) (fun k' e => set_other _ _ e) ?_
        · by_cases e : k' = k
          · subst e; rw [set_self] at hv; cases hv
          · rw [set_other _ _ e] at hv; exact hold k' e hv
        · simpa [set_self, hLk] using he'
      · refine fin L' (fun k' hv => ?_) (fun _ _ => rfl) ?_
        · by_cases e : k' = k
          · subst e; exact hb
          · exact hold k' e hv
        · simpa [hLk] using he'
  | @recant k op v hcode hm ht h0 h1 hc =>
    have hf : ov' i = false := by
      cases hv : ov' i with
      | false => rfl
      | true => obtain ⟨_, _, v, -, -, e⟩ := ho i hv; rw [h1] at e; cases e
    refine ⟨set ov' i true, L', fun j hv => ?_, fun k hv => by rw [← (hc k).taint]; exact hL k hv, .inl ?_⟩
    · by_cases e : j = i
      · subst e; exact ⟨k, op, v, hcode, hm, h0⟩
      · rw [set_other _ _ e] at hv; exact hoj j e hv
    · simp only [absL, ASys.mk.injEq]
      refine ⟨funext fun k => by rw [(hc k).slot], funext fun k => (hc k).closed, funext fun j => ?_⟩
      by_cases e : j = i
      · subst e; rw [set_self, ht, h1, h0, hf]; simp [over]
      · rw [set_other _ _ e, (hj j e).1, (hj j e).2]

theorem lose_exec {p : Prog α} : ∀ {acts : List MAct} {s s' : Sys α}, Inv p s →
    (∀ ov L, Ok p s ov → OkL s L → AReach p (absL p s ov L)) → exec p s acts = some s' →
    ∀ ov L, Ok p s' ov → OkL s' L → AReach p (absL p s' ov L)
  | [], s, s', _, ha, he => by simp only [exec] at he; injection he with he; subst he; exact ha
  | a :: l, s, s', h, ha, he => by
    simp only [exec] at he
    cases hs : step p s a with
    | none => rw [hs] at he; simp at he
    | some s1 =>
      rw [hs] at he
      refine lose_exec (inv_step h hs) (fun ov' L' ho hL => ?_) he
      obtain ⟨ov, L, h1, h2, h3⟩ := lose_step h hs ho hL
      rcases h3 with e | e
      · rw [e]; exact ha ov L h1 h2
      · exact .step (ha ov L h1 h2) e

/-- Every value that a removal has left when it threw might as well be lost. -/
theorem lose_reach {p : Prog α} {s : Sys α} (h : Reach p s) {L : Nat → Bool} (hL : OkL s L) :
    AReach p (absL p s (fun _ => false) L) := by
  obtain ⟨acts, h⟩ := h
  refine lose_exec (inv_start p) (fun ov L ho hL => ?_) h _ L (fun i hi => by cases hi) hL
  have hl : ∀ k, L k = false := fun k => by
    cases hk : L k with
    | false => rfl
    | true => have := hL k hk; simp [start, init, taint] at this
  have hz : ∀ i, pend p (start p) i = [] := fun i => by simp [pend, start]
  have : absL p (start p) ov L = astart := by
    simp only [absL, hz, hl]
    simp [over, start, astart, init]
  rw [this]; exact .start

/-- A state in which nothing can go on, with all values lost that may be. -/
theorem stuck_lose {p : Prog α} {s : Sys α} (h : Inv p s) (hs : Stuck p s) :
    (∀ i, (absL p s (fun _ => false) (fun k => taint (s.chan k).hist)).res i = (s.thr i).res) ∧
    AStuck p (absL p s (fun _ => false) fun k => taint (s.chan k).hist) := by
  have hth : ∀ i, pend p s i = [] ∧ (i < p.n → ∀ k op, p.code i (s.thr i).res = some (k, op) →
      (op = .pop ∧ (if taint (s.chan k).hist then none else (s.chan k).slot) = none ∧ (s.chan k).closed = false) ∨
      ∃ v, op = .tryPush v) := by
    intro i
    cases hin : (s.thr i).inside with
    | true =>
      obtain ⟨k, op, pc, r, h1, h2, h3⟩ := h.here i hin
      have hq := stuck_quiescent h hs k
      rcases quiescent_pc (lockInv_reach (h.reach k)) hq h2 with rfl | rfl
      · simp [ph] at h3
      · simp only [ph, Option.some.injEq, Prod.mk.injEq] at h3
        obtain ⟨rfl, rfl⟩ := h3
        obtain ⟨e1, e2⟩ := quiescent_or (h.reach k) hq h2
        refine ⟨by simp [pend, hin, h1, h2, ph, pendR], fun _ k' op' e => ?_⟩
        rw [h1] at e; injection e with e; injection e with e e'; subst e; subst e'
        refine .inl ⟨rfl, ?_, e2⟩
        rcases e1 with e1 | e1 <;> simp [e1]
    | false =>
      refine ⟨by simp [pend, hin], fun hi k op hcode => ?_⟩
      have := (hs i none).1
      have hid := h.idle k i hi (by rw [hin]; simp)
      cases op <;> simp [step, Sys.begin, hin, hcode, next, hid, entry] at this
      exact .inr ⟨_, rfl⟩
  have hr : ∀ i, (absL p s (fun _ => false) (fun k => taint (s.chan k).hist)).res i = (s.thr i).res := fun i => by
    simp [absL, (hth i).1, over]
  refine ⟨hr, fun B hB => ?_⟩
  cases hB with
  | @call i k op r q' c' hi hcode he =>
    rw [hr] at hcode
    simp only [absL] at he
    rcases (hth i).2 hi k op hcode with ⟨rfl, e1, e2⟩ | ⟨v, rfl⟩
    · rw [e1, e2] at he
      rcases he with he | ⟨-, -, -, -, -, v, hv⟩ | ⟨-, -, -, -, x, hx, -⟩
      · simp [would] at he
      · cases hv
      · cases hx
    · rcases he with he | ⟨-, -, -, -, -, w, hv⟩ | ⟨-, -, -, hop, -⟩
      · simp [would] at he
      · cases hv
      · simp at hop

end Verif.MultiX
