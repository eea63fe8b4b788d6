import Verif.Mixed.Sim

/-! Executions on the detailed objects that cannot go on, whatever the objects are. Where a removal from an exchange channel has
thrown and left the value, it might as well have lost it (`MultiX/Lose.lean`). -/
namespace Verif.Mixed

open Verif.Channel (Op Res Act)
open Verif.Multi (Thr set MAct set_self set_other pendR over)

variable {α : Type}

/-- The elements of a channel do not throw (channel.hpp:100,126,188,193,206,211), those of an exchange channel may. -/
def OCfg.calm : OCfg → Prop
  | .chan c => c.moveThrow = false ∧ c.ctorThrow = false
  | .exch _ => True

/-- The contents with the value of an exchange channel lost (exchange_channel.hpp:135,148). -/
def lose (b : Bool) (v : OVal α) : OVal α :=
  if b then match v with
    | .queue q => .queue q
    | .slot _ => .slot none
  else v

/-- As `absO`, with the values of the exchange channels in `L` lost (channel.hpp:58-212, exchange_channel.hpp:53-149). -/
def absL (p : Prog α) (s : Sys α) (ov : Nat → Bool) (L : Nat → Bool) : ASys α :=
  ⟨fun k => lose (L k) (s.obj k).val, fun k => (s.obj k).closed, fun i => (s.thr i).res ++ over (ov i) (pend p s i)⟩

/-- The values that may be lost (exchange_channel.hpp:135,148). -/
def OkL (s : Sys α) (L : Nat → Bool) : Prop := ∀ k, L k = true → (s.obj k).left = true

theorem effect_lose {cfg : OCfg} {q q' : OVal α} {c c' b : Bool} {op : Op α} {r : Res α} (h : OEffect cfg q c op r q' c')
    (hu : oupd cfg b op r = true) :
    OEffect cfg q c op r (lose true q') c' ∨ (b = true ∧ OEffect cfg (lose true q) c op r (lose true q') c') := by
  match cfg, q, q' with
  | .chan _, _, _ => cases hu
  | .exch _, .slot _, .slot _ => exact MultiX.effect_lose h hu
  | .exch _, .queue _, _ => exact h.elim
  | .exch _, .slot _, .queue _ => exact h.elim

theorem lose_step {p : Prog α} {s s' : Sys α} {a : MAct} (h : Inv p s) (hs : step p s a = some s') {ov' L' : Nat → Bool}
    (ho : Ok p s' ov') (hL : OkL s' L') :
    ∃ ov L, Ok p s ov ∧ OkL s L ∧ (absL p s' ov' L' = absL p s ov L ∨ AStep p (absL p s ov L) (absL p s' ov' L')) := by
  obtain ⟨-, i, hj, hk⟩ := step_kind h hs
  have hoj : ∀ j, j ≠ i → ov' j = true → ∃ k op v, p.code j (s.thr j).res = some (k, op) ∧ (p.cfg k).moveThrow = true ∧
      pend p s j = [.val (some v)] := by
    intro j e hv
    have := ho j hv
    rwa [(hj j e).1, (hj j e).2] at this
  cases hk with
  | same hc hr hp =>
    have hi : ov' i = true → pend p s' i = pend p s i ∧ s'.thr i = s.thr i := by
      intro hv
      rcases hp with hp | hp
      · obtain ⟨_, _, v, -, -, e⟩ := ho i hv
        rw [hp] at e; cases e
      · exact hp
    refine ⟨ov', L', fun j hv => ?_, fun k hv => by rw [← (hc k).left]; exact hL k hv, .inl ?_⟩
    · by_cases e : j = i
      · subst e
        have := ho j hv
        rwa [(hi hv).1, (hi hv).2] at this
      · exact hoj j e hv
    · simp only [absL, ASys.mk.injEq]
      refine ⟨funext fun k => by rw [(hc k).val], funext fun k => (hc k).closed, funext fun j => ?_⟩
      by_cases e : j = i
      · subst e
        cases hv : ov' j with
        | false => simpa [over] using hr
        | true => rw [(hi hv).1, (hi hv).2]
      · rw [(hj j e).1, (hj j e).2]
  | @eff k op r hin hcode ht h0 h1 hc he hta =>
    have hold : ∀ k', k' ≠ k → L' k' = true → (s.obj k').left = true := fun k' e hv => by
      rw [← (hc k' e).left]; exact hL k' hv
    -- the result as it will be
    have hres : ∀ q q' c', OEffect (p.cfg k) q (s.obj k).closed op r q' c' →
        OEffect (p.cfg k) q (s.obj k).closed op (if ov' i then .threw else r) q' c' := by
      intro q q' c' he
      cases hv : ov' i with
      | false => exact he
      | true =>
        obtain ⟨k1, op1, v, e1, hm, e2⟩ := ho i hv
        rw [ht, hcode] at e1; injection e1 with e1; injection e1 with e1 _; subst e1
        rw [h1] at e2; injection e2 with e2; subst e2
        exact effect_recant hm he
    have fin : ∀ L : Nat → Bool, OkL s L → (∀ k', k' ≠ k → L k' = L' k') →
        OEffect (p.cfg k) (lose (L k) (s.obj k).val) (s.obj k).closed op r (lose (L' k) (s'.obj k).val)
          (s'.obj k).closed →
        ∃ ov L, Ok p s ov ∧ OkL s L ∧ (absL p s' ov' L' = absL p s ov L ∨ AStep p (absL p s ov L) (absL p s' ov' L')) := by
      intro L hLs hLk he'
      refine ⟨set ov' i false, L, fun j hv => ?_, hLs, .inr ?_⟩
      · by_cases e : j = i
        · subst e; rw [set_self] at hv; cases hv
        · rw [set_other _ _ e] at hv; exact hoj j e hv
      · have hA : absL p s' ov' L' = ⟨set (absL p s (set ov' i false) L).val k (lose (L' k) (s'.obj k).val),
            set (absL p s (set ov' i false) L).closed k (s'.obj k).closed,
            set (absL p s (set ov' i false) L).res i ((absL p s (set ov' i false) L).res i ++ [if ov' i then .threw else r])⟩ := by
          simp only [absL, ASys.mk.injEq]
          refine ⟨funext fun k' => ?_, funext fun k' => ?_, funext fun j => ?_⟩
          · by_cases e : k' = k
            · subst e; rw [set_self]
            · rw [set_other _ _ e, hLk k' e, (hc k' e).val]
          · by_cases e : k' = k
            · subst e; rw [set_self]
            · rw [set_other _ _ e]; exact (hc k' e).closed
          · by_cases e : j = i
            · subst e
              rw [set_self, ht, h1, h0]
              cases ov' j <;> simp [over]
            · rw [set_other _ _ e, (hj j e).1, (hj j e).2, set_other _ _ e]
        rw [hA]
        refine .call (op := op) hin ?_ (hres _ _ _ he')
        simp only [absL, h0, set_self]
        simpa [over] using hcode
    cases hLk : L' k with
    | false =>
      refine fin (set L' k false) (fun k' hv => ?_) (fun k' e => set_other _ _ e) ?_
      · by_cases e : k' = k
        · subst e; rw [set_self] at hv; cases hv
        · rw [set_other _ _ e] at hv; exact hold k' e hv
      · simpa [set_self, hLk, lose] using he
    | true =>
      have hu := hL k hLk
      rw [hta] at hu
      rcases effect_lose he hu with he' | ⟨hb, he'⟩
      · refine fin (set L' k false) (fun k' hv => ?_) (fun k' e => set_other _ _ e) ?_
        · by_cases e : k' = k
          · subst e; rw [set_self] at hv; cases hv
          · rw [set_other _ _ e] at hv; exact hold k' e hv
        · simpa [set_self, hLk, lose] using he'
      · refine fin L' (fun k' hv => ?_) (fun _ _ => rfl) ?_
        · by_cases e : k' = k
          · subst e; exact hb
          · exact hold k' e hv
        · simpa [hLk, lose] using he'
  | @recant k op v hcode hm ht h0 h1 hc =>
    have hf : ov' i = false := by
      cases hv : ov' i with
      | false => rfl
      | true => obtain ⟨_, _, v, -, -, e⟩ := ho i hv; rw [h1] at e; cases e
    refine ⟨set ov' i true, L', fun j hv => ?_, fun k hv => by rw [← (hc k).left]; exact hL k hv, .inl ?_⟩
    · by_cases e : j = i
      · subst e; exact ⟨k, op, v, hcode, hm, h0⟩
      · rw [set_other _ _ e] at hv; exact hoj j e hv
    · simp only [absL, ASys.mk.injEq]
      refine ⟨funext fun k => by rw [(hc k).val], funext fun k => (hc k).closed, funext fun j => ?_⟩
      by_cases e : j = i
      · subst e; rw [set_self, ht, h1, h0, hf]; simp [over]
      · rw [set_other _ _ e, (hj j e).1, (hj j e).2]

theorem lose_exec {p : Prog α} : ∀ {acts : List MAct} {s s' : Sys α}, Inv p s →
    (∀ ov L, Ok p s ov → OkL s L → AReach p (absL p s ov L)) → exec p s acts = some s' →
    ∀ ov L, Ok p s' ov → OkL s' L → AReach p (absL p s' ov L)
  | [], s, s', _, ha, he => by simp only [exec] at he; injection he with he; subst he; exact ha
  | a :: l, s, s', h, ha, he => by
    simp only [exec] at he
    cases hs : step p s a with
    | none => rw [hs] at he; simp at he
    | some s1 =>
      rw [hs] at he
      refine lose_exec (inv_step h hs) (fun ov' L' ho hL => ?_) he
      obtain ⟨ov, L, h1, h2, h3⟩ := lose_step h hs ho hL
      rcases h3 with e | e
      · rw [e]; exact ha ov L h1 h2
      · exact .step (ha ov L h1 h2) e

/-- Every value that a removal has left when it threw might as well be lost. -/
theorem lose_reach {p : Prog α} {s : Sys α} (h0 : ∀ ov, absO p (start p) ov = astart p) (h : Reach p s) {L : Nat → Bool}
    (hL : OkL s L) : AReach p (absL p s (fun _ => false) L) := by
  obtain ⟨acts, h⟩ := h
  refine lose_exec (inv_start p) (fun ov L ho hL => ?_) h _ L (fun i hi => by cases hi) hL
  have hf : ∀ cfg, (fresh α p.n cfg).left = false := fun cfg => by cases cfg <;> rfl
  have hl : ∀ k, L k = false := fun k => by
    cases hk : L k with
    | false => rfl
    | true => have := hL k hk; simp [start, hf] at this
  have : absL p (start p) ov L = absO p (start p) ov := by simp [absL, absO, hl, lose]
  rw [this, h0]; exact .start

/-- In an object in which nobody can go on, a running call has had no effect and can have none. -/
theorem quiet_call {cfg : OCfg} (hc : cfg.calm) {n : Nat} {o : Obj α} (hr : OReach cfg n o)
    (hq : ∀ t w, onext cfg o (.step t w) = none) {i : Nat} {op : Op α} {r : Option (Res α)}
    (hp : phase o i = some (some (op, r))) :
    r = none ∧ ∀ r' q' c', ¬ OEffect cfg (lose o.left o.val) o.closed op r' q' c' := by
  match cfg, o, hr with
  | .chan cfg, .chan s, hr =>
    simp only [OCfg.calm] at hc
    have hq' : Channel.Quiescent cfg s := fun t w => by simpa [onext] using hq t w
    simp only [phase, Option.map_eq_some_iff] at hp
    obtain ⟨pc, h2, h3⟩ := hp
    rcases Channel.quiescent_pc (Channel.lockInv_reach hr) hq' h2 with rfl | rfl | ⟨v, rfl⟩
    · simp [Multi.ph] at h3
    · simp only [Multi.ph, Option.some.injEq, Prod.mk.injEq] at h3
      obtain ⟨rfl, rfl⟩ := h3
      obtain ⟨e1, e2⟩ := Channel.quiescent_consumer hc.1 hr hq' h2
      refine ⟨rfl, fun r' q' c' he => ?_⟩
      cases q' with
      | slot v => exact he
      | queue q' =>
        rcases he with he | ⟨ht, _⟩ | ⟨ht, _⟩
        · simp [Multi.would, e1, e2, Obj.closed, lose] at he
        · rw [hc.2] at ht; cases ht
        · rw [hc.1] at ht; cases ht
    · simp only [Multi.ph, Option.some.injEq, Prod.mk.injEq] at h3
      obtain ⟨rfl, rfl⟩ := h3
      obtain ⟨e1, e2⟩ := Channel.quiescent_producer hc.2 hr hq' h2
      refine ⟨rfl, fun r' q' c' he => ?_⟩
      cases q' with
      | slot v => exact he
      | queue q' =>
        rcases he with he | ⟨ht, _⟩ | ⟨ht, _⟩
        · simp [Multi.would, e2, Obj.closed, Nat.not_lt.2 e1] at he
        · rw [hc.2] at ht; cases ht
        · rw [hc.1] at ht; cases ht
  | .exch cfg, .exch s, hr =>
    have hq' : Exchange.Quiescent cfg s := fun t w => by simpa [onext] using hq t w
    simp only [phase, Option.map_eq_some_iff] at hp
    obtain ⟨pc, h2, h3⟩ := hp
    rcases Exchange.quiescent_pc (Exchange.lockInv_reach hr) hq' h2 with rfl | rfl
    · simp [MultiX.ph] at h3
    · simp only [MultiX.ph, Option.some.injEq, Prod.mk.injEq] at h3
      obtain ⟨rfl, rfl⟩ := h3
      obtain ⟨e1, e2⟩ := MultiX.quiescent_or hr hq' h2
      have hv : lose (Obj.exch s).left (Obj.exch s).val = .slot none := by
        simp only [Obj.left, Obj.val, lose]
        rcases e1 with e1 | e1 <;> simp [e1]
      refine ⟨rfl, fun r' q' c' he => ?_⟩
      rw [hv] at he
      cases q' with
      | queue v => exact he
      | slot q' =>
        rcases he with he | ⟨_, _, _, _, _, v, hv⟩ | ⟨_, _, _, _, x, hx, _⟩
        · simp [MultiX.would, e2, Obj.closed] at he
        · cases hv
        · cases hx

/-- A call that cannot begin can have no effect. -/
theorem refused_call {cfg : OCfg} {n : Nat} {o : Obj α} (hr : OReach cfg n o) {i : Nat} {op : Op α}
    (hi : phase o i = some none) (hn : onext cfg o (.call i op) = none) {v : OVal α} {c : Bool} :
    ∀ r' q' c', ¬ OEffect cfg v c op r' q' c' := by
  match cfg, o, hr with
  | .chan cfg, .chan s, hr =>
    simp only [phase, Option.map_eq_some_iff] at hi
    obtain ⟨pc, h2, h3⟩ := hi
    have : pc = .idle := by cases pc <;> simp [Multi.ph] at h3 ⊢
    subst this
    simp [onext, Channel.next, h2] at hn
  | .exch cfg, .exch s, hr =>
    simp only [phase, Option.map_eq_some_iff] at hi
    obtain ⟨pc, h2, h3⟩ := hi
    have : pc = .idle := by cases pc <;> simp [MultiX.ph] at h3 ⊢
    subst this
    intro r' q' c' he
    cases v with
    | queue v => exact he
    | slot v =>
      cases q' with
      | queue q' => exact he
      | slot q' =>
        cases op <;> simp [onext, Exchange.next, h2, Exchange.entry] at hn
        rcases he with he | ⟨_, _, _, _, _, v, hv⟩ | ⟨_, _, _, hop, _⟩
        · simp [MultiX.would] at he
        · cases hv
        · simp at hop

theorem stuck_quiet {p : Prog α} {s : Sys α} (h : Inv p s) (hs : Stuck p s) (k : Nat) (t : Nat) (w : Option Nat) :
    onext (p.cfg k) (s.obj k) (.step t w) = none := by
  by_cases hin : (s.thr t).inside = true ∧ ∃ op, p.code t (s.thr t).res = some (k, op)
  · obtain ⟨hin, op, hcode⟩ := hin
    have := (hs t w).2
    simp only [step, Sys.run, hin, hcode, Option.map_eq_none_iff] at this
    exact this
  · have hid : t < p.n → phase (s.obj k) t = some none := fun hlt => h.idle k t hlt (fun h1 op h2 => hin ⟨h1, op, h2⟩)
    have hr := h.reach k
    generalize p.cfg k = cfg at hr
    generalize s.obj k = o at hr hid
    match cfg, o, hr with
    | .chan cfg, .chan c, hr =>
      cases hp : c.pcs[t]? with
      | none => simp [onext, Channel.next, hp]
      | some pc =>
        have hlt : t < p.n := by rw [← Channel.reachable_length hr]; exact Channel.lt_of_getElem? hp
        have := hid hlt
        simp only [phase, hp, Option.map_some, Option.some.injEq] at this
        have : pc = .idle := by cases pc <;> simp [Multi.ph] at this ⊢
        subst this
        simp [onext, Channel.next, hp, Channel.stepAt]
    | .exch cfg, .exch c, hr =>
      cases hp : c.pcs[t]? with
      | none => simp [onext, Exchange.next, hp]
      | some pc =>
        have hlt : t < p.n := by rw [← Exchange.reachable_length hr]; exact Channel.lt_of_getElem? hp
        have := hid hlt
        simp only [phase, hp, Option.map_some, Option.some.injEq] at this
        have : pc = .idle := by cases pc <;> simp [MultiX.ph] at this ⊢
        subst this
        simp [onext, Exchange.next, hp, Exchange.stepAt]

theorem stuck_thread {p : Prog α} (hc : ∀ k, (p.cfg k).calm) {s : Sys α}
    (h : Inv p s) (hs : Stuck p s) (i : Nat) : pend p s i = [] ∧ (i < p.n → ∀ k op, p.code i (s.thr i).res = some (k, op) →
      ∀ r' q' c', ¬ OEffect (p.cfg k) (lose (s.obj k).left (s.obj k).val) (s.obj k).closed op r' q' c') := by
  cases hin : (s.thr i).inside with
  | true =>
    obtain ⟨k, op, r, h1, h2⟩ := h.here i hin
    obtain ⟨rfl, e⟩ := quiet_call (hc k) (h.reach k) (stuck_quiet h hs k) h2
    refine ⟨by simp [pend, hin, h1, h2, pendR], fun _ k' op' e' => ?_⟩
    rw [h1] at e'; injection e' with e'; injection e' with e1 e2; subst e1; subst e2
    exact e
  | false =>
    refine ⟨by simp [pend, hin], fun hi k op hcode => ?_⟩
    have := (hs i none).1
    have hid := h.idle k i hi (by rw [hin]; simp)
    simp only [step, Sys.begin, hin, hcode, Option.map_eq_none_iff] at this
    exact refused_call (h.reach k) hid this

/-- A state in which nothing can go on, with all values lost that may be. -/
theorem stuck_abs {p : Prog α} (hc : ∀ k, (p.cfg k).calm) {s : Sys α} (h : Inv p s) (hs : Stuck p s) :
    (∀ i, (absL p s (fun _ => false) (fun k => (s.obj k).left)).res i = (s.thr i).res) ∧
    AStuck p (absL p s (fun _ => false) fun k => (s.obj k).left) := by
  have hr : ∀ i, (absL p s (fun _ => false) (fun k => (s.obj k).left)).res i = (s.thr i).res := fun i => by
    simp [absL, over, (stuck_thread hc h hs i).1]
  refine ⟨hr, fun B hB => ?_⟩
  cases hB with
  | @call i k op r q' c' hi hcode he =>
    rw [hr] at hcode
    exact (stuck_thread hc h hs i).2 hi k op hcode _ _ _ he

end Verif.Mixed
