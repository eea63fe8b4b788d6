import Verif.Multi.Did

/-! Every step of a program on the detailed channels is a call that takes effect, or nothing that matters. -/
namespace Verif.Multi

open Verif.Channel

variable {α : Type}

theorem set_self {γ : Type} (f : Nat → γ) (i : Nat) (x : γ) : set f i x i = x := by simp [set]
theorem set_other {γ : Type} (f : Nat → γ) {i j : Nat} (x : γ) (h : j ≠ i) : set f i x j = f j := by simp [set, h]
theorem set_same {γ : Type} (f : Nat → γ) (i : Nat) : set f i (f i) = f := by
  funext j; by_cases h : j = i
  · subst h; exact set_self ..
  · exact set_other _ _ h

/-- The result a call will have, once it has had its effect (channel.hpp:58-212). -/
def pendR : Option (Option (Op α × Option (Res α))) → List (Res α)
  | some (some (_, some r)) => [r]
  | _ => []

/-- The pending result of thread `i` (channel.hpp:58-212). -/
def pend (p : Prog α) (s : Sys α) (i : Nat) : List (Res α) :=
  match (s.thr i).inside, p.code i (s.thr i).res with
  | true, some (k, _) => pendR (((s.chan k).pcs[i]?).map ph)
  | _, _ => []

/-- The queues, and the results of the calls that have had their effect (channel.hpp:58-212). -/
def abs (p : Prog α) (s : Sys α) : ASys α :=
  ⟨fun k => (s.chan k).q, fun k => (s.chan k).closed, fun i => (s.thr i).res ++ pend p s i⟩

/-- Invariant: every channel is in a state of `Channel/Model.lean`; a thread is inside the channel and member function that its program
has chosen, and inside no other (about the model of channel.hpp:58-212). -/
structure Inv (p : Prog α) (s : Sys α) : Prop where
  reach : ∀ k, Reachable (p.cfg k) p.n (s.chan k)
  here : ∀ i, (s.thr i).inside = true → ∃ k op pc r, p.code i (s.thr i).res = some (k, op) ∧ (s.chan k).pcs[i]? = some pc ∧
    ph pc = some (op, r)
  idle : ∀ k i, i < p.n → ((s.thr i).inside = true → ∀ op, p.code i (s.thr i).res ≠ some (k, op)) →
    (s.chan k).pcs[i]? = some .idle

theorem reach_snoc {cfg : Cfg} {n : Nat} {s s' : St α} {a : Act α} (h : Reachable cfg n s) (hn : next cfg s a = some s') :
    Reachable cfg n s' := by
  obtain ⟨acts, h⟩ := h
  refine ⟨acts ++ [a], ?_⟩
  have key : ∀ (l : List (Act α)) (c : St α), run cfg c l = some s → run cfg c (l ++ [a]) = some s' := by
    intro l
    induction l with
    | nil => intro c h; simp only [run] at h; injection h with h; subst h; simp [run, hn]
    | cons b l ih =>
      intro c h
      simp only [run, List.cons_append] at h ⊢
      cases hb : next cfg c b with
      | none => rw [hb] at h; simp at h
      | some d => rw [hb] at h; simp only [Option.bind_some] at h ⊢; exact ih d h
  exact key acts _ h

theorem inv_start (p : Prog α) : Inv p (start p) where
  reach k := ⟨[], rfl⟩
  here i h := by simp [start] at h
  idle k i hi _ := by simp [start, init, List.getElem?_replicate, hi]

theorem abs_start (p : Prog α) : abs p (start p) = astart := by
  simp [abs, start, astart, pend, init]

/-- Thread `i` has changed channel `k`, and nobody else notices. -/
theorem inv_after {p : Prog α} {s : Sys α} (h : Inv p s) {i k : Nat} {c : St α} {th : Thr α}
    (hc : Reachable (p.cfg k) p.n c) (ho : ∀ j, j ≠ i → (c.pcs[j]?).map ph = ((s.chan k).pcs[j]?).map ph)
    (hk : (s.thr i).inside = true → ∃ op, p.code i (s.thr i).res = some (k, op))
    (hi : th.inside = true → ∃ op pc r, p.code i th.res = some (k, op) ∧ c.pcs[i]? = some pc ∧ ph pc = some (op, r))
    (hn : th.inside = false → c.pcs[i]? = some .idle) :
    Inv p ⟨set s.chan k c, set s.thr i th⟩ ∧
    ∀ j, j ≠ i → pend p ⟨set s.chan k c, set s.thr i th⟩ j = pend p s j := by
  have hpc : ∀ j, j ≠ i → ∀ k', (((set s.chan k c) k').pcs[j]?).map ph = ((s.chan k').pcs[j]?).map ph := by
    intro j hj k'
    by_cases e : k' = k
    · subst e; rw [set_self]; exact ho j hj
    · rw [set_other _ _ e]
  refine ⟨⟨?_, ?_, ?_⟩, ?_⟩
  · intro k'
    by_cases e : k' = k
    · subst e; simpa [set_self] using hc
    · simpa [set_other _ _ e] using h.reach k'
  · intro j hj
    by_cases e : j = i
    · subst e
      simp only [set_self] at hj ⊢
      obtain ⟨op, pc, r, h1, h2, h3⟩ := hi hj
      exact ⟨k, op, pc, r, h1, by rw [set_self]; exact h2, h3⟩
    · simp only [set_other _ _ e] at hj ⊢
      obtain ⟨k', op, pc, r, h1, h2, h3⟩ := h.here j hj
      have := hpc j e k'
      rw [h2] at this
      cases hq : ((set s.chan k c) k').pcs[j]? with
      | none => rw [hq] at this; simp at this
      | some pc' =>
        rw [hq] at this; simp at this
        exact ⟨k', op, pc', r, h1, hq, by rw [this]; exact h3⟩
  · intro k' j hj hne
    by_cases e : j = i
    · subst e
      simp only [set_self] at hne ⊢
      by_cases ek : k' = k
      · subst ek
        rw [set_self]
        cases hins : th.inside with
        | false => exact hn hins
        | true => obtain ⟨op, _, _, h1, _⟩ := hi hins; exact absurd h1 (hne hins op)
      · rw [set_other _ _ ek]
        refine h.idle k' j hj (fun hins op hcode => ?_)
        obtain ⟨op', h'⟩ := hk hins
        rw [h'] at hcode; injection hcode with hcode; injection hcode with e1; exact ek e1.symm
    · simp only [set_other _ _ e] at hne ⊢
      have h1 := h.idle k' j hj hne
      have := hpc j e k'
      rw [h1] at this
      cases hq : ((set s.chan k c) k').pcs[j]? with
      | none => rw [hq] at this; simp at this
      | some pc' => rw [hq] at this; simp [ph] at this; rw [ph_idle this]
  · intro j hj
    simp only [pend, set_other _ _ hj]
    split
    · rename_i k' _ _ _; rw [hpc j hj k']
    · rfl

theorem rel_cases {cfg : Cfg} {q q' : List α} {c c' : Bool} {x y : Option (Op α × Option (Res α))} (h : Rel cfg q c x q' c' y) :
    (q' = q ∧ c' = c ∧ y = x) ∨ (∃ op r, x = some (op, none) ∧ y = some (op, some r) ∧ Effect cfg q c op r q' c') ∨
    ∃ op v, cfg.moveThrow = true ∧ q' = q ∧ c' = c ∧ x = some (op, some (.val (some v))) ∧ y = some (op, some .threw) := by
  cases h with
  | same => exact .inl ⟨rfl, rfl, rfl⟩
  | eff h => exact .inr (.inl ⟨_, _, rfl, rfl, h⟩)
  | recant h => exact .inr (.inr ⟨_, _, h, rfl, rfl, rfl, rfl⟩)

/-- Thread `i` has done one action: nothing of interest, a call had its effect, or the result of a call that had its effect is lost
to an exception (about the model of channel.hpp:58-212). -/
inductive Kind (p : Prog α) (s s' : Sys α) (i : Nat) : Prop where
  | same : (∀ k, (s'.chan k).q = (s.chan k).q ∧ (s'.chan k).closed = (s.chan k).closed) →
      (s'.thr i).res ++ pend p s' i = (s.thr i).res ++ pend p s i →
      (pend p s' i = [] ∨ (pend p s' i = pend p s i ∧ s'.thr i = s.thr i)) → Kind p s s' i
  | eff {k op r} : i < p.n → p.code i (s.thr i).res = some (k, op) → s'.thr i = s.thr i → pend p s i = [] → pend p s' i = [r] →
      (∀ k', k' ≠ k → (s'.chan k').q = (s.chan k').q ∧ (s'.chan k').closed = (s.chan k').closed) →
      Effect (p.cfg k) (s.chan k).q (s.chan k).closed op r (s'.chan k).q (s'.chan k).closed → Kind p s s' i
  | recant {k op v} : p.code i (s.thr i).res = some (k, op) → (p.cfg k).moveThrow = true → s'.thr i = s.thr i →
      pend p s i = [.val (some v)] → pend p s' i = [.threw] →
      (∀ k, (s'.chan k).q = (s.chan k).q ∧ (s'.chan k).closed = (s.chan k).closed) → Kind p s s' i

theorem set_chan {s : Sys α} {k : Nat} {c : St α} (h1 : c.q = (s.chan k).q) (h2 : c.closed = (s.chan k).closed) (k' : Nat) :
    ((set s.chan k c) k').q = (s.chan k').q ∧ ((set s.chan k c) k').closed = (s.chan k').closed := by
  by_cases e : k' = k
  · subst e; rw [set_self]; exact ⟨h1, h2⟩
  · rw [set_other _ _ e]; exact ⟨rfl, rfl⟩

theorem step_kind {p : Prog α} {s s' : Sys α} {a : MAct} (h : Inv p s) (hs : step p s a = some s') :
    Inv p s' ∧ ∃ i, (∀ j, j ≠ i → s'.thr j = s.thr j ∧ pend p s' j = pend p s j) ∧ Kind p s s' i := by
  have hrun : ∀ i (b : Act α), Act.inside i b → s.run p i b = some s' →
      Inv p s' ∧ ∃ i, (∀ j, j ≠ i → s'.thr j = s.thr j ∧ pend p s' j = pend p s j) ∧ Kind p s s' i := by
    intro i b hb hs
    unfold Sys.run at hs
    split at hs <;> [skip; simp at hs]
    rename_i k op0 hins hcode
    simp only [Option.map_eq_some_iff] at hs
    obtain ⟨c, hn, hs⟩ := hs
    obtain ⟨pc, hp, hd⟩ := did_next (lockBody_reach (h.reach k)).2 hb hn
    have hr := reach_snoc (h.reach k) hn
    obtain ⟨k1, op, pc1, r, h1, h2, h3⟩ := h.here i hins
    rw [hcode] at h1; injection h1 with h1; injection h1 with e1 e2; subst e1; subst e2
    rw [hp] at h2; injection h2 with h2; subst h2
    have hlt : i < p.n := by rw [← reachable_length (h.reach k)]; exact lt_of_getElem? hp
    by_cases hdone : ∃ op r, pc = .done op r
    · obtain ⟨op1, r1, rfl⟩ := hdone
      rw [hp] at hs; simp only at hs; subst hs
      obtain ⟨d1, d2, d3⟩ := hd.done op1 r1 rfl
      obtain ⟨i1, i2⟩ := inv_after (th := ⟨(s.thr i).res ++ [r1], false⟩) h hr hd.others (fun _ => ⟨op0, hcode⟩) (by simp)
        (fun _ => d1)
      refine ⟨i1, i, fun j hj => ⟨set_other _ _ hj, i2 j hj⟩, .same (set_chan d2 d3) ?_ (.inl ?_)⟩
      · simp [pend, set_self, hins, hcode, hp, ph, pendR]
      · simp [pend, set_self]
    · have hs' : s' = ⟨set s.chan k c, set s.thr i (s.thr i)⟩ := by
        rw [set_same]
        rw [← hs, hp]
        split
        · rename_i op1 r1 e; injection e with e; exact absurd ⟨op1, r1, e⟩ hdone
        · rfl
      subst hs'
      obtain ⟨pc', g1, g2⟩ := hd.go (fun op r e => hdone ⟨op, r, e⟩)
      rw [h3] at g2
      have hph : ∃ r', ph pc' = some (op0, r') := by
        rcases rel_cases g2 with ⟨-, -, e⟩ | ⟨op, r1, e1, e2, -⟩ | ⟨op, v, -, -, -, e1, e2⟩
        · exact ⟨r, e⟩
        · injection e1 with e1; injection e1 with e1 _; subst e1; exact ⟨_, e2⟩
        · injection e1 with e1; injection e1 with e1 _; subst e1; exact ⟨_, e2⟩
      obtain ⟨r', hph⟩ := hph
      obtain ⟨i1, i2⟩ := inv_after (th := s.thr i) h hr hd.others (fun _ => ⟨op0, hcode⟩)
        (fun _ => ⟨op0, pc', r', hcode, g1, hph⟩) (by rw [hins]; simp)
      refine ⟨i1, i, fun j hj => ⟨set_other _ _ hj, i2 j hj⟩, ?_⟩
      have hpi : pend p ⟨set s.chan k c, set s.thr i (s.thr i)⟩ i = pendR (some (ph pc')) := by
        simp only [pend, set_self, hins, hcode, g1, Option.map_some]
      have hpi0 : pend p s i = pendR (some (ph pc)) := by
        simp only [pend, hins, hcode, hp, Option.map_some]
      rw [hph] at g2 hpi
      rw [h3] at hpi0
      rcases rel_cases g2 with ⟨hq', hcl', e⟩ | ⟨op, r1, e1, e2, he⟩ | ⟨op, v, hmt, hq', hcl', e1, e2⟩
      · injection e with e; injection e with _ e; subst e
        refine .same (set_chan hq' hcl') ?_ (.inr ⟨by rw [hpi, hpi0], set_self ..⟩)
        rw [hpi, hpi0]; simp only [set_self]
      · injection e1 with e1; injection e1 with e0 e1; subst e0; subst e1
        injection e2 with e2; injection e2 with _ e2; subst e2
        refine .eff hlt hcode (set_self ..) (by rw [hpi0]; rfl) (by rw [hpi]; rfl) (fun k' e => ?_) ?_
        · simp only [set_other _ _ e, and_self]
        · simp only [set_self]; exact he
      · injection e1 with e1; injection e1 with e0 e1; subst e0; subst e1
        injection e2 with e2; injection e2 with _ e2; subst e2
        exact .recant hcode hmt (set_self ..) (by rw [hpi0]; rfl) (by rw [hpi]; rfl) (set_chan hq' hcl')
  cases a with
  | run i w => exact hrun i _ (.inl ⟨w, rfl⟩) hs
  | throw i => exact hrun i _ (.inr (.inl rfl)) hs
  | spurious i => exact hrun i _ (.inr (.inr (.inl rfl))) hs
  | stale i => exact hrun i _ (.inr (.inr (.inr rfl))) hs
  | begin i =>
    simp only [step, Sys.begin] at hs
    split at hs <;> [skip; simp at hs]
    rename_i k op hins hcode
    simp only [Option.map_eq_some_iff] at hs
    obtain ⟨c, hn, rfl⟩ := hs
    have hr := reach_snoc (h.reach k) hn
    simp only [next] at hn
    split at hn <;> [skip; simp at hn]
    rename_i hp
    injection hn with hn; subst hn
    have hpc : ((s.chan k).pcs.set i (entry op))[i]? = some (entry op) := by simp [lt_of_getElem? hp]
    obtain ⟨i1, i2⟩ := inv_after (th := ⟨(s.thr i).res, true⟩) (c := ((s.chan k).log (.call i op)).goto i (entry op)) h hr
      (fun j hj => by simp [St.goto, St.log, List.getElem?_set_ne (Ne.symm hj)]) (by rw [hins]; simp)
      (fun _ => ⟨op, entry op, none, hcode, by simpa [St.goto, St.log] using hpc, ph_entry op⟩) (by simp)
    have hpe : pend p ⟨set s.chan k (((s.chan k).log (.call i op)).goto i (entry op)), set s.thr i ⟨(s.thr i).res, true⟩⟩ i = [] := by
      simp only [pend, set_self, hcode]
      simp only [St.goto, St.log, hpc, Option.map_some, ph_entry, pendR]
    refine ⟨i1, i, fun j hj => ⟨set_other _ _ hj, i2 j hj⟩, .same (set_chan rfl rfl) ?_ (.inl hpe)⟩
    rw [hpe]
    simp [pend, hins, set_self]

/-- Results of calls that had their effect may still be lost to an exception: `ov` says for which threads they will be
(channel.hpp:193,211). -/
def over (b : Bool) (l : List (Res α)) : List (Res α) := if b then l.map fun _ => .threw else l

/-- As `abs`, with these results (channel.hpp:58-212). -/
def absO (p : Prog α) (s : Sys α) (ov : Nat → Bool) : ASys α :=
  ⟨fun k => (s.chan k).q, fun k => (s.chan k).closed, fun i => (s.thr i).res ++ over (ov i) (pend p s i)⟩

/-- Only the results of `pop` and `try_pop` can be lost, and only if moves throw (channel.hpp:193,211). -/
def Ok (p : Prog α) (s : Sys α) (ov : Nat → Bool) : Prop :=
  ∀ i, ov i = true → ∃ k op v, p.code i (s.thr i).res = some (k, op) ∧ (p.cfg k).moveThrow = true ∧ pend p s i = [.val (some v)]

theorem absO_false (p : Prog α) (s : Sys α) : absO p s (fun _ => false) = abs p s := by simp [absO, abs, over]

theorem effect_recant {cfg : Cfg} {q q' : List α} {c c' : Bool} {op : Op α} {v : α} (hm : cfg.moveThrow = true)
    (h : Effect cfg q c op (.val (some v)) q' c') : Effect cfg q c op .threw q' c' := by
  rcases h with h | ⟨-, h, -⟩ | ⟨-, h, -⟩
  · refine .inr (.inr ⟨hm, rfl, ?_⟩)
    cases op with
    | push x => simp only [would] at h; split at h <;> [skip; split at h] <;> simp at h
    | tryPush x => simp only [would] at h; split at h <;> simp at h
    | pop =>
      cases q with
      | nil => simp only [would] at h; split at h <;> simp at h
      | cons x q => simp [would] at h; obtain ⟨rfl, rfl, rfl⟩ := h; exact ⟨rfl, .inl rfl, _, _, rfl, .inr rfl⟩
    | tryPop =>
      cases q with
      | nil => simp [would] at h
      | cons x q => simp [would] at h; obtain ⟨rfl, rfl, rfl⟩ := h; exact ⟨rfl, .inr rfl, _, _, rfl, .inr rfl⟩
    | close => simp [would] at h
    | isClosed => simp [would] at h
  · cases h
  · cases h

theorem inv_step {p : Prog α} {s s' : Sys α} {a : MAct} (h : Inv p s) (hs : step p s a = some s') : Inv p s' :=
  (step_kind h hs).1

/-- One action, and the call that takes effect in it, if any. What is lost later is known before. -/
theorem back_step {p : Prog α} {s s' : Sys α} {a : MAct} (h : Inv p s) (hs : step p s a = some s') {ov' : Nat → Bool}
    (ho : Ok p s' ov') : ∃ ov, Ok p s ov ∧ (absO p s' ov' = absO p s ov ∨ AStep p (absO p s ov) (absO p s' ov')) := by
  obtain ⟨-, i, hj, hk⟩ := step_kind h hs
  have hoj : ∀ j, j ≠ i → ov' j = true → ∃ k op v, p.code j (s.thr j).res = some (k, op) ∧ (p.cfg k).moveThrow = true ∧
      pend p s j = [.val (some v)] := by
    intro j e hv
    have := ho j hv
    rwa [(hj j e).1, (hj j e).2] at this
  cases hk with
  | same hc hr hp =>
    have hi : ov' i = true → pend p s' i = pend p s i ∧ s'.thr i = s.thr i := by
      intro hv
      rcases hp with hp | hp
      · obtain ⟨_, _, v, -, -, e⟩ := ho i hv
        rw [hp] at e; cases e
      · exact hp
    refine ⟨ov', fun j hv => ?_, .inl ?_⟩
    · by_cases e : j = i
      · subst e
        have := ho j hv
        rwa [(hi hv).1, (hi hv).2] at this
      · exact hoj j e hv
    · simp only [absO, ASys.mk.injEq]
      refine ⟨funext fun k => (hc k).1, funext fun k => (hc k).2, funext fun j => ?_⟩
      by_cases e : j = i
      · subst e
        cases hv : ov' j with
        | false => simpa [over] using hr
        | true => rw [(hi hv).1, (hi hv).2]
      · rw [(hj j e).1, (hj j e).2]
  | @eff k op r hin hcode ht h0 h1 hc he =>
    refine ⟨set ov' i false, fun j hv => ?_, .inr ?_⟩
    · by_cases e : j = i
      · subst e; rw [set_self] at hv; cases hv
      · rw [set_other _ _ e] at hv; exact hoj j e hv
    · have he' : Effect (p.cfg k) (s.chan k).q (s.chan k).closed op (if ov' i then .threw else r) (s'.chan k).q
          (s'.chan k).closed := by
        cases hv : ov' i with
        | false => exact he
        | true =>
          obtain ⟨k1, op1, v, e1, hm, e2⟩ := ho i hv
          rw [ht, hcode] at e1; injection e1 with e1; injection e1 with e1 _; subst e1
          rw [h1] at e2; injection e2 with e2; subst e2
          exact effect_recant hm he
      have hA : absO p s' ov' = ⟨set (absO p s (set ov' i false)).q k (s'.chan k).q,
          set (absO p s (set ov' i false)).closed k (s'.chan k).closed,
          set (absO p s (set ov' i false)).res i ((absO p s (set ov' i false)).res i ++ [if ov' i then .threw else r])⟩ := by
        simp only [absO, ASys.mk.injEq]
        refine ⟨funext fun k' => ?_, funext fun k' => ?_, funext fun j => ?_⟩
        · by_cases e : k' = k
          · subst e; rw [set_self]
          · rw [set_other _ _ e]; exact (hc k' e).1
        · by_cases e : k' = k
          · subst e; rw [set_self]
          · rw [set_other _ _ e]; exact (hc k' e).2
        · by_cases e : j = i
          · subst e
            rw [set_self, ht, h1, h0]
            cases ov' j <;> simp [over]
          · rw [set_other _ _ e, (hj j e).1, (hj j e).2, set_other _ _ e]
      rw [hA]
      refine .call (op := op) hin ?_ he'
      simp only [absO, h0, set_self]
      simpa [over] using hcode
  | @recant k op v hcode hm ht h0 h1 hc =>
    have hf : ov' i = false := by
      cases hv : ov' i with
      | false => rfl
      | true => obtain ⟨_, _, v, -, -, e⟩ := ho i hv; rw [h1] at e; cases e
    refine ⟨set ov' i true, fun j hv => ?_, .inl ?_⟩
    · by_cases e : j = i
      · subst e; exact ⟨k, op, v, hcode, hm, h0⟩
      · rw [set_other _ _ e] at hv; exact hoj j e hv
    · simp only [absO, ASys.mk.injEq]
      refine ⟨funext fun k => (hc k).1, funext fun k => (hc k).2, funext fun j => ?_⟩
      by_cases e : j = i
      · subst e; rw [set_self, ht, h1, h0, hf]; simp [over]
      · rw [set_other _ _ e, (hj j e).1, (hj j e).2]

theorem exec_append (p : Prog α) : ∀ (a b : List MAct) (s : Sys α), exec p s (a ++ b) = (exec p s a).bind fun s' => exec p s' b
  | [], b, s => rfl
  | x :: a, b, s => by
    simp only [List.cons_append, exec]
    cases step p s x with
    | none => rfl
    | some s' => exact exec_append p a b s'

theorem inv_exec {p : Prog α} : ∀ {acts : List MAct} {s s' : Sys α}, Inv p s →
    exec p s acts = some s' → Inv p s'
  | [], s, s', h, he => by simp only [exec] at he; injection he with he; subst he; exact h
  | a :: l, s, s', h, he => by
    simp only [exec] at he
    cases hs : step p s a with
    | none => rw [hs] at he; simp at he
    | some s1 => rw [hs] at he; exact inv_exec (inv_step h hs) he

theorem inv_reach {p : Prog α} {s : Sys α} (h : Reach p s) : Inv p s := by
  obtain ⟨acts, h⟩ := h
  exact inv_exec (inv_start p) h

/-- Beside an execution runs one in which every call takes effect at once. -/
theorem back_exec {p : Prog α} : ∀ {acts : List MAct} {s s' : Sys α}, Inv p s → exec p s acts = some s' →
    ∃ A : Nat → ASys α, (∀ j, j < acts.length → A (j + 1) = A j ∨ AStep p (A j) (A (j + 1))) ∧ A acts.length = abs p s' ∧
      ∀ j, j ≤ acts.length → ∃ t ov, exec p s (acts.take j) = some t ∧ Ok p t ov ∧ A j = absO p t ov
  | [], s, s', _, he => by
    simp only [exec] at he; injection he with he; subst he
    refine ⟨fun _ => abs p s, fun j hj => by simp at hj, rfl, fun j _ => ⟨s, fun _ => false, by simp [exec], ?_, (absO_false p s).symm⟩⟩
    intro i hi; cases hi
  | a :: l, s, s', h, he => by
    simp only [exec] at he
    cases hs : step p s a with
    | none => rw [hs] at he; simp at he
    | some s1 =>
      rw [hs] at he
      obtain ⟨A, h1, h2, h3⟩ := back_exec (inv_step h hs) he
      obtain ⟨t, ov1, e, ho, hA⟩ := h3 0 (by omega)
      simp only [List.take_zero, exec] at e; injection e with e; subst e
      obtain ⟨ov, ho', hst⟩ := back_step h hs ho
      refine ⟨fun j => match j with | 0 => absO p s ov | j + 1 => A j, ?_, h2, ?_⟩
      · intro j hj
        cases j with
        | zero => simp only [hA]; exact hst
        | succ j => simp at hj; exact h1 j hj
      · intro j hj
        cases j with
        | zero => exact ⟨s, ov, by simp [exec], ho', rfl⟩
        | succ j =>
          simp at hj
          obtain ⟨t, ov, e, h4, h5⟩ := h3 j hj
          exact ⟨t, ov, by simp [exec, hs, e], h4, h5⟩

end Verif.Multi
