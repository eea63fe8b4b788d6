import Verif.Net.Abstract
import Verif.Pipeline.Inside
import Verif.Channel.Props

/-! Networks on the detailed channels: every step is a call that takes effect, or nothing that matters. -/
namespace Verif.Net

open Verif.Channel
open Verif.Pipeline (upd cls Cls Moved moved_next next_ne_idle_cls reach_next Trans)

variable {α : Type}

/-- The result that a call will have, once it has had its effect (channel.hpp:58-194). -/
def pending : Cls α → List (Res α)
  | .pushed _ => [.bool true]
  | .refused _ => [.bool false]
  | .shut => [.unit]
  | .took x => [.val (some x)]
  | .ended => [.val none]
  | _ => []

/-- Where thread `i` is (channel.hpp:58-194). -/
def Sys.here (p : Plan α) (s : Sys α) (i : Nat) : Option (Nat × Nat × Op α) :=
  if (s.thr i).inside then p.callOf i (p.prog i (s.thr i).res) else none

/-- The pending result there (channel.hpp:58-194). -/
def pend (s : Sys α) : Option (Nat × Nat × Op α) → List (Res α)
  | some (k, t, _) => match ((s.chan k).pcs[t]?).map cls with
    | some c => pending c
    | none => []
  | none => []

/-- The results of thread `i`, with that of a call that has had its effect (channel.hpp:58-194). -/
def eff (p : Plan α) (s : Sys α) (i : Nat) : List (Res α) := (s.thr i).res ++ pend s (s.here p i)

/-- The position fits the call (channel.hpp:58-194). -/
def OpOk (op : Op α) (c : Cls α) : Prop :=
  match op with
  | .push y => c = .pushing y ∨ c = .pushed y ∨ c = .refused y
  | .close => c = .closing ∨ c = .shut
  | .pop => c = .popping ∨ (∃ x, c = .took x) ∨ c = .ended
  | _ => False

/-- Invariant: the channels and where the threads are in them agree with the results so far (about the model of channel.hpp:58-212). -/
structure Inv (p : Plan α) (s : Sys α) : Prop where
  reach : ∀ k, Reachable (p.cfg k) 2 (s.chan k)
  here : ∀ i k t op, s.here p i = some (k, t, op) → ∃ pc, (s.chan k).pcs[t]? = some pc ∧ OpOk op (cls pc)
  idle : ∀ k t, t < 2 → (∀ i op, s.here p i ≠ some (k, t, op)) → (s.chan k).pcs[t]? = some .idle
  flow : ∀ k, sent p (eff p s) k = got p (eff p s) k ++ (s.chan k).q
  closed : ∀ k, (s.chan k).closed = true ↔ shut p (eff p s) k ≠ []
  areach : AReach p (eff p s)

theorem callOf_some {p : Plan α} {i : Nat} {q : Req α} {k t : Nat} {op : Op α} (h : p.callOf i q = some (k, t, op)) :
    t = p.side i k ∧ ((op = .pop ∧ q = .pop k) ∨ (∃ x, op = .push x ∧ q = .push k x) ∨ (op = .close ∧ q = .close k)) := by
  cases q <;> simp [Plan.callOf] at h <;> obtain ⟨rfl, rfl, rfl⟩ := h <;> simp

theorem side_lt (p : Plan α) (i k : Nat) : p.side i k < 2 := by unfold Plan.side; split <;> omega

/-- Two threads are not on the same side of a channel. -/
theorem sides {p : Plan α} (ho : p.Owned) {s : Sys α} {i j k t : Nat} {op op' : Op α} (h1 : s.here p i = some (k, t, op))
    (h2 : s.here p j = some (k, t, op')) : i = j := by
  have key : ∀ i op, s.here p i = some (k, t, op) → t = p.side i k ∧ (i = p.prod k ∨ i = p.cons k) := by
    intro i op h
    unfold Sys.here at h
    split at h <;> [skip; simp at h]
    obtain ⟨ht, h⟩ := callOf_some h
    have hw := ho i (s.thr i).res
    refine ⟨ht, ?_⟩
    rcases h with ⟨-, h⟩ | ⟨x, -, h⟩ | ⟨-, h⟩
    · exact .inr (hw.1 k h).symm
    · exact .inl (hw.2.1 k x h).symm
    · exact .inl (hw.2.2 k h).symm
  obtain ⟨a1, b1⟩ := key i _ h1
  obtain ⟨a2, b2⟩ := key j _ h2
  unfold Plan.side at a1 a2
  by_cases e1 : i = p.prod k <;> by_cases e2 : j = p.prod k <;> simp [e1, e2] at a1 a2 <;> [omega; omega; omega; skip]
  rcases b1 with b1 | b1 <;> rcases b2 with b2 | b2 <;> omega

theorem here_other {p : Plan α} {s s' : Sys α} {i : Nat} (h : s'.thr i = s.thr i) : s'.here p i = s.here p i := by
  unfold Sys.here; rw [h]

theorem inv_start (p : Plan α) : Inv p (start α) where
  reach k := ⟨[], rfl⟩
  here i k t op h := by simp [Sys.here, start] at h
  idle k t ht _ := by
    match t, ht with
    | 0, _ => rfl
    | 1, _ => rfl
  flow k := by simp [start, eff, Sys.here, pend, sent, got, collect, init]
  closed k := by simp [start, eff, Sys.here, pend, shut, collect, init]
  areach := by
    have : eff p (start α) = fun _ => [] := by funext i; simp [start, eff, Sys.here, pend]
    rw [this]; exact .start

/-- What the other threads see of an action of thread `i` in channel `k`. -/
theorem other_same {p : Plan α} (ho : p.Owned) {s s' : Sys α} {i k t : Nat} {c : St α}
    (hcall : ∃ op, p.callOf i (p.prog i (s.thr i).res) = some (k, t, op))
    (hc : s'.chan = upd s.chan k c) (ht : ∀ j, j ≠ i → s'.thr j = s.thr j)
    (hm : ∀ t', t' ≠ t → (c.pcs[t']?).map cls = ((s.chan k).pcs[t']?).map cls) :
    ∀ j, j ≠ i → ∀ k' t' op', s'.here p j = some (k', t', op') →
      ((s'.chan k').pcs[t']?).map cls = ((s.chan k').pcs[t']?).map cls := by
  intro j hj k' t' op' h
  rw [hc]
  by_cases e : k' = k
  · subst e
    rw [upd_self]
    apply hm
    rintro rfl
    rw [here_other (ht j hj)] at h
    obtain ⟨op, hcall⟩ := hcall
    -- pretend that thread i is inside
    let s2 : Sys α := ⟨s.chan, upd s.thr i ⟨(s.thr i).res, true⟩⟩
    have h1 : s2.here p i = some (k', t', op) := by simp [Sys.here, s2, upd_self, hcall]
    have h2 : s2.here p j = some (k', t', op') := by
      rw [← h]; exact here_other (upd_other _ _ hj)
    exact hj (sides ho h2 h1)
  · rw [upd_other _ _ e]

theorem eff_other {p : Plan α} {s s' : Sys α} {j : Nat} (ht : s'.thr j = s.thr j)
    (h : ∀ k' t' op', s'.here p j = some (k', t', op') →
      ((s'.chan k').pcs[t']?).map cls = ((s.chan k').pcs[t']?).map cls) : eff p s' j = eff p s j := by
  have hh := here_other (p := p) ht
  unfold eff
  rw [ht, ← hh]
  cases hs : s'.here p j with
  | none => rfl
  | some v =>
    obtain ⟨k', t', op'⟩ := v
    simp only [pend, h k' t' op' hs]

theorem pc_of_map {c c' : St α} {t : Nat} {pc : PC α} (h : (c'.pcs[t]?).map cls = (c.pcs[t]?).map cls) (hp : c.pcs[t]? = some pc) :
    ∃ pc', c'.pcs[t]? = some pc' ∧ cls pc' = cls pc := by
  rw [hp] at h
  cases h' : c'.pcs[t]? with
  | none => rw [h'] at h; simp at h
  | some pc' => rw [h'] at h; exact ⟨pc', rfl, by simpa using h⟩

theorem opOk_trans {q q' : List α} {b b' : Bool} {k k' : Cls α} {op : Op α} (h : Trans q b k q' b' k') (hok : OpOk op k) :
    OpOk op k' := by
  cases op <;> cases h <;> simp_all [OpOk]

/-- The parts about the positions. -/
theorem positions {p : Plan α} (ho : p.Owned) {s s' : Sys α} (h : Inv p s) {i k t : Nat} {c : St α} {op : Op α}
    (hcall : p.callOf i (p.prog i (s.thr i).res) = some (k, t, op))
    (hc : s'.chan = upd s.chan k c) (ht : ∀ j, j ≠ i → s'.thr j = s.thr j)
    (hm : ∀ t', t' ≠ t → (c.pcs[t']?).map cls = ((s.chan k).pcs[t']?).map cls)
    (hr : Reachable (p.cfg k) 2 c)
    (hold : s.here p i = none ∨ s.here p i = some (k, t, op))
    (hnew : (s'.here p i = none ∧ c.pcs[t]? = some .idle) ∨
      (s'.here p i = some (k, t, op) ∧ ∃ pc, c.pcs[t]? = some pc ∧ OpOk op (cls pc))) :
    (∀ k, Reachable (p.cfg k) 2 (s'.chan k)) ∧
    (∀ i k t op, s'.here p i = some (k, t, op) → ∃ pc, (s'.chan k).pcs[t]? = some pc ∧ OpOk op (cls pc)) ∧
    (∀ k t, t < 2 → (∀ i op, s'.here p i ≠ some (k, t, op)) → (s'.chan k).pcs[t]? = some .idle) := by
  have hoth := other_same ho ⟨op, hcall⟩ hc ht hm
  refine ⟨?_, ?_, ?_⟩
  · intro k'
    rw [hc]
    by_cases e : k' = k
    · subst e; rw [upd_self]; exact hr
    · rw [upd_other _ _ e]; exact h.reach k'
  · intro j k' t' op' hj
    by_cases e : j = i
    · subst e
      rcases hnew with ⟨hn, -⟩ | ⟨hn, hp⟩
      · rw [hn] at hj; simp at hj
      · rw [hn] at hj; simp at hj
        obtain ⟨rfl, rfl, rfl⟩ := hj
        rw [hc, upd_self]; exact hp
    · have h1 := hj
      rw [here_other (ht j e)] at h1
      obtain ⟨pc, hp, hok⟩ := h.here j k' t' op' h1
      obtain ⟨pc', hp', e'⟩ := pc_of_map (hoth j e k' t' op' hj) hp
      exact ⟨pc', hp', by rw [e']; exact hok⟩
  · intro k' t' hlt hno
    by_cases e : k' = k ∧ t' = t
    · obtain ⟨rfl, rfl⟩ := e
      rcases hnew with ⟨-, hi⟩ | ⟨hn, -⟩
      · rw [hc, upd_self]; exact hi
      · exact absurd hn (hno i op)
    · have hid := h.idle k' t' hlt (by
        intro j op' hj
        by_cases e2 : j = i
        · subst e2
          rcases hold with ho | ho <;> rw [ho] at hj <;> simp at hj
          exact e ⟨hj.1.symm, hj.2.1.symm⟩
        · exact hno j op' (by rw [here_other (ht j e2)]; exact hj))
      rw [hc]
      by_cases e1 : k' = k
      · subst e1
        rw [upd_self]
        obtain ⟨pc', hp', e'⟩ := pc_of_map (hm t' (fun x => e ⟨rfl, x⟩)) hid
        rw [hp', next_ne_idle_cls (e'.trans rfl)]
      · rw [upd_other _ _ e1]; exact hid

theorem inv_begin {p : Plan α} (ho : p.Owned) {s s' : Sys α} {i : Nat} (h : Inv p s) (hs : s.begin p i = some s') : Inv p s' := by
  unfold Sys.begin at hs
  split at hs <;> [skip; simp at hs]
  rename_i k t op hins hcall
  rw [Option.map_eq_some_iff] at hs
  obtain ⟨c, hn, rfl⟩ := hs
  have hr := reach_next (h.reach k) hn
  simp only [next] at hn
  split at hn <;> [skip; simp at hn]
  rename_i hidle
  injection hn with hn
  have hlt := lt_of_getElem? hidle
  have hq : c.q = (s.chan k).q := by rw [← hn]; rfl
  have hcl : c.closed = (s.chan k).closed := by rw [← hn]; rfl
  have hpcs : c.pcs = (s.chan k).pcs.set t (entry op) := by rw [← hn]; rfl
  have hm : ∀ t', t' ≠ t → (c.pcs[t']?).map cls = ((s.chan k).pcs[t']?).map cls := by
    intro t' e; rw [hpcs, List.getElem?_set_ne (Ne.symm e)]
  have hpt : c.pcs[t]? = some (entry op) := by rw [hpcs]; simp [hlt]
  have hold : s.here p i = none := by simp [Sys.here, hins]
  generalize hs' : (⟨upd s.chan k c, upd s.thr i ⟨(s.thr i).res, true⟩⟩ : Sys α) = s'
  have hthr : ∀ j, j ≠ i → s'.thr j = s.thr j := by intro j e; rw [← hs']; exact upd_other _ _ e
  have hchan : s'.chan = upd s.chan k c := by rw [← hs']
  have hti : s'.thr i = ⟨(s.thr i).res, true⟩ := by rw [← hs']; exact upd_self ..
  have hhere : s'.here p i = some (k, t, op) := by unfold Sys.here; rw [hti]; simpa using hcall
  have hop := (callOf_some hcall).2
  have hok : OpOk op (cls (entry op)) := by
    rcases hop with ⟨rfl, -⟩ | ⟨x, rfl, -⟩ | ⟨rfl, -⟩ <;> simp [OpOk, entry, cls]
  obtain ⟨P1, P2, P3⟩ := positions ho h hcall hchan hthr hm hr (.inl hold) (.inr ⟨hhere, _, hpt, hok⟩)
  have heff : eff p s' = eff p s := by
    funext j
    by_cases e : j = i
    · subst e
      unfold eff
      rw [hhere, hold, hti]
      simp only [pend, hchan, upd_self, hpt, Option.map_some]
      rcases hop with ⟨rfl, -⟩ | ⟨x, rfl, -⟩ | ⟨rfl, -⟩ <;> simp [entry, cls, pending]
    · exact eff_other (hthr j e) (other_same ho ⟨op, hcall⟩ hchan hthr hm j e)
  have hqs : ∀ k', (s'.chan k').q = (s.chan k').q ∧ (s'.chan k').closed = (s.chan k').closed := by
    intro k'; rw [hchan]
    by_cases e : k' = k
    · subst e; rw [upd_self]; exact ⟨hq, hcl⟩
    · rw [upd_other _ _ e]; exact ⟨rfl, rfl⟩
  exact ⟨P1, P2, P3, fun k' => by rw [heff, (hqs k').1]; exact h.flow k', fun k' => by rw [heff, (hqs k').2]; exact h.closed k',
    by rw [heff]; exact h.areach⟩

theorem inv_run {p : Plan α} (ho : p.Owned) {s s' : Sys α} {i : Nat} {a : Nat → Act α} (h : Inv p s)
    (ha : ∀ t, (∃ w, a t = .step t w) ∨ a t = .spurious t ∨ a t = .stale t) (hs : s.run p i a = some s') : Inv p s' := by
  unfold Sys.run at hs
  split at hs <;> [skip; simp at hs]
  rename_i k t op hins hcall
  rw [Option.map_eq_some_iff] at hs
  obtain ⟨c, hn, hs⟩ := hs
  have hr := reach_next (h.reach k) hn
  obtain ⟨pc, hpc, hmv⟩ := moved_next (lockBody_reach (h.reach k)).2 (ha t) hn
  have hold : s.here p i = some (k, t, op) := by unfold Sys.here; rw [hins]; simpa using hcall
  obtain ⟨pc1, hpc1, hok⟩ := h.here i k t op hold
  rw [hpc] at hpc1; injection hpc1 with e; subst e
  have hpend : eff p s i = (s.thr i).res ++ pending (cls pc) := by
    unfold eff; rw [hold]; simp only [pend, hpc, Option.map_some]
  have hop := (callOf_some hcall).2
  rw [hpc] at hs
  by_cases hd : ∃ op' r, pc = .done op' r
  · obtain ⟨op', r, rfl⟩ := hd
    obtain ⟨hi, hq, hcl⟩ := hmv.done op' r rfl
    simp only at hs
    have hthr : ∀ j, j ≠ i → s'.thr j = s.thr j := by intro j e; rw [← hs]; exact upd_other _ _ e
    have hchan : s'.chan = upd s.chan k c := by rw [← hs]
    have hti : s'.thr i = ⟨(s.thr i).res ++ [r], false⟩ := by rw [← hs]; exact upd_self ..
    have hhere : s'.here p i = none := by unfold Sys.here; rw [hti]; simp
    obtain ⟨P1, P2, P3⟩ := positions ho h hcall hchan hthr hmv.others hr (.inr hold) (.inl ⟨hhere, hi⟩)
    have hres : pending (cls (.done op' r)) = [r] := by
      obtain ⟨d1, d2, d3, d4, d5, d6, d7, d8⟩ := Verif.Pipeline.cls_done (op := op') (r := r) rfl
      rcases hop with ⟨rfl, -⟩ | ⟨x, rfl, -⟩ | ⟨rfl, -⟩
      · rcases hok with e | ⟨x, e⟩ | e
        · exact absurd e d7
        · rw [e, d3 x e]; rfl
        · rw [e, d4 e]; rfl
      · rcases hok with e | e | e
        · exact absurd e (d8 x)
        · rw [e, d1 x e]; rfl
        · rw [e, d2 x e]; rfl
      · rcases hok with e | e
        · exact absurd e d6
        · cases op' <;> rcases r with (_ | _) | (_ | _) | _ | _ <;> simp [cls] at e <;> rfl
    have heff : eff p s' = eff p s := by
      funext j
      by_cases e : j = i
      · subst e
        rw [hpend, hres]
        unfold eff; rw [hhere, hti]; simp [pend]
      · exact eff_other (hthr j e) (other_same ho ⟨op, hcall⟩ hchan hthr hmv.others j e)
    have hqs : ∀ k', (s'.chan k').q = (s.chan k').q ∧ (s'.chan k').closed = (s.chan k').closed := by
      intro k'; rw [hchan]
      by_cases e : k' = k
      · subst e; rw [upd_self]; exact ⟨hq, hcl⟩
      · rw [upd_other _ _ e]; exact ⟨rfl, rfl⟩
    exact ⟨P1, P2, P3, fun k' => by rw [heff, (hqs k').1]; exact h.flow k', fun k' => by rw [heff, (hqs k').2]; exact h.closed k',
      by rw [heff]; exact h.areach⟩
  · have hd' : ∀ op' r, pc ≠ .done op' r := fun op' r e => hd ⟨op', r, e⟩
    obtain ⟨pc', hpc', htr⟩ := hmv.go hd'
    have hs' : s' = { s with chan := upd s.chan k c } := by
      rw [← hs]; split
      · rename_i op' r e; injection e with e; exact absurd e (hd' op' r)
      · rfl
    have hthr : s'.thr = s.thr := by rw [hs']
    have hchan : s'.chan = upd s.chan k c := by rw [hs']
    have hhere : s'.here p i = some (k, t, op) := by rw [here_other (s := s) (s' := s') (by rw [hthr])]; exact hold
    have hok' : OpOk op (cls pc') := opOk_trans htr hok
    obtain ⟨P1, P2, P3⟩ := positions ho h hcall hchan (fun j _ => by rw [hthr]) hmv.others hr (.inr hold)
      (.inr ⟨hhere, pc', hpc', hok'⟩)
    have hpend' : eff p s' i = (s.thr i).res ++ pending (cls pc') := by
      unfold eff; rw [hhere, hthr]; simp only [pend, hchan, upd_self, hpc', Option.map_some]
    have hoth : ∀ j, j ≠ i → eff p s' j = eff p s j := fun j e =>
      eff_other (by rw [hthr]) (other_same ho ⟨op, hcall⟩ hchan (fun j _ => by rw [hthr]) hmv.others j e)
    have hother : ∀ k', k' ≠ k → s'.chan k' = s.chan k' := by intro k' e; rw [hchan, upd_other _ _ e]
    have hself : s'.chan k = c := by rw [hchan, upd_self]
    -- nothing happens
    have hsame : pending (cls pc') = pending (cls pc) → c.q = (s.chan k).q → c.closed = (s.chan k).closed → Inv p s' := by
      intro e hq hcl
      have heff : eff p s' = eff p s := by
        funext j
        by_cases ej : j = i
        · subst ej; rw [hpend, hpend', e]
        · exact hoth j ej
      have hqs : ∀ k', (s'.chan k').q = (s.chan k').q ∧ (s'.chan k').closed = (s.chan k').closed := by
        intro k'
        by_cases e : k' = k
        · subst e; rw [hself]; exact ⟨hq, hcl⟩
        · rw [hother k' e]; exact ⟨rfl, rfl⟩
      exact ⟨P1, P2, P3, fun k' => by rw [heff, (hqs k').1]; exact h.flow k', fun k' => by rw [heff, (hqs k').2]; exact h.closed k',
        by rw [heff]; exact h.areach⟩
    -- the call has its effect
    have hstep : ∀ r, pending (cls pc) = [] → pending (cls pc') = [r] → AStep p (eff p s) i r →
        (sent p (upd (eff p s) i (eff p s i ++ [r])) k = got p (upd (eff p s) i (eff p s i ++ [r])) k ++ c.q) →
        (c.closed = true ↔ shut p (upd (eff p s) i (eff p s i ++ [r])) k ≠ []) → Inv p s' := by
      intro r e0 e1 hast hfl hsh
      have hres : eff p s i = (s.thr i).res := by rw [hpend, e0]; simp
      have heff : eff p s' = upd (eff p s) i (eff p s i ++ [r]) := by
        funext j
        by_cases ej : j = i
        · subst ej; rw [upd_self, hpend', hres, e1]
        · rw [upd_other _ _ ej]; exact hoth j ej
      refine ⟨P1, P2, P3, ?_, ?_, by rw [heff]; exact .step h.areach hast⟩
      · intro k'
        rw [heff]
        by_cases e : k' = k
        · subst e; rw [hself]; exact hfl
        · rw [hother k' e, sent_upd, got_upd, h.flow k', hres]
          have z1 : oneSent (p.prog i) k' (s.thr i).res r = [] := by
            rcases hop with ⟨-, hq⟩ | ⟨x, -, hq⟩ | ⟨-, hq⟩ <;> simp only [oneSent, hq]
            cases r <;> try rfl
            rename_i b; cases b <;> simp [Ne.symm e]
          have z2 : oneGot (p.prog i) k' (s.thr i).res r = [] := by
            rcases hop with ⟨-, hq⟩ | ⟨x, -, hq⟩ | ⟨-, hq⟩ <;> simp only [oneGot, hq]
            cases r <;> try rfl
            rename_i b; cases b <;> simp [Ne.symm e]
          simp [z1, z2]
      · intro k'
        rw [heff]
        by_cases e : k' = k
        · subst e; rw [hself]; exact hsh
        · rw [hother k' e, shut_upd, h.closed k', hres]
          have z : oneShut (p.prog i) k' (s.thr i).res r = [] := by
            rcases hop with ⟨-, hq⟩ | ⟨x, -, hq⟩ | ⟨-, hq⟩ <;> simp [oneShut, hq, Ne.symm e]
          simp [z]
    have hown := ho i (s.thr i).res
    have hcap := (channel_capacity hr).1
    have hflow := h.flow k
    have hclosed := h.closed k
    have hcfg : (p.cfg k).cap = p.cap k := rfl
    have hres : pending (cls pc) = [] → eff p s i = (s.thr i).res := fun e => by rw [hpend, e]; simp
    generalize hk : cls pc = ck at *
    generalize hk' : cls pc' = ck' at *
    generalize hq0 : (s.chan k).q = q0 at *
    generalize hc0 : (s.chan k).closed = c0 at *
    generalize hq1 : c.q = q1 at *
    generalize hc1 : c.closed = c1 at *
    cases htr with
    | same => exact hsame rfl rfl rfl
    | @push y =>
      rcases hop with ⟨rfl, hq⟩ | ⟨x, rfl, hq⟩ | ⟨rfl, hq⟩
      · simp [OpOk] at hok
      · simp [OpOk] at hok; subst hok
        have hr := hres rfl
        have hk := hown.2.1 k _ hq
        have hno : shut p (eff p s) k = [] := by
          by_contra hne; simpa using hclosed.2 hne
        refine hstep (.bool true) rfl rfl (.inr (.inr (.inl ⟨k, _, by rw [hr]; exact hq, rfl, hno, ?_⟩))) ?_ ?_
        · rw [hflow]; simp at hcap ⊢; omega
        · rw [sent_upd, got_upd, hflow, hr]; simp [oneSent, oneGot, hq, hk]
        · rw [shut_upd, hno, hr]; simp [oneShut, hq]
      · simp [OpOk] at hok
    | @refuse y =>
      rcases hop with ⟨rfl, hq⟩ | ⟨x, rfl, hq⟩ | ⟨rfl, hq⟩
      · simp [OpOk] at hok
      · simp [OpOk] at hok; subst hok
        have hr := hres rfl
        refine hstep (.bool false) rfl rfl (.inr (.inr (.inr (.inl ⟨k, _, by rw [hr]; exact hq, rfl, hclosed.1 rfl⟩)))) ?_ ?_
        · rw [sent_upd, got_upd, hflow, hr]; simp [oneSent, oneGot, hq]
        · rw [shut_upd, hr]; simpa [oneShut, hq] using hclosed
      · simp [OpOk] at hok
    | @take x =>
      rcases hop with ⟨rfl, hq⟩ | ⟨x, rfl, hq⟩ | ⟨rfl, hq⟩
      · have hr := hres rfl
        have hk := hown.1 k hq
        refine hstep (.val (some x)) rfl rfl (.inl ⟨k, x, q1, by rw [hr]; exact hq, rfl, hflow⟩) ?_ ?_
        · rw [sent_upd, got_upd, hflow, hr]; simp [oneSent, oneGot, hq, hk]
        · rw [shut_upd, hr]; simpa [oneShut, hq] using hclosed
      · simp [OpOk] at hok
      · simp [OpOk] at hok
    | fin =>
      rcases hop with ⟨rfl, hq⟩ | ⟨x, rfl, hq⟩ | ⟨rfl, hq⟩
      · have hr := hres rfl
        refine hstep (.val none) rfl rfl (.inr (.inl ⟨k, by rw [hr]; exact hq, rfl, hclosed.1 rfl, by simpa using hflow⟩)) ?_ ?_
        · rw [sent_upd, got_upd, hflow, hr]; simp [oneSent, oneGot, hq]
        · rw [shut_upd, hr]; simpa [oneShut, hq] using hclosed
      · simp [OpOk] at hok
      · simp [OpOk] at hok
    | close =>
      rcases hop with ⟨rfl, hq⟩ | ⟨x, rfl, hq⟩ | ⟨rfl, hq⟩
      · simp [OpOk] at hok
      · simp [OpOk] at hok
      · have hr := hres rfl
        have hk := hown.2.2 k hq
        refine hstep .unit rfl rfl (.inr (.inr (.inr (.inr ⟨k, by rw [hr]; exact hq, rfl⟩)))) ?_ ?_
        · rw [sent_upd, got_upd, hflow, hr]; simp [oneSent, oneGot, hq]
        · rw [shut_upd, hr]; simp [oneShut, hq, hk]
    | oth =>
      rcases hop with ⟨rfl, hq⟩ | ⟨x, rfl, hq⟩ | ⟨rfl, hq⟩ <;> simp [OpOk] at hok

theorem inv_step {p : Plan α} (ho : p.Owned) {s s' : Sys α} {a : NAct} (h : Inv p s) (hs : step p s a = some s') : Inv p s' := by
  cases a with
  | begin i => exact inv_begin ho h hs
  | run i w => exact inv_run ho h (fun t => .inl ⟨w, rfl⟩) hs
  | spurious i => exact inv_run ho h (fun t => .inr (.inl rfl)) hs
  | stale i => exact inv_run ho h (fun t => .inr (.inr rfl)) hs

theorem inv_exec {p : Plan α} (ho : p.Owned) : ∀ (acts : List NAct) {s s' : Sys α}, Inv p s → exec p s acts = some s' → Inv p s'
  | [], s, s', h, hs => by simp [exec] at hs; subst hs; exact h
  | a :: l, s, s', h, hs => by
    simp only [exec, Option.bind_eq_some_iff] at hs
    obtain ⟨s1, h1, h2⟩ := hs
    exact inv_exec ho l (inv_step ho h h1) h2

theorem inv_reach {p : Plan α} (ho : p.Owned) {s : Sys α} (h : Reach p s) : Inv p s := by
  obtain ⟨acts, h⟩ := h
  exact inv_exec ho acts (inv_start p) h

/-- Nothing can go on, so no call could take effect, and none has one that has not returned. -/
theorem stuck_abstract {p : Plan α} (ho : p.Owned) {s : Sys α} (h : Inv p s) (hs : Stuck p s) :
    (∀ i, eff p s i = (s.thr i).res) ∧ ∀ i r, ¬ AStep p (eff p s) i r := by
  have hquiet : ∀ k, Quiescent (p.cfg k) (s.chan k) := by
    intro k t w
    by_cases hex : ∃ i op, s.here p i = some (k, t, op)
    · obtain ⟨i, op, hi⟩ := hex
      have h3 := (hs i w).2
      unfold Sys.here at hi
      split at hi <;> [skip; simp at hi]
      rename_i hin
      simp only [step, Sys.run, hin, hi, Option.map_eq_none_iff] at h3
      exact h3
    · by_cases hlt : t < 2
      · have := h.idle k t hlt (fun i op e => hex ⟨i, op, e⟩)
        simp [next, this, stepAt]
      · have hl : (s.chan k).pcs.length = 2 := by
          obtain ⟨acts, hr⟩ := h.reach k
          have := run_length hr
          simpa [init] using this
        have : (s.chan k).pcs[t]? = none := by simp; omega
        simp [next, this]
  -- what each thread is doing
  have hwhat : ∀ i, (s.here p i = none ∧ p.prog i (s.thr i).res = .stop) ∨
      (∃ k t, s.here p i = some (k, t, .pop) ∧ (s.chan k).pcs[t]? = some .pSleep) ∨
      (∃ k t x v, s.here p i = some (k, t, .push x) ∧ (s.chan k).pcs[t]? = some (.eSleep v)) := by
    intro i
    cases hi : s.here p i with
    | none =>
      left
      refine ⟨rfl, ?_⟩
      have h3 := (hs i none).1
      cases hin : (s.thr i).inside with
      | true =>
        simp only [Sys.here, hin] at hi
        cases hq : p.prog i (s.thr i).res <;> rw [hq] at hi <;> simp [Plan.callOf] at hi ⊢
      | false =>
        simp only [step, Sys.begin, hin] at h3
        cases hcall : p.callOf i (p.prog i (s.thr i).res) with
        | none => cases hq : p.prog i (s.thr i).res <;> rw [hq] at hcall <;> simp [Plan.callOf] at hcall ⊢
        | some v =>
          obtain ⟨k, t, op⟩ := v
          rw [hcall] at h3
          simp only [Option.map_eq_none_iff] at h3
          have ht : t < 2 := by rw [(callOf_some hcall).1]; exact side_lt ..
          have := h.idle k t ht (by
            intro j op' hj
            let s2 : Sys α := ⟨s.chan, upd s.thr i ⟨(s.thr i).res, true⟩⟩
            have h1 : s2.here p i = some (k, t, op) := by simp [Sys.here, s2, upd_self, hcall]
            by_cases e : j = i
            · subst e; rw [hi] at hj; simp at hj
            · have h2 : s2.here p j = some (k, t, op') := by
                rw [← hj]; exact here_other (upd_other _ _ e)
              exact e (sides ho h2 h1))
          simp [next, this] at h3
    | some v =>
      right
      obtain ⟨k, t, op⟩ := v
      obtain ⟨pc, hp, hok⟩ := h.here i k t op hi
      rcases quiescent_pc (lockInv_reach (h.reach k)) (hquiet k) hp with rfl | rfl | ⟨v, rfl⟩
      · cases op <;> simp [OpOk, cls] at hok
      · cases op <;> simp [OpOk, cls] at hok
        exact .inl ⟨k, t, rfl, hp⟩
      · cases op <;> simp [OpOk, cls] at hok
        exact .inr ⟨k, t, _, v, rfl, hp⟩
  have heff : ∀ i, eff p s i = (s.thr i).res := by
    intro i
    unfold eff
    rcases hwhat i with ⟨hi, -⟩ | ⟨k, t, hi, hp⟩ | ⟨k, t, x, v, hi, hp⟩ <;> rw [hi] <;> simp [pend, *, cls, pending]
  refine ⟨heff, ?_⟩
  intro i r hst
  have hprog : ∀ k t op, s.here p i = some (k, t, op) → p.callOf i (p.prog i (eff p s i)) = some (k, t, op) := by
    intro k t op hi
    rw [heff i]
    unfold Sys.here at hi
    split at hi <;> [exact hi; simp at hi]
  rcases hwhat i with ⟨-, hq⟩ | ⟨k, t, hi, hp⟩ | ⟨k, t, x, v, hi, hp⟩
  · rw [← heff i] at hq
    rcases hst with ⟨k', x', rest, hp, -⟩ | ⟨k', hp, -⟩ | ⟨k', x', hp, -⟩ | ⟨k', x', hp, -⟩ | ⟨k', hp, -⟩ <;> rw [hq] at hp <;> cases hp
  · obtain ⟨hq, hc⟩ := quiescent_consumer rfl (h.reach k) (hquiet k) hp
    have hreq := (callOf_some (hprog _ _ _ hi)).2
    simp at hreq
    have hfl := h.flow k
    rw [hq] at hfl; simp at hfl
    rcases hst with ⟨k', x', rest, hp, -, hh⟩ | ⟨k', hp, -, hh, -⟩ | ⟨k', x', hp, -⟩ | ⟨k', x', hp, -⟩ | ⟨k', hp, -⟩ <;>
      rw [hreq] at hp <;> cases hp
    · rw [hfl] at hh; simpa using congrArg List.length hh
    · have := (h.closed k).2 hh
      rw [hc] at this; simp at this
  · obtain ⟨hq, hc⟩ := quiescent_producer rfl (h.reach k) (hquiet k) hp
    have hreq := (callOf_some (hprog _ _ _ hi)).2
    simp at hreq
    have hfl := congrArg List.length (h.flow k)
    simp at hfl
    have hcap : (p.cfg k).cap = p.cap k := rfl
    rcases hst with ⟨k', x', rest, hp, -, hh⟩ | ⟨k', hp, -, hh, -⟩ | ⟨k', x', hp, -, -, hh⟩ | ⟨k', x', hp, -, hh⟩ | ⟨k', hp, -⟩ <;>
      rw [hreq] at hp <;> cases hp
    · omega
    · have := (h.closed k).2 hh
      rw [hc] at this; simp at this

end Verif.Net
