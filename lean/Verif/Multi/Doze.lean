import Verif.Multi.Solo

/-! Executions that cannot go on, on the detailed channels and with calls that take effect at once. -/
namespace Verif.Multi

open Verif.Channel

variable {α : Type}

/-- No call can take effect any more (specification of channel.hpp:58-212). -/
def AStuck (p : Prog α) (A : ASys α) : Prop := ∀ B, ¬ AStep p A B

theorem stuck_quiescent {p : Prog α} {s : Sys α} (h : Inv p s) (hs : Stuck p s) (k : Nat) : Quiescent (p.cfg k) (s.chan k) := by
  intro t w
  cases hp : (s.chan k).pcs[t]? with
  | none => simp [next, hp]
  | some pc =>
    have hlt : t < p.n := by rw [← reachable_length (h.reach k)]; exact lt_of_getElem? hp
    by_cases hin : (s.thr t).inside = true ∧ ∃ op, p.code t (s.thr t).res = some (k, op)
    · obtain ⟨hin, op, hcode⟩ := hin
      have := (hs t w).2
      simp only [step, Sys.run, hin, hcode, Option.map_eq_none_iff] at this
      exact this
    · have := h.idle k t hlt (fun h1 op h2 => hin ⟨h1, op, h2⟩)
      simp [next, this, stepAt]

theorem stuck_thread {p : Prog α} (hm : ∀ k, (p.cfg k).moveThrow = false) (hc : ∀ k, (p.cfg k).ctorThrow = false) {s : Sys α}
    (h : Inv p s) (hs : Stuck p s) (i : Nat) : pend p s i = [] ∧ (i < p.n → ∀ k op, p.code i (s.thr i).res = some (k, op) →
      would (p.cfg k).cap (s.chan k).q (s.chan k).closed op = none) := by
  cases hin : (s.thr i).inside with
  | true =>
    obtain ⟨k, op, pc, r, h1, h2, h3⟩ := h.here i hin
    have hq := stuck_quiescent h hs k
    rcases quiescent_pc (lockInv_reach (h.reach k)) hq h2 with rfl | rfl | ⟨v, rfl⟩
    · simp [ph] at h3
    · simp only [ph, Option.some.injEq, Prod.mk.injEq] at h3
      obtain ⟨rfl, rfl⟩ := h3
      obtain ⟨e1, e2⟩ := quiescent_consumer (hm k) (h.reach k) hq h2
      refine ⟨by simp [pend, hin, h1, h2, ph, pendR], fun _ k' op' e => ?_⟩
      rw [h1] at e; injection e with e; injection e with e e'; subst e; subst e'
      simp [would, e1, e2]
    · simp only [ph, Option.some.injEq, Prod.mk.injEq] at h3
      obtain ⟨rfl, rfl⟩ := h3
      obtain ⟨e1, e2⟩ := quiescent_producer (hc k) (h.reach k) hq h2
      refine ⟨by simp [pend, hin, h1, h2, ph, pendR], fun _ k' op' e => ?_⟩
      rw [h1] at e; injection e with e; injection e with e e'; subst e; subst e'
      simp [would, e2, Nat.not_lt.2 e1]
  | false =>
    refine ⟨by simp [pend, hin], fun hi k op hcode => ?_⟩
    have := (hs i none).1
    have hid := h.idle k i hi (by rw [hin]; simp)
    simp [step, Sys.begin, hin, hcode, next, hid] at this

theorem stuck_abs {p : Prog α} (hm : ∀ k, (p.cfg k).moveThrow = false) (hc : ∀ k, (p.cfg k).ctorThrow = false) {s : Sys α}
    (h : Inv p s) (hs : Stuck p s) : (∀ i, (abs p s).res i = (s.thr i).res) ∧ AStuck p (abs p s) := by
  have hr : ∀ i, (abs p s).res i = (s.thr i).res := fun i => by simp [abs, (stuck_thread hm hc h hs i).1]
  refine ⟨hr, fun B hB => ?_⟩
  cases hB with
  | @call i k op r q' c' hi hcode he =>
    rw [hr] at hcode
    have := (stuck_thread hm hc h hs i).2 hi k op hcode
    rcases he with he | ⟨ht, _⟩ | ⟨ht, _⟩
    · simp only [abs] at he; rw [this] at he; cases he
    · rw [hc k] at ht; cases ht
    · rw [hm k] at ht; cases ht

/-! ### The converse: all threads go to sleep -/

/-- Where thread `i` sleeps in channel `k`, if it is one of the first `m` (channel.hpp:92,181). -/
def place (p : Prog α) (A : ASys α) (m k i : Nat) : PC α :=
  if i < m then match p.code i (A.res i) with
    | some (k', .push v) => if k' = k then .eSleep v else .idle
    | some (k', .pop) => if k' = k then .pSleep else .idle
    | _ => .idle
  else .idle

/-- The first `m` threads are asleep (channel.hpp:92,181), or have nothing left to do. -/
structure Doze (p : Prog α) (A : ASys α) (m : Nat) (s : Sys α) : Prop where
  reach : Reach p s
  chan : ∀ k, ∃ h, s.chan k = ⟨A.q k, A.closed k, none, (List.range p.n).map (place p A m k), h⟩
  thr : ∀ i, s.thr i = ⟨A.res i, decide (i < m) && (p.code i (A.res i)).isSome⟩

theorem blocked {p : Prog α} {A : ASys α} (hs : AStuck p A) {i k : Nat} {op : Op α} (hi : i < p.n)
    (hcode : p.code i (A.res i) = some (k, op)) :
    (op = .pop ∧ A.q k = [] ∧ A.closed k = false) ∨ ∃ v, op = .push v ∧ A.closed k = false ∧ (p.cfg k).cap ≤ (A.q k).length := by
  have hw : would (p.cfg k).cap (A.q k) (A.closed k) op = none := by
    cases hw : would (p.cfg k).cap (A.q k) (A.closed k) op with
    | none => rfl
    | some x => obtain ⟨r, q', c'⟩ := x; exact absurd (AStep.call hi hcode (.inl hw)) (hs _)
  cases op with
  | push v =>
    right
    simp only [would] at hw
    split at hw <;> [cases hw; skip]
    split at hw <;> [cases hw; skip]
    rename_i h1 h2
    exact ⟨v, rfl, by simpa using h1, by omega⟩
  | tryPush v => simp only [would] at hw; split at hw <;> cases hw
  | pop =>
    left
    cases hq : A.q k with
    | cons x q => simp [would, hq] at hw
    | nil => simp [would, hq] at hw; exact ⟨rfl, rfl, hw⟩
  | tryPop => cases hq : A.q k <;> simp [would, hq] at hw
  | close => simp [would] at hw
  | isClosed => simp [would] at hw

theorem reach_run {p : Prog α} {s : Sys α} {i k : Nat} {op : Op α} {R : List (Res α)} {c c' : St α} {pc : PC α} (hr : Reach p s)
    (ht : s.thr i = ⟨R, true⟩) (hcode : p.code i R = some (k, op)) (hc : s.chan k = c) (hp : c.pcs[i]? = some pc)
    (hnd : ∀ op r, pc ≠ .done op r) (hst : stepAt (p.cfg k) c i none pc = some c') : Reach p { s with chan := set s.chan k c' } := by
  refine reach_step (a := .run i none) hr ?_
  simp only [step, Sys.run, ht, hcode, hc, hp, next, hst, Option.map_some]
  split
  · rename_i op r e; injection e with e; exact absurd e (hnd op r)
  · rfl

theorem set_set {γ : Type} (f : Nat → γ) (i : Nat) (x y : γ) : set (set f i x) i y = set f i y := by
  funext j; by_cases h : j = i <;> simp [set, h]

theorem doze_step {p : Prog α} {A : ASys α} (hs : AStuck p A) {m : Nat} (hmn : m < p.n) {s : Sys α} (hd : Doze p A m s) :
    ∃ s', Doze p A (m + 1) s' := by
  have hplace : ∀ k i, i ≠ m → place p A (m + 1) k i = place p A m k i := by
    intro k i hi; unfold place
    by_cases h : i < m
    · rw [if_pos h, if_pos (by omega)]
    · rw [if_neg h, if_neg (by omega)]
  have hthr : ∀ i, i ≠ m → (decide (i < m + 1) && (p.code i (A.res i)).isSome) = (decide (i < m) && (p.code i (A.res i)).isSome) := by
    intro i hi
    have : decide (i < m + 1) = decide (i < m) := by
      by_cases h : i < m
      · simp [h, show i < m + 1 by omega]
      · simp [h, show ¬ i < m + 1 by omega]
    rw [this]
  cases hcode : p.code m (A.res m) with
  | none =>
    refine ⟨s, hd.reach, fun k => ?_, fun i => ?_⟩
    · obtain ⟨h, hch⟩ := hd.chan k
      refine ⟨h, hch.trans ?_⟩
      congr 1
      refine List.map_congr_left (fun i _ => ?_)
      by_cases hi : i = m
      · subst hi; simp [place, hcode]
      · exact (hplace k i hi).symm
    · rw [hd.thr i]
      by_cases hi : i = m
      · subst hi; simp [hcode]
      · rw [hthr i hi]
  | some ko =>
    obtain ⟨k, op⟩ := ko
    obtain ⟨h, hch⟩ := hd.chan k
    have ht : s.thr m = ⟨A.res m, false⟩ := by rw [hd.thr m]; simp
    generalize hpcs : (List.range p.n).map (place p A m k) = pcs at hch
    have hlen : m < pcs.length := by rw [← hpcs]; simpa using hmn
    have hidle : pcs[m]? = some .idle := by
      rw [← hpcs]; simp [hmn, place]
    have hget : ∀ pc : PC α, (pcs.set m pc)[m]? = some pc := fun pc => by simp [hlen]
    have hn : next (p.cfg k) (s.chan k) (.call m op) =
        some ⟨A.q k, A.closed k, none, pcs.set m (entry op), h ++ [.call m op]⟩ := by
      rw [hch]; simp [next, hidle, St.goto, St.log]
    have r1 : Reach p ⟨set s.chan k ⟨A.q k, A.closed k, none, pcs.set m (entry op), h ++ [.call m op]⟩,
        set s.thr m ⟨A.res m, true⟩⟩ := by
      refine reach_step (a := .begin m) hd.reach ?_
      simp only [step, Sys.begin, ht, hcode, hn, Option.map_some]
    have fin : ∀ sl : PC α, place p A (m + 1) k m = sl → (∀ k', k' ≠ k → place p A (m + 1) k' m = .idle) →
        Reach p ⟨set s.chan k ⟨A.q k, A.closed k, none, pcs.set m sl, h ++ [.call m op]⟩, set s.thr m ⟨A.res m, true⟩⟩ →
        ∃ s', Doze p A (m + 1) s' := by
      intro sl hsl hsl' hr
      have hmap : ∀ k', (List.range p.n).map (place p A (m + 1) k') = ((List.range p.n).map (place p A m k')).set m (place p A (m + 1) k' m) := by
        intro k'
        apply List.ext_getElem?
        intro j
        rw [List.getElem?_set]
        by_cases e : m = j
        · subst e; simp [hmn]
        · simp only [if_neg e, List.getElem?_map]
          by_cases hj : j < p.n
          · simp [List.getElem?_range hj, hplace k' j (Ne.symm e)]
          · simp [List.getElem?_eq_none (l := List.range p.n) (by simpa using hj)]
      refine ⟨_, hr, fun k' => ?_, fun i => ?_⟩
      · by_cases e : k' = k
        · subst e
          refine ⟨h ++ [.call m op], ?_⟩
          simp only [set_self]
          rw [hmap, hpcs, hsl]
        · obtain ⟨h', hch'⟩ := hd.chan k'
          refine ⟨h', ?_⟩
          simp only [set_other _ _ e]
          rw [hch', hmap, hsl' k' e]
          congr 1
          apply List.ext_getElem?
          intro j
          rw [List.getElem?_set]
          split
          · rename_i e; subst e; simp [hmn, place]
          · rfl
      · by_cases e : i = m
        · subst e; simp only [set_self, hcode]; simp
        · simp only [set_other _ _ e]; rw [hd.thr i, hthr i e]
    rcases blocked hs hmn hcode with ⟨rfl, hq, hcl⟩ | ⟨v, rfl, hcl, hcap⟩
    · refine fin .pSleep (by simp [place, hcode]) (fun k' e => by simp [place, hcode, Ne.symm e]) ?_
      have r2 := reach_run (c' := ⟨A.q k, A.closed k, some m, pcs.set m .pCheck, h ++ [.call m .pop]⟩) r1 (set_self ..) hcode
        (set_self ..) (hget _) (by simp [entry]) (by simp [entry, stepAt, acquire, St.goto])
      have r3 := reach_run (c' := ⟨A.q k, A.closed k, none, pcs.set m .pSleep, h ++ [.call m .pop]⟩) r2 (set_self ..) hcode
        (set_self ..) (hget _) (by simp) (by simp [stepAt, release, St.goto, hq, hcl])
      simpa only [set_set] using r3
    · refine fin (.eSleep v) (by simp [place, hcode]) (fun k' e => by simp [place, hcode, Ne.symm e]) ?_
      have r2 := reach_run (c' := ⟨A.q k, A.closed k, none, pcs.set m (.eLock v), h ++ [.call m (.push v)]⟩) r1 (set_self ..) hcode
        (set_self ..) (hget _) (by simp [entry]) (by simp [entry, stepAt, St.goto, hcl])
      have r3 := reach_run (c' := ⟨A.q k, A.closed k, some m, pcs.set m (.eCheck v), h ++ [.call m (.push v)]⟩) r2 (set_self ..) hcode
        (set_self ..) (hget _) (by simp) (by simp [stepAt, acquire, St.goto])
      have r4 := reach_run (c' := ⟨A.q k, A.closed k, none, pcs.set m (.eSleep v), h ++ [.call m (.push v)]⟩) r3 (set_self ..) hcode
        (set_self ..) (hget _) (by simp) (by simp [stepAt, release, St.goto, Nat.not_lt.2 hcap, hcl])
      simpa only [set_set] using r4

theorem doze_all {p : Prog α} {A : ASys α} (ha : AReach p A) (hs : AStuck p A) : ∀ m, m ≤ p.n → ∃ s, Doze p A m s
  | 0, _ => by
    obtain ⟨s, hc⟩ := calm_reach ha
    refine ⟨s, hc.reach, fun k => ?_, fun i => by rw [hc.thr i]; simp⟩
    obtain ⟨h, hch⟩ := hc.chan k
    refine ⟨h, hch.trans ?_⟩
    congr 1
    apply List.ext_getElem?
    intro j
    by_cases hj : j < p.n <;> simp [hj, place]
  | m + 1, hm => by
    obtain ⟨s, hd⟩ := doze_all ha hs m (by omega)
    exact doze_step hs (by omega) hd

theorem doze_stuck {p : Prog α} {A : ASys α} {s : Sys α} (hd : Doze p A p.n s) : Stuck p s := by
  intro i w
  have ht := hd.thr i
  cases hcode : p.code i (A.res i) with
  | none => rw [hcode] at ht; simp at ht; simp [step, Sys.begin, Sys.run, ht, hcode]
  | some ko =>
    obtain ⟨k, op⟩ := ko
    obtain ⟨h, hch⟩ := hd.chan k
    rw [hcode] at ht; simp at ht
    by_cases hi : i < p.n
    · simp [hi] at ht
      refine ⟨by simp [step, Sys.begin, ht], ?_⟩
      simp only [step, Sys.run, ht, hcode, hch]
      have : ((List.range p.n).map (place p A p.n k))[i]? = some (place p A p.n k i) := by simp [hi]
      simp only [next, this, place, hi, if_true, hcode]
      cases op <;> simp [stepAt]
    · simp [hi] at ht
      refine ⟨?_, by simp [step, Sys.run, ht]⟩
      have : ((List.range p.n).map (place p A p.n k))[i]? = none := by simp; omega
      simp [step, Sys.begin, ht, hcode, hch, next, this]

end Verif.Multi
