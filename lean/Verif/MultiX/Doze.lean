import Verif.MultiX.Solo

/-! Executions that cannot go on, on the detailed channels and with calls that take effect at once. -/
namespace Verif.MultiX

open Verif.Exchange
open Verif.Channel (Op Res Ev Act)
open Verif.Multi (Thr set MAct set_self set_other set_same)

variable {α : Type}

theorem stuck_quiescent {p : Prog α} {s : Sys α} (h : Inv p s) (hs : Stuck p s) (k : Nat) : Quiescent (p.cfg k) (s.chan k) := by
  intro t w
  cases hp : (s.chan k).pcs[t]? with
  | none => simp [next, hp]
  | some pc =>
    have hlt : t < p.n := by rw [← reachable_length (h.reach k)]; exact lt_of_get hp
    by_cases hin : (s.thr t).inside = true ∧ ∃ op, p.code t (s.thr t).res = some (k, op)
    · obtain ⟨hin, op, hcode⟩ := hin
      have := (hs t w).2
      simp only [step, Sys.run, hin, hcode, Option.map_eq_none_iff] at this
      exact this
    · have := h.idle k t hlt (fun h1 op h2 => hin ⟨h1, op, h2⟩)
      simp [next, this, stepAt]

/-! ### The converse: all threads go to sleep -/

/-- Where thread `i` sleeps in channel `k`, if it is one of the first `m` (exchange_channel.hpp:126). -/
def place (p : Prog α) (A : ASys α) (m k i : Nat) : PC α :=
  if i < m then match p.code i (A.res i) with
    | some (k', .pop) => if k' = k then .pSleep else .idle
    | _ => .idle
  else .idle

/-- Whether the next call is one that waits (exchange_channel.hpp:124). -/
def waits : Option (Nat × Op α) → Bool
  | some (_, .pop) => true
  | _ => false

/-- The first `m` threads are asleep (exchange_channel.hpp:126), or have nothing left to do. -/
structure Doze (p : Prog α) (A : ASys α) (m : Nat) (s : Sys α) : Prop where
  reach : Reach p s
  chan : ∀ k, ∃ h, s.chan k = ⟨A.slot k, A.closed k, none, (List.range p.n).map (place p A m k), h⟩
  thr : ∀ i, s.thr i = ⟨A.res i, decide (i < m) && waits (p.code i (A.res i))⟩

theorem blocked {p : Prog α} {A : ASys α} (hs : AStuck p A) {i k : Nat} {op : Op α} (hi : i < p.n)
    (hcode : p.code i (A.res i) = some (k, op)) :
    (op = .pop ∧ A.slot k = none ∧ A.closed k = false) ∨ ∃ v, op = .tryPush v := by
  have hw : would (A.slot k) (A.closed k) op = none := by
    cases hw : would (A.slot k) (A.closed k) op with
    | none => rfl
    | some x => obtain ⟨r, q', c'⟩ := x; exact absurd (AStep.call hi hcode (.inl hw)) (hs _)
  cases op with
  | push v => simp only [would] at hw; split at hw <;> cases hw
  | tryPush v => exact .inr ⟨v, rfl⟩
  | pop =>
    left
    cases hq : A.slot k with
    | some x => simp [would, hq] at hw
    | none => simp [would, hq] at hw; exact ⟨rfl, rfl, hw⟩
  | tryPop => simp [would] at hw
  | close => simp [would] at hw
  | isClosed => simp [would] at hw

theorem reach_run {p : Prog α} {s : Sys α} {i k : Nat} {op : Op α} {R : List (Res α)} {c c' : St α} {pc : PC α} (hr : Reach p s)
    (ht : s.thr i = ⟨R, true⟩) (hcode : p.code i R = some (k, op)) (hc : s.chan k = c) (hp : c.pcs[i]? = some pc)
    (hnd : ∀ op r, pc ≠ .done op r) (hst : stepAt c i none pc = some c') : Reach p { s with chan := set s.chan k c' } := by
  refine reach_step (a := .run i none) hr ?_
  simp only [step, Sys.run, ht, hcode, hc, hp, next, hst, Option.map_some]
  split
  · rename_i op r e; injection e with e; exact absurd e (hnd op r)
  · rfl

theorem set_set {γ : Type} (f : Nat → γ) (i : Nat) (x y : γ) : set (set f i x) i y = set f i y := by
  funext j; by_cases h : j = i <;> simp [Verif.Multi.set, h]

theorem doze_step {p : Prog α} {A : ASys α} (hs : AStuck p A) {m : Nat} (hmn : m < p.n) {s : Sys α} (hd : Doze p A m s) :
    ∃ s', Doze p A (m + 1) s' := by
  have hplace : ∀ k i, i ≠ m → place p A (m + 1) k i = place p A m k i := by
    intro k i hi; unfold place
    by_cases h : i < m
    · rw [if_pos h, if_pos (by omega)]
    · rw [if_neg h, if_neg (by omega)]
  have hthr : ∀ i, i ≠ m → (decide (i < m + 1) && waits (p.code i (A.res i))) = (decide (i < m) && waits (p.code i (A.res i))) := by
    intro i hi
    have : decide (i < m + 1) = decide (i < m) := by
      by_cases h : i < m
      · simp [h, show i < m + 1 by omega]
      · simp [h, show ¬ i < m + 1 by omega]
    rw [this]
  have stay : (∀ k, place p A (m + 1) k m = .idle) → waits (p.code m (A.res m)) = false → ∃ s', Doze p A (m + 1) s' := by
    intro h1 h2
    refine ⟨s, hd.reach, fun k => ?_, fun i => ?_⟩
    · obtain ⟨h, hch⟩ := hd.chan k
      refine ⟨h, hch.trans ?_⟩
      congr 1
      refine List.map_congr_left (fun i _ => ?_)
      by_cases hi : i = m
      · subst hi; rw [h1]; simp [place]
      · exact (hplace k i hi).symm
    · rw [hd.thr i]
      by_cases hi : i = m
      · subst hi; simp [h2]
      · rw [hthr i hi]
  cases hcode : p.code m (A.res m) with
  | none => exact stay (fun k => by simp [place, hcode]) (by simp [hcode, waits])
  | some ko =>
    obtain ⟨k, op⟩ := ko
    rcases blocked hs hmn hcode with ⟨rfl, hq, hcl⟩ | ⟨v, rfl⟩ <;>
      [skip; exact stay (fun k' => by simp [place, hcode]) (by simp [hcode, waits])]
    obtain ⟨h, hch⟩ := hd.chan k
    have ht : s.thr m = ⟨A.res m, false⟩ := by rw [hd.thr m]; simp
    generalize hpcs : (List.range p.n).map (place p A m k) = pcs at hch
    have hlen : m < pcs.length := by rw [← hpcs]; simpa using hmn
    have hidle : pcs[m]? = some .idle := by
      rw [← hpcs]; simp [hmn, place]
    have hget : ∀ pc : PC α, (pcs.set m pc)[m]? = some pc := fun pc => by simp [hlen]
    have hn : next (p.cfg k) (s.chan k) (.call m .pop) =
        some ⟨A.slot k, A.closed k, none, pcs.set m .pLock, h ++ [.call m .pop]⟩ := by
      rw [hch]; simp [next, hidle, entry, St.goto, St.log]
    have r1 : Reach p ⟨set s.chan k ⟨A.slot k, A.closed k, none, pcs.set m .pLock, h ++ [.call m .pop]⟩,
        set s.thr m ⟨A.res m, true⟩⟩ := by
      refine reach_step (a := .begin m) hd.reach ?_
      simp only [step, Sys.begin, ht, hcode, hn, Option.map_some]
    have fin : ∀ sl : PC α, place p A (m + 1) k m = sl → (∀ k', k' ≠ k → place p A (m + 1) k' m = .idle) →
        Reach p ⟨set s.chan k ⟨A.slot k, A.closed k, none, pcs.set m sl, h ++ [.call m .pop]⟩, set s.thr m ⟨A.res m, true⟩⟩ →
        ∃ s', Doze p A (m + 1) s' := by
      intro sl hsl hsl' hr
      have hmap : ∀ k', (List.range p.n).map (place p A (m + 1) k') = ((List.range p.n).map (place p A m k')).set m (place p A (m + 1) k' m) := by
        intro k'
        apply List.ext_getElem?
        intro j
        rw [List.getElem?_set]
        by_cases e : m = j
        · subst e; simp [hmn]
        · simp only [if_neg e, List.getElem?_map]
          by_cases hj : j < p.n
          · simp [List.getElem?_range hj, hplace k' j (Ne.symm e)]
          · simp [List.getElem?_eq_none (l := List.range p.n) (by simpa using hj)]
      refine ⟨_, hr, fun k' => ?_, fun i => ?_⟩
      · by_cases e : k' = k
        · subst e
          refine ⟨h ++ [.call m .pop], ?_⟩
          simp only [set_self]
          rw [hmap, hpcs, hsl]
        · obtain ⟨h', hch'⟩ := hd.chan k'
          refine ⟨h', ?_⟩
          simp only [set_other _ _ e]
          rw [hch', hmap, hsl' k' e]
          congr 1
          apply List.ext_getElem?
          intro j
          rw [List.getElem?_set]
          split
          · rename_i e; subst e; simp [hmn, place]
          · rfl
      · by_cases e : i = m
        · subst e; simp only [set_self, hcode]; simp [waits]
        · simp only [set_other _ _ e]; rw [hd.thr i, hthr i e]
    refine fin .pSleep (by simp [place, hcode]) (fun k' e => by simp [place, hcode, Ne.symm e]) ?_
    have r2 := reach_run (c' := ⟨A.slot k, A.closed k, some m, pcs.set m .pCheck, h ++ [.call m .pop]⟩) r1 (set_self ..) hcode
      (set_self ..) (hget _) (by simp) (by simp [stepAt, acquire, St.goto])
    have r3 := reach_run (c' := ⟨A.slot k, A.closed k, none, pcs.set m .pSleep, h ++ [.call m .pop]⟩) r2 (set_self ..) hcode
      (set_self ..) (hget _) (by simp) (by simp [stepAt, release, St.goto, hq, hcl])
    simpa only [set_set] using r3

theorem doze_all {p : Prog α} {A : ASys α} (ha : AReach p A) (hs : AStuck p A) : ∀ m, m ≤ p.n → ∃ s, Doze p A m s
  | 0, _ => by
    obtain ⟨s, hc⟩ := calm_reach ha
    refine ⟨s, hc.reach, fun k => ?_, fun i => by rw [hc.thr i]; simp⟩
    obtain ⟨h, hch⟩ := hc.chan k
    refine ⟨h, hch.trans ?_⟩
    congr 1
    apply List.ext_getElem?
    intro j
    by_cases hj : j < p.n <;> simp [hj, place]
  | m + 1, hm => by
    obtain ⟨s, hd⟩ := doze_all ha hs m (by omega)
    exact doze_step hs (by omega) hd

theorem doze_stuck {p : Prog α} {A : ASys α} (hs : AStuck p A) {s : Sys α} (hd : Doze p A p.n s) : Stuck p s := by
  intro i w
  have ht := hd.thr i
  cases hcode : p.code i (A.res i) with
  | none => rw [hcode] at ht; simp [waits] at ht; simp [step, Sys.begin, Sys.run, ht, hcode]
  | some ko =>
    obtain ⟨k, op⟩ := ko
    obtain ⟨h, hch⟩ := hd.chan k
    rw [hcode] at ht
    by_cases hi : i < p.n
    · have hg : ((List.range p.n).map (place p A p.n k))[i]? = some (place p A p.n k i) := by simp [hi]
      cases op with
      | pop =>
        simp [hi, waits] at ht
        refine ⟨by simp [step, Sys.begin, ht], ?_⟩
        simp only [step, Sys.run, ht, hcode, hch]
        simp only [next, hg, place, hi, if_true, hcode]
        simp [stepAt]
      | tryPush v =>
        simp [waits] at ht
        refine ⟨?_, by simp [step, Sys.run, ht]⟩
        simp [step, Sys.begin, ht, hcode, hch, next, place, hi, entry]
      | _ => rcases blocked hs hi hcode with ⟨e, -⟩ | ⟨v, e⟩ <;> cases e
    · simp [hi] at ht
      refine ⟨?_, by simp [step, Sys.run, ht]⟩
      have : ((List.range p.n).map (place p A p.n k))[i]? = none := by simp; omega
      simp [step, Sys.begin, ht, hcode, hch, next, this]

end Verif.MultiX
