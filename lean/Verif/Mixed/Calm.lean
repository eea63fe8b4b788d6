import Verif.Mixed.SoloC
import Verif.Mixed.SoloX

/-! Every execution with calls that take effect at once is an execution on the detailed objects: the calls one after the other. -/
namespace Verif.Mixed

open Verif.Channel (Op Res Act)
open Verif.Multi (Thr set MAct set_self set_other)

variable {α : Type} {p : Prog α}

/-- An object in which nobody is (states of channel.hpp:58-212, exchange_channel.hpp:53-149). -/
inductive IdleObj (n : Nat) : OCfg → Obj α → OVal α → Bool → Prop where
  | chan {cfg q c h} : IdleObj n (.chan cfg) (.chan ⟨q, c, none, List.replicate n .idle, h⟩) (.queue q) c
  | exch {cfg q c h} : IdleObj n (.exch cfg) (.exch ⟨q, c, none, List.replicate n .idle, h⟩) (.slot q) c

/-- Nobody is in a call (of channel.hpp:58-212, exchange_channel.hpp:53-149), and the contents and results are those of `A`. -/
structure Calm (p : Prog α) (s : Sys α) (A : ASys α) : Prop where
  reach : Reach p s
  obj : ∀ k, IdleObj p.n (p.cfg k) (s.obj k) (A.val k) (A.closed k)
  thr : ∀ i, s.thr i = ⟨A.res i, false⟩

theorem solo {s : Sys α} {i k : Nat} {op : Op α} {v v' : OVal α} {c c' : Bool} {r : Res α} {R : List (Res α)} (hr : Reach p s)
    (hch : IdleObj p.n (p.cfg k) (s.obj k) v c) (hi : i < p.n) (hthr : s.thr i = ⟨R, false⟩)
    (hcode : p.code i R = some (k, op)) (he : OEffect (p.cfg k) v c op r v' c') :
    ∃ s', Reach p s' ∧ IdleObj p.n (p.cfg k) (s'.obj k) v' c' ∧ (∀ k', k' ≠ k → s'.obj k' = s.obj k') ∧
      s'.thr i = ⟨R ++ [r], false⟩ ∧ ∀ j, j ≠ i → s'.thr j = s.thr j := by
  generalize hcfg : p.cfg k = cfg at hch he ⊢
  generalize ho : s.obj k = o at hch
  cases hch with
  | chan =>
    cases v' with
    | slot v' => exact he.elim
    | queue v' =>
      obtain ⟨s', h', h1, h2, h3, h4, h5⟩ := C.solo hr hcfg ho hi hthr hcode he
      exact ⟨s', h1, by rw [h2]; exact .chan, h3, h4, h5⟩
  | exch =>
    cases v' with
    | queue v' => exact he.elim
    | slot v' =>
      obtain ⟨s', h', h1, h2, h3, h4, h5⟩ := X.solo hr hcfg ho hi hthr hcode he
      exact ⟨s', h1, by rw [h2]; exact .exch, h3, h4, h5⟩

theorem calm_step {A B : ASys α} {s : Sys α} (hc : Calm p s A) (h : AStep p A B) : ∃ s', Calm p s' B := by
  cases h with
  | @call i k op r q' c' hi hcode he =>
    obtain ⟨s', h1, h2, h3, h4, h5⟩ := solo hc.reach (hc.obj k) hi (hc.thr i) hcode he
    refine ⟨s', h1, fun k' => ?_, fun j => ?_⟩
    · by_cases e : k' = k
      · subst e; simp only [set_self]; exact h2
      · simp only [set_other _ _ e]; rw [h3 k' e]; exact hc.obj k'
    · by_cases e : j = i
      · subst e; simp only [set_self]; exact h4
      · simp only [set_other _ _ e]; rw [h5 j e]; exact hc.thr j

theorem calm_reach {A : ASys α} (h : AReach p A) : ∃ s, Calm p s A := by
  induction h with
  | start =>
    refine ⟨start p, ⟨[], rfl⟩, fun k => ?_, fun i => rfl⟩
    simp only [start, astart]
    cases p.cfg k with
    | chan c => exact .chan
    | exch c => exact .exch
  | step _ hs ih => obtain ⟨s, hc⟩ := ih; exact calm_step hc hs

end Verif.Mixed
