import Verif.MultiX.Spec

/-!
Wakeups when moves throw: a consumer that throws keeps the wakeup for itself, so that another consumer may sleep although there is a
value. But then a removal has thrown since that value was put there.
-/
namespace Verif.MultiX

open Verif.Exchange
open Verif.Channel (Op Res Ev Act countP_set')

variable {α : Type}

/-- Whether a removal has thrown and left the value since the value was put there, after a call had its effect
(exchange_channel.hpp:91,135,148). -/
def upd (b : Bool) : Op α → Res α → Bool
  | .push _, .bool false => b
  | .push _, _ => false
  | .pop, .threw => true
  | .pop, _ => false
  | .tryPop, .threw => true
  | .tryPop, _ => false
  | _, _ => b

/-- The same after an event (exchange_channel.hpp:53-149). -/
def tev (b : Bool) : Ev α → Bool
  | .lin _ op r => upd b op r
  | _ => b

/-- The same after a history (exchange_channel.hpp:53-149). -/
def taint (h : List (Ev α)) : Bool := h.foldl tev false

theorem taint_append (h : List (Ev α)) (es : List (Ev α)) : taint (h ++ es) = es.foldl tev (taint h) := by
  simp [taint, List.foldl_append]

/-- If somebody sleeps although it should not, a wakeup is on its way, or a removal has thrown (exchange_channel.hpp:126,135). -/
def WakeOr (s : St α) : Prop :=
  (s.closed = false → 0 < s.pcs.countP PC.asleep → s.slot ≠ none → taint s.hist = false → 0 < s.pcs.countP isTok) ∧
  (s.closed = true → 0 < s.pcs.countP PC.asleep → 0 < s.pcs.countP isCl)

theorem wakeOr_loc {cfg : Cfg} {t : Nat} {q c o} {pc : PC α} {q' c' o' pc' es}
    {pcs : List (PC α)} {h} (hl : Loc cfg t q c o pc q' c' o' pc' es) (hp : pcs[t]? = some pc)
    (hb : pc = .pBody → q ≠ none ∨ c = true) (hi : WakeOr ⟨q, c, o, pcs, h⟩) :
    WakeOr ⟨q', c', o', pcs.set t pc', h ++ es⟩ := by
  have a := countP_set' (p := PC.asleep) (x := pc') hp
  have b := countP_set' (p := isTok) (x := pc') hp
  have d := countP_set' (p := isCl) (x := pc') hp
  obtain ⟨h1, h2⟩ := hi
  dsimp only at h1 h2
  unfold WakeOr
  dsimp only
  rw [taint_append]
  generalize (pcs.set t pc').countP PC.asleep = A at *
  generalize (pcs.set t pc').countP isTok = B at *
  generalize (pcs.set t pc').countP isCl = D at *
  generalize pcs.countP PC.asleep = A' at *
  generalize pcs.countP isTok = B' at *
  generalize pcs.countP isCl = D' at *
  generalize taint h = T at *
  clear hp
  cases hl
  case call op he => cases op <;> simp [entry] at he <;> subst he <;> simp [PC.asleep, isTok, isCl, tev] at a b d ⊢ <;> grind
  all_goals simp [PC.asleep, isTok, isCl, tev, upd] at a b d hb ⊢
  all_goals grind

theorem wakeOr_step {cfg : Cfg} {s s' : St α} (hb : BodyInv s) (hi : WakeOr s)
    (h : Step cfg s s') : WakeOr s' := by
  cases h with
  | loc hp hl => exact wakeOr_loc hl hp (fun h => hb _ (h ▸ hp)) hi
  | @one0 t op hp hn =>
    have : s.pcs.countP PC.asleep = 0 := by
      rw [List.countP_eq_zero]
      intro a ha
      have := hn a ha
      cases a <;> simp_all [PC.asleep]
    have a := countP_set' (p := PC.asleep) (x := .done op (.bool true)) hp
    unfold WakeOr; dsimp only
    simp [PC.asleep] at a
    constructor <;> intros <;> omega
  | @one1 t op i hp hs =>
    have hne : i ≠ t := by rintro rfl; rw [hp] at hs; cases hs
    have hp' : (s.pcs.set i .pLock)[t]? = some (.sNotify op) := by rw [List.getElem?_set_ne hne]; exact hp
    have a := countP_set' (p := PC.asleep) (x := .done op (.bool true)) hp'
    have b := countP_set' (p := isTok) (x := .done op (.bool true)) hp'
    have d := countP_set' (p := isCl) (x := .done op (.bool true)) hp'
    have a' := countP_set' (p := PC.asleep) (x := .pLock) hs
    have b' := countP_set' (p := isTok) (x := .pLock) hs
    have d' := countP_set' (p := isCl) (x := .pLock) hs
    simp [PC.asleep, isTok, isCl] at a b d a' b' d'
    obtain ⟨h1, h2⟩ := hi
    have hpos : 0 < s.pcs.countP isTok := by
      rw [List.countP_pos_iff]
      exact ⟨_, List.mem_of_getElem? hp, rfl⟩
    unfold WakeOr; dsimp only
    grind
  | @all t hp =>
    have hp' : (s.pcs.map wake)[t]? = some .cNotify := by rw [List.getElem?_map, hp]; rfl
    have a := countP_set' (p := PC.asleep) (x := .done .close .unit) hp'
    have h0 : (s.pcs.map wake).countP PC.asleep = 0 := by
      rw [List.countP_eq_zero]
      intro a ha
      obtain ⟨b, _, rfl⟩ := List.mem_map.mp ha
      cases b <;> simp [wake, PC.asleep]
    rw [h0] at a
    change _ + 0 = 0 + 0 at a
    unfold WakeOr; dsimp only
    constructor <;> intros <;> omega

theorem wakeOr_reach {cfg : Cfg} {n : Nat} {s : St α} (h : Reachable cfg n s) : WakeOr s :=
  (reach_ind (P := fun s => (LockInv s ∧ BodyInv s) ∧ WakeOr s)
    ⟨lockBody_reach ⟨[], rfl⟩ (cfg := cfg), by
      constructor <;> intro _ h <;> simp [init, List.countP_replicate, PC.asleep] at h⟩
    (fun _ _ hp hs => ⟨⟨lockInv_step hp.1.1 hs, bodyInv_step hp.1.1 hp.1.2 hs⟩, wakeOr_step hp.1.2 hp.2 hs⟩) h).2

/-- A consumer that sleeps when nobody can go on: there is no value, or a removal has thrown since it was put there. -/
theorem quiescent_or {cfg : Cfg} {n : Nat} {s : St α} (hr : Reachable cfg n s) (hq : Quiescent cfg s) {t : Nat}
    (hp : s.pcs[t]? = some .pSleep) : (s.slot = none ∨ taint s.hist = true) ∧ s.closed = false := by
  have hl := lockInv_reach hr
  have hs : 0 < s.pcs.countP PC.asleep := by
    rw [List.countP_pos_iff]; exact ⟨_, List.mem_of_getElem? hp, rfl⟩
  have hz : ∀ p : PC α → Bool, p .idle = false → p .pSleep = false → s.pcs.countP p = 0 := by
    intro p h1 h2
    rw [List.countP_eq_zero]
    intro pc hpc
    obtain ⟨i, hi⟩ := List.mem_iff_getElem?.mp hpc
    rcases quiescent_pc hl hq hi with rfl | rfl <;> simp [*]
  have hw := wakeOr_reach hr
  cases hc : s.closed with
  | true =>
    have := hw.2 hc hs
    rw [hz isCl rfl rfl] at this; omega
  | false =>
    refine ⟨?_, rfl⟩
    cases ho : s.slot with
    | none => exact .inl rfl
    | some x =>
      right
      by_contra ht
      have := hw.1 hc hs (by simp [ho]) (by simpa using ht)
      rw [hz isTok rfl rfl] at this; omega

end Verif.MultiX
