import Verif.Exchange.Lemmas

/-! Lost wakeups of the exchange channel: exactly by an exception since the value was pushed. -/
namespace Verif.Exchange

open Verif.Channel (Op Res Ev Act countP_set')

variable {α : Type}

/-- Has a `pop` been left by an exception of moving the value out of the slot (exchange_channel.hpp:135), and no value been pushed since? `b` is the answer at the beginning. -/
def threwFrom (b : Bool) (h : List (Ev α)) : Bool :=
  h.foldl (fun b e => match e with
    | .lin _ .pop .threw => true
    | .lin _ (.push _) (.bool true) => false
    | _ => b) b

/-- The same from the construction of the channel (exchange_channel.hpp:38, 135). -/
def threwB (h : List (Ev α)) : Bool := threwFrom false h

theorem threw_append (a b : List (Ev α)) : threwB (a ++ b) = threwFrom (threwB a) b := List.foldl_append ..

theorem threwB_spec : ∀ (h : List (Ev α)), threwB h = true →
    ∃ h1 t h2, h = h1 ++ .lin t .pop .threw :: h2 ∧ ∀ t' v, .lin t' (.push v) (.bool true) ∉ h2 := by
  intro h
  induction hn : h.length generalizing h with
  | zero => rw [List.length_eq_zero_iff.1 hn]; intro hh; simp [threwB, threwFrom] at hh
  | succ n ih =>
    rcases List.eq_nil_or_concat h with rfl | ⟨l, e, rfl⟩
    · simp at hn
    · intro hh
      rw [List.concat_eq_append] at hh hn ⊢
      rw [threw_append] at hh
      by_cases h1 : ∃ t, e = .lin t .pop .threw
      · obtain ⟨t, rfl⟩ := h1
        exact ⟨l, t, [], rfl, by simp⟩
      · by_cases h2 : ∃ t v, e = .lin t (.push v) (.bool true)
        · obtain ⟨t, v, rfl⟩ := h2
          simp [threwFrom] at hh
        · have hl : threwB l = true := by
            simp only [threwFrom, List.foldl_cons, List.foldl_nil] at hh
            split at hh
            · rename_i t; exact absurd ⟨t, rfl⟩ h1
            · rename_i t v; exact absurd ⟨t, v, rfl⟩ h2
            · exact hh
          obtain ⟨a, t, b, rfl, hb⟩ := ih l (by simpa using hn) hl
          refine ⟨a, t, b ++ [e], by simp, fun t' v hm => ?_⟩
          rcases List.mem_append.1 hm with hm | hm
          · exact hb t' v hm
          · exact h2 ⟨t', v, (List.mem_singleton.1 hm).symm⟩

/-- If somebody sleeps although it should not, a wakeup is on its way or was lost by an exception (exchange_channel.hpp:93, 135). -/
def LostInv (s : St α) : Prop :=
  (s.closed = false → 0 < s.pcs.countP PC.asleep → s.slot ≠ none → 0 < s.pcs.countP isTok ∨ threwB s.hist = true) ∧
  (s.closed = true → 0 < s.pcs.countP PC.asleep → 0 < s.pcs.countP isCl)

theorem lost_loc {cfg : Cfg} {t : Nat} {q c o} {pc : PC α} {q' c' o' pc' es}
    {pcs : List (PC α)} {h} (hl : Loc cfg t q c o pc q' c' o' pc' es) (hp : pcs[t]? = some pc)
    (hb : pc = .pBody → q ≠ none ∨ c = true) (hi : LostInv ⟨q, c, o, pcs, h⟩) :
    LostInv ⟨q', c', o', pcs.set t pc', h ++ es⟩ := by
  have a := countP_set' (p := PC.asleep) (x := pc') hp
  have b := countP_set' (p := isTok) (x := pc') hp
  have d := countP_set' (p := isCl) (x := pc') hp
  obtain ⟨h1, h2⟩ := hi
  dsimp only at h1 h2
  unfold LostInv
  dsimp only
  generalize (pcs.set t pc').countP PC.asleep = A at *
  generalize (pcs.set t pc').countP isTok = B at *
  generalize (pcs.set t pc').countP isCl = D at *
  generalize pcs.countP PC.asleep = A' at *
  generalize pcs.countP isTok = B' at *
  generalize pcs.countP isCl = D' at *
  clear hp
  simp only [threw_append]
  generalize threwB h = K at *
  cases hl
  case call op he => cases op <;> simp [entry] at he <;> subst he <;> simp [PC.asleep, isTok, isCl] at a b d <;> simp [threwFrom] <;> grind
  all_goals simp [PC.asleep, isTok, isCl] at a b d hb
  all_goals simp [threwFrom]
  all_goals grind

theorem lost_step {cfg : Cfg} {s s' : St α} (hb : BodyInv s) (hi : LostInv s)
    (h : Step cfg s s') : LostInv s' := by
  cases h with
  | loc hp hl => exact lost_loc hl hp (fun h => hb _ (h ▸ hp)) hi
  | @one0 t op hp hn =>
    have : s.pcs.countP PC.asleep = 0 := by
      rw [List.countP_eq_zero]
      intro a ha
      have := hn a ha
      cases a <;> simp_all [PC.asleep]
    have a := countP_set' (p := PC.asleep) (x := .done op (.bool true)) hp
    unfold LostInv; dsimp only
    simp [PC.asleep] at a
    constructor <;> intros <;> omega
  | @one1 t op i hp hs =>
    have hne : i ≠ t := by rintro rfl; rw [hp] at hs; cases hs
    have hp' : (s.pcs.set i .pLock)[t]? = some (.sNotify op) := by rw [List.getElem?_set_ne hne]; exact hp
    have a := countP_set' (p := PC.asleep) (x := .done op (.bool true)) hp'
    have b := countP_set' (p := isTok) (x := .done op (.bool true)) hp'
    have d := countP_set' (p := isCl) (x := .done op (.bool true)) hp'
    have a' := countP_set' (p := PC.asleep) (x := .pLock) hs
    have b' := countP_set' (p := isTok) (x := .pLock) hs
    have d' := countP_set' (p := isCl) (x := .pLock) hs
    simp [PC.asleep, isTok, isCl] at a b d a' b' d'
    obtain ⟨h1, h2⟩ := hi
    have hpos : 0 < s.pcs.countP isTok := by
      rw [List.countP_pos_iff]
      exact ⟨_, List.mem_of_getElem? hp, rfl⟩
    unfold LostInv; dsimp only
    grind
  | @all t hp =>
    have hp' : (s.pcs.map wake)[t]? = some .cNotify := by rw [List.getElem?_map, hp]; rfl
    have a := countP_set' (p := PC.asleep) (x := .done .close .unit) hp'
    have h0 : (s.pcs.map wake).countP PC.asleep = 0 := by
      rw [List.countP_eq_zero]
      intro a ha
      obtain ⟨b, _, rfl⟩ := List.mem_map.mp ha
      cases b <;> simp [wake, PC.asleep]
    rw [h0] at a
    change _ + 0 = 0 + 0 at a
    unfold LostInv; dsimp only
    constructor <;> intros <;> omega

theorem lost_reach {cfg : Cfg} {n : Nat} {s : St α} (h : Reachable cfg n s) :
    LostInv s :=
  (reach_ind (P := fun s => (LockInv s ∧ BodyInv s) ∧ LostInv s)
    ⟨lockBody_reach ⟨[], rfl⟩ (cfg := cfg), by
      constructor <;> intro _ h <;> simp [init, List.countP_replicate, PC.asleep] at h⟩
    (fun _ _ hp hs => ⟨⟨lockInv_step hp.1.1 hs, bodyInv_step hp.1.1 hp.1.2 hs⟩, lost_step hp.1.2 hp.2 hs⟩) h).2

end Verif.Exchange
