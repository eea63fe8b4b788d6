import Verif.Exchange.Props
import Verif.Exchange.WakeThrow

/-! C09 for element types whose operations may throw. -/
namespace Verif.Exchange

open Verif.Channel (Op Res Ev Act Phase ThreadRun inserted removed)

variable {α : Type}

/-- C09, for any element type. When no thread can take a step, every call that has not returned is a `pop` on a channel
that is not closed. Either the channel is empty, or since the last successful push a `pop` was left by an exception:
only that loses a wakeup, and the next push makes up for it. -/
theorem exchange_blocked {cfg : Cfg} {n : Nat} {s : St α} (h : Reachable cfg n s) (hq : Quiescent cfg s)
    {t : Nat} (ht : t < n) :
    ThreadRun cfg.moveThrow t s.hist .idle ∨
    (ThreadRun cfg.moveThrow t s.hist (.called .pop) ∧ (∀ t' r, .lin t' .close r ∉ s.hist) ∧
      (Explains s.hist (none, false) ∨
        ∃ h1 u h2, s.hist = h1 ++ .lin u .pop .threw :: h2 ∧ ∀ t' v, .lin t' (.push v) (.bool true) ∉ h2)) := by
  have hlt : t < s.pcs.length := by rw [reachable_length h]; exact ht
  have hp : s.pcs[t]? = some s.pcs[t] := List.getElem?_eq_getElem hlt
  obtain ⟨p, hph, hrun⟩ := runInv_reach h t _ hp
  have he := explains_reach h
  have hl := lockInv_reach h
  generalize s.pcs[t] = pc at hp hph
  rcases quiescent_pc hl hq hp with rfl | rfl
  · cases hph; exact .inl hrun
  · cases hph
    have hs : 0 < s.pcs.countP PC.asleep := by
      rw [List.countP_pos_iff]; exact ⟨_, List.mem_of_getElem? hp, rfl⟩
    have hz : ∀ p : PC α → Bool, p .idle = false → p .pSleep = false → s.pcs.countP p = 0 := by
      intro p h1 h2
      rw [List.countP_eq_zero]
      intro pc hpc
      obtain ⟨i, hi⟩ := List.mem_iff_getElem?.mp hpc
      rcases quiescent_pc hl hq hi with rfl | rfl <;> simp [*]
    have hw := lost_reach h
    cases hc : s.closed with
    | true =>
      have := hw.2 hc hs
      rw [hz isCl rfl rfl] at this; omega
    | false =>
      refine .inr ⟨hrun, ?_, ?_⟩
      · intro t' r hmem
        have := he.closed_of_mem hmem
        rw [hc] at this; cases this
      · cases hsl : s.slot with
        | none => rw [hsl, hc] at he; exact .inl he
        | some v =>
          have := hw.1 hc hs (by simp [hsl])
          rw [hz isTok rfl rfl] at this
          exact .inr (threwB_spec _ (this.resolve_left (by omega)))

/-- Thread 1 asleep although 7 is in the slot: the pop of thread 0 threw. -/
example : ∃ s : St Nat, Reachable { moveThrow := true } 3 s ∧ s.slot = some 7 ∧
    (ThreadRun true 1 s.hist .idle ∨ (ThreadRun true 1 s.hist (.called .pop) ∧ (∀ t' r, .lin t' .close r ∉ s.hist) ∧
      (Explains s.hist (none, false) ∨
        ∃ h1 u h2, s.hist = h1 ++ .lin u .pop .threw :: h2 ∧ ∀ t' v, .lin t' (.push v) (.bool true) ∉ h2))) := by
  obtain ⟨s, h, hq, h7, _⟩ := exchange_no_lost_wakeup_refuted
  exact ⟨s, h, h7, exchange_blocked h hq (by decide)⟩

end Verif.Exchange
