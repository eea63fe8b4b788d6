import Verif.Channel.Props
import Verif.Channel.WakeThrow

/-! C05 for element types whose operations may throw: how much an exception can do. -/
namespace Verif.Channel

variable {α : Type}

/-- C05, for any element type. When no thread can take a step, every call that has not returned is a `pop` or a `push`
on a channel that is not closed. A `pop` is blocked only if the channel holds no more elements than calls of `pop` were
left by an exception; a `push` is blocked only if the channel lacks no more elements of being full than calls of
`push` were left by an exception: every exception loses at most one wakeup. -/
theorem channel_blocked {cfg : Cfg} {n : Nat} {s : St α} (h : Reachable cfg n s) (hq : Quiescent cfg s)
    {t : Nat} (ht : t < n) :
    ThreadRun cfg.moveThrow t s.hist .idle ∨
    (ThreadRun cfg.moveThrow t s.hist (.called .pop) ∧ (∀ t' r, .lin t' .close r ∉ s.hist) ∧
      (inserted s.hist).length ≤ (removed s.hist).length + threwPops s.hist) ∨
    (∃ v, ThreadRun cfg.moveThrow t s.hist (.called (.push v)) ∧ (∀ t' r, .lin t' .close r ∉ s.hist) ∧
      (removed s.hist).length + cfg.cap ≤ (inserted s.hist).length + threwPushes s.hist) := by
  have hlt : t < s.pcs.length := by rw [reachable_length h]; exact ht
  have hp : s.pcs[t]? = some s.pcs[t] := List.getElem?_eq_getElem hlt
  obtain ⟨p, hph, hrun⟩ := runInv_reach h t _ hp
  have he := explains_reach h
  have hf := channel_fifo h
  have hl := lockInv_reach h
  generalize s.pcs[t] = pc at hp hph
  have hno : s.closed = false → ∀ t' r, Ev.lin t' .close r ∉ s.hist := by
    intro hcl t' r hmem
    have := he.closed_of_mem hmem
    rw [hcl] at this; cases this
  rcases quiescent_pc hl hq hp with rfl | rfl | ⟨v, rfl⟩
  · cases hph; exact .inl hrun
  · cases hph
    have hs : 0 < s.pcs.countP isSlE := countP_pos_of hp rfl
    have hw := lostE_reach h
    cases hc : s.closed with
    | true =>
      have := hw.2 hc hs
      rw [quiescent_count hl hq (p := isClE) rfl rfl (fun _ => rfl)] at this; omega
    | false =>
      have := hw.1 hc hs
      rw [quiescent_count hl hq (p := isTokE) rfl rfl (fun _ => rfl)] at this
      refine .inr (.inl ⟨hrun, hno hc, ?_⟩)
      rw [hf, List.length_append]; omega
  · cases hph
    have hs : 0 < s.pcs.countP isSlF := countP_pos_of hp rfl
    have hw := lostF_reach h
    cases hc : s.closed with
    | true =>
      have := hw.2 hc hs
      rw [quiescent_count hl hq (p := isClF) rfl rfl (fun _ => rfl)] at this; omega
    | false =>
      have := hw.1 hc hs
      rw [quiescent_count hl hq (p := isTokF) rfl rfl (fun _ => rfl)] at this
      refine .inr (.inr ⟨v, hrun, hno hc, ?_⟩)
      rw [hf, List.length_append]; omega

/-- Threads 0, 1 and 4 sleep in pop. Thread 2 pushes 7, waking thread 0, whose pop throws. Thread 3 pushes 8, waking thread
1, whose pop throws as well. Nobody wakes thread 4. -/
def stranded : List (Act Nat) :=
  [.call 0 .pop] ++ steps 0 2 ++ [.call 1 .pop] ++ steps 1 2 ++ [.call 4 .pop] ++ steps 4 2 ++
  [.call 2 (.push 7)] ++ steps 2 5 ++ [.step 2 (some 0)] ++ steps 2 1 ++ steps 0 2 ++ [.throw 0] ++ steps 0 2 ++
  [.call 3 (.push 8)] ++ steps 3 5 ++ [.step 3 (some 1)] ++ steps 3 1 ++ steps 1 2 ++ [.throw 1] ++ steps 1 2

/-- The bound is reached: two exceptions, two elements in the channel, and a `pop` that sleeps. -/
theorem channel_blocked_tight : ∃ s : St Nat, Reachable { cap := 2, moveThrow := true } 5 s ∧
    Quiescent { cap := 2, moveThrow := true } s ∧ s.pcs[4]? = some .pSleep ∧ inserted s.hist = [7, 8] ∧
    removed s.hist = [] ∧ threwPops s.hist = 2 := by
  refine ⟨(run { cap := 2, moveThrow := true } (init Nat 5) stranded).get (by decide), ⟨stranded, by simp⟩,
    quiescent_of_pcs ?_, by decide, by decide, by decide, by decide⟩
  intro pc hpc
  have : ((run { cap := 2, moveThrow := true } (init Nat 5) stranded).get (by decide)).pcs =
    [.idle, .idle, .idle, .idle, .pSleep] := by decide
  rw [this] at hpc
  simp at hpc
  rcases hpc with rfl | rfl <;> simp

/-- A push asleep, after one exception, on a channel one element short of being full. -/
example : ∃ s : St Nat, Reachable { cap := 1, ctorThrow := true } 4 s ∧
    (ThreadRun false 2 s.hist .idle ∨ (ThreadRun false 2 s.hist (.called .pop) ∧ (∀ t' r, .lin t' .close r ∉ s.hist) ∧
      (inserted s.hist).length ≤ (removed s.hist).length + threwPops s.hist) ∨
    (∃ v, ThreadRun false 2 s.hist (.called (.push v)) ∧ (∀ t' r, .lin t' .close r ∉ s.hist) ∧
      (removed s.hist).length + 1 ≤ (inserted s.hist).length + threwPushes s.hist)) := by
  obtain ⟨s, h, hq, _⟩ := channel_no_lost_wakeup_refuted
  exact ⟨s, h, channel_blocked h hq (by decide)⟩

end Verif.Channel
