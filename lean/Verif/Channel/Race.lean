import Verif.Channel.Props

/-!
Freedom of data races (C64): the queue of a channel is never accessed by two threads at the same time. The only other
shared variable that is written after construction, the closed flag, is atomic.
-/
namespace Verif.Channel

variable {α : Type}

/-- The next action `a` reads or writes the queue: its outcome depends on the content of the queue, or changes it.
Described by behaviour instead of by position: replacing the content by `q'` does more than just replace the content
afterwards (accesses of `queue_` in channel.hpp:92-126, 181-207). -/
def UsesQueue (cfg : Cfg) (s : St α) (a : Act α) : Prop :=
  ∃ q', next cfg { s with q := q' } a ≠ (next cfg s a).map (fun s' => { s' with q := q' })

/-- Thread `t` is about to access the queue: the next thing it does in its current call may read or write it (accesses of `queue_` in
channel.hpp:92-126, 181-207). -/
def Accesses (cfg : Cfg) (s : St α) (t : Nat) : Prop :=
  ∃ a, (a = .throw t ∨ a = .stale t ∨ ∃ w, a = .step t w) ∧ UsesQueue cfg s a

theorem notifyOne_queue (sl : PC α → Option (PC α)) (s : St α) (q' : List α) (w : Option Nat) :
    notifyOne sl { s with q := q' } w = (notifyOne sl s w).map (fun s' => { s' with q := q' }) := by
  cases w with
  | none => simp only [notifyOne]; split <;> rfl
  | some i =>
    simp only [notifyOne]
    cases s.pcs[i]? with
    | none => rfl
    | some p => dsimp only; cases sl p <;> rfl

theorem accesses_holds {cfg : Cfg} {s : St α} {t : Nat} (h : Accesses cfg s t) :
    ∃ pc, s.pcs[t]? = some pc ∧ pc.holds = true := by
  obtain ⟨a, ha, q', hne⟩ := h
  cases hp : s.pcs[t]? with
  | none => rcases ha with rfl | rfl | ⟨w, rfl⟩ <;> simp [next, hp] at hne
  | some pc =>
    refine ⟨pc, rfl, ?_⟩
    rcases ha with rfl | rfl | ⟨w, rfl⟩
    · simp only [next, hp] at hne
      cases pc <;> simp only [throwAt] at hne <;> first | rfl | skip
      all_goals
        exfalso
        first
          | exact hne rfl
          | (split at hne <;> exact hne rfl)
    · simp only [next, hp] at hne
      exfalso
      cases pc <;> exact hne rfl
    · simp only [next, hp] at hne
      cases pc <;> simp only [stepAt, acquire] at hne <;> first | rfl | skip
      all_goals
        exfalso
        first
          | exact hne rfl
          | (split at hne <;> exact hne rfl)
          | (rw [notifyOne_queue] at hne; apply hne; cases notifyOne _ s w <;> rfl)

/-- C64. No two threads ever access the queue at the same time. -/
theorem channel_no_race {cfg : Cfg} {n : Nat} {s : St α} (h : Reachable cfg n s) {t t' : Nat}
    (ht : Accesses cfg s t) (ht' : Accesses cfg s t') : t = t' := by
  obtain ⟨pc, hp, hh⟩ := accesses_holds ht
  obtain ⟨pc', hp', hh'⟩ := accesses_holds ht'
  have hl := (lockInv_reach h).1
  have h1 := (hl t pc hp).mp hh
  have h2 := (hl t' pc' hp').mp hh'
  rw [h1] at h2
  exact Option.some.inj h2

/-- A state of `demo`: thread 0 is inside its push, about to append 5, while thread 1 sleeps in a pop. -/
example : ∃ s : St Nat, Reachable { cap := 1 } 2 s ∧ Accesses { cap := 1 } s 0 := by
  refine ⟨(run { cap := 1 } (init Nat 2) (demo.take 7)).get (by decide), ⟨_, (Option.some_get _).symm⟩,
    .step 0 none, .inr (.inr ⟨none, rfl⟩), [7], by decide⟩

end Verif.Channel
