import Verif.Channel.LiveExec

/-!
Liveness of `channel.hpp` (C87): which calls return eventually, in executions without end.

The theorems with the hypothesis `e.Fair` assume a scheduler and a mutex that starve nobody. Without it nothing can be
promised (`channel_weak_fairness_refuted`).
-/
namespace Verif.Channel

variable {α : Type} {cfg : Cfg} {n : Nat}

/-! ### An execution in which the hypotheses of the theorems hold -/

/-- Thread 1 pushes two values, thread 0 calls `pop` (schedule of channel.hpp:85-131, 179). -/
def workPre : List (Act Nat) :=
  [.call 1 (.push 7), .step 1 none, .step 1 none, .step 1 none, .step 1 none, .step 1 none, .step 1 none, .step 1 none,
   .call 1 (.tryPush 7), .step 1 none, .step 1 none, .step 1 none, .step 1 none, .step 1 none, .step 1 none, .call 0 .pop]
/-- Thread 0 pops a value, thread 1 pushes one, thread 0 calls `pop` again (schedule of channel.hpp:85-131, 179-194). -/
def workLoop : List (Act Nat) :=
  [.step 0 none, .step 0 none, .step 0 none, .step 0 none, .step 0 none, .step 0 none, .step 0 none,
   .call 1 (.tryPush 7), .step 1 none, .step 1 none, .step 1 none, .step 1 none, .step 1 none, .step 1 none, .call 0 .pop]
/-- The state after the prefix (about channel.hpp:85-131). -/
def work0 : St Nat := (run { cap := 3 } (init Nat 2) workPre).get (by decide)
/-- The state after one round (about channel.hpp:85-194). -/
def work1 : St Nat := (run { cap := 3 } work0 workLoop).get (by decide)

theorem work_pre : run { cap := 3 } (init Nat 2) workPre = some work0 := by decide
theorem work_loop : run { cap := 3 } work0 workLoop = some work1 := by decide
theorem work_core : core work1 = core work0 := by decide

/-- A producer and a consumer that run for ever (about channel.hpp:85-194). -/
def working : Exec { cap := 3 } Nat 2 := lasso work_pre work_loop work_core (by decide)

theorem working_fair : working.Fair := by
  refine lasso_fair _ _ _ _ ?_
  intro t ht
  match t, ht with
  | 0, _ => exact ⟨0, _, rfl, rfl⟩
  | 1, _ => exact ⟨8, _, rfl, rfl⟩

theorem working_q {j : Nat} (hj : 16 ≤ j) : (working.st j).q ≠ [] ∧ (working.st j).q.length < 3 := by
  have := lasso_always work_pre work_loop work_core (by decide)
    (Q := fun x => (x.q != [] && decide (x.q.length < 3)) = true) (by
      have : ∀ r < workLoop.length, ((run { cap := 3 } work0 (workLoop.take r)).map
        (fun x => (x.q != [] && decide (x.q.length < 3)))) = some true := by decide
      intro r hr x hx
      have h := this r hr
      rw [hx] at h
      exact Option.some.inj h) (i := j) hj
  simp at this
  exact this

/-- Thread 0 calls `pop` and falls asleep, thread 1 closes the channel (schedule of channel.hpp:58-69, 179-181). -/
def closePre : List (Act Nat) :=
  [.call 0 .pop, .step 0 none, .step 0 none,
   .call 1 .close, .step 1 none, .step 1 none, .step 1 none, .step 1 none, .step 1 none, .step 1 none,
   .step 0 none, .step 0 none, .step 0 none, .step 0 none, .step 0 none]
/-- Both threads ask whether the channel is closed (schedule of channel.hpp:74-76). -/
def closeLoop : List (Act Nat) :=
  [.call 0 .isClosed, .step 0 none, .step 0 none, .call 1 .isClosed, .step 1 none, .step 1 none]
/-- The state after the prefix (about channel.hpp:58-69). -/
def close0 : St Nat := (run { cap := 3 } (init Nat 2) closePre).get (by decide)
/-- The state after one round (about channel.hpp:74-76). -/
def close1 : St Nat := (run { cap := 3 } close0 closeLoop).get (by decide)

theorem close_pre : run { cap := 3 } (init Nat 2) closePre = some close0 := by decide
theorem close_loop : run { cap := 3 } close0 closeLoop = some close1 := by decide
theorem close_core : core close1 = core close0 := by decide

/-- A pop that is released by a close (about channel.hpp:58-69, 179-185). -/
def closing : Exec { cap := 3 } Nat 2 := lasso close_pre close_loop close_core (by decide)

theorem closing_fair : closing.Fair := by
  refine lasso_fair _ _ _ _ ?_
  intro t ht
  match t, ht with
  | 0, _ => exact ⟨1, _, rfl, rfl⟩
  | 1, _ => exact ⟨4, _, rfl, rfl⟩

/-! ### The theorems -/

/-- C87. `try_push`, `try_pop`, `close` and `closed` always return (under fairness), whatever the other threads do and
whatever the element operations throw. -/
theorem channel_try_returns (e : Exec cfg α n) (hf : e.Fair) {i t : Nat} {op : Op α} (hc : e.Calls i t op)
    (hop : op = .tryPop ∨ op = .close ∨ op = .isClosed ∨ ∃ v, op = .tryPush v) : ∃ j r, i < j ∧ e.Returns j t r := by
  obtain ⟨ht, hp⟩ := e.of_calls hc
  obtain ⟨k, r, h1, h2⟩ := e.returns_awake hf (i := i + 1) ht (by rw [hp]; exact Exec.entry_ne_idle op) (by
    rw [hp]; rcases hop with rfl | rfl | rfl | ⟨v, rfl⟩ <;> rfl)
  exact ⟨k, r, by omega, h2⟩

example : ∃ j r, 8 < j ∧ working.Returns j 1 r :=
  channel_try_returns working working_fair (op := .tryPush 7) (lasso_calls _ _ _ _ rfl) (by simp)

/-- C87. Once a `close` has taken effect every call returns, calls of `push` and `pop` that were already waiting
included, whatever the element operations throw. -/
theorem channel_closed_returns (e : Exec cfg α n) (hf : e.Fair) {i t : Nat} {op : Op α} (hc : e.Calls i t op) {M : Nat}
    (hcl : e.Closed M) : ∃ j r, i < j ∧ e.Returns j t r := by
  obtain ⟨ht, hp⟩ := e.of_calls hc
  apply Classical.byContradiction
  intro hno
  have hno' : ¬ ∃ k r, i + 1 ≤ k ∧ e.Returns k t r := fun ⟨k, r, h1, h2⟩ => hno ⟨k, r, by omega, h2⟩
  have hclosed : ∀ j, max M (i + 1) ≤ j → (e.st j).closed = true := fun j hj =>
    e.closed_mono (e.closed_of hcl) (by omega)
  cases op with
  | pop =>
    have hw := e.waitE_stays hf ht (by rw [hp]; rfl) hno'
    have hs := e.waitE_asleep hf (M := max M (i + 1)) ht (fun j hj => hw j (by omega)) (fun j hj => .inr (hclosed j hj))
    exact e.closed_wakes hf ht hs (hclosed _ (Nat.le_refl _))
  | push v =>
    have hw := e.waitF_stays hf ht (by rw [hp]; rfl) hno'
    have hs := e.waitF_asleep hf (M := max M (i + 1)) ht (fun j hj => hw j (by omega)) (fun j hj => .inr (hclosed j hj))
    exact e.closed_wakesF hf ht hs (hclosed _ (Nat.le_refl _))
  | tryPush v => exact hno (channel_try_returns e hf hc (by simp))
  | tryPop => exact hno (channel_try_returns e hf hc (by simp))
  | close => exact hno (channel_try_returns e hf hc (by simp))
  | isClosed => exact hno (channel_try_returns e hf hc (by simp))

example : ∃ j r, 0 < j ∧ closing.Returns j 0 r :=
  channel_closed_returns closing closing_fair (op := .pop) (M := 6) (lasso_calls _ _ _ _ rfl) ⟨1, by decide⟩

/-- C05, for finite executions and all element types: when a close has taken effect and nothing can run any more, every
call has returned, whatever was thrown before (stronger than `channel_close_releases_partial`). -/
theorem channel_close_releases {s : St α} (h : Reachable cfg n s) (hq : Quiescent cfg s) {t' : Nat}
    (hcl : .lin t' .close .unit ∈ s.hist) {t : Nat} (ht : t < n) : ThreadRun cfg.moveThrow t s.hist .idle := by
  have hc : s.closed = true := (explains_reach h).closed_of_mem hcl
  have hl := lockInv_reach h
  have hw := wakeC_reach h hc
  have hlt : t < s.pcs.length := by rw [reachable_length h]; exact ht
  have hp : s.pcs[t]? = some s.pcs[t] := List.getElem?_eq_getElem hlt
  obtain ⟨p, hph, hrun⟩ := runInv_reach h t _ hp
  generalize s.pcs[t] = pc at hp hph
  rcases quiescent_pc hl hq hp with rfl | rfl | ⟨v, rfl⟩
  · cases hph; exact hrun
  · have := hw.1 (countP_pos_of hp rfl)
    rw [quiescent_count hl hq (p := isClE) rfl rfl (fun _ => rfl)] at this; omega
  · have := hw.2 (countP_pos_of hp rfl)
    rw [quiescent_count hl hq (p := isClF) rfl rfl (fun _ => rfl)] at this; omega

/-- A channel of values whose operations may throw, with two threads that popped and closed (run of channel.hpp:58-194). -/
def closedEnd : St Nat := (run { cap := 1, ctorThrow := true, moveThrow := true } (init Nat 2)
  [.call 0 .pop, .step 0 none, .step 0 none, .call 1 (.push 3), .step 1 none, .step 1 none, .step 1 none, .throw 1,
   .step 1 none, .step 1 none, .call 1 .close, .step 1 none, .step 1 none, .step 1 none, .step 1 none, .step 1 none,
   .step 1 none, .step 0 none, .step 0 none, .step 0 none, .step 0 none, .step 0 none]).get (by decide)

example : ThreadRun true 0 closedEnd.hist .idle :=
  channel_close_releases (cfg := { cap := 1, ctorThrow := true, moveThrow := true }) (n := 2) (t' := 1)
    ⟨_, (Option.some_get (by decide)).symm⟩
    (fun t w => match t with
      | 0 => rfl
      | 1 => rfl
      | t + 2 => rfl) (by decide) (by decide)

/-- C87. A `pop` returns if from some instant on there always is a value in the channel, however many consumers compete
for the values. What is missing: with values coming one at a time others may take all of them
(`channel_pop_starves_refuted`), and a move constructor that throws can lose the wakeup. -/
theorem channel_pop_returns_partial (e : Exec cfg α n) (hf : e.Fair) (hm : cfg.moveThrow = false) {i t : Nat}
    (hc : e.Calls i t .pop) {M : Nat} (ha : ∀ j, M ≤ j → e.Avail j) : ∃ j r, i < j ∧ e.Returns j t r := by
  obtain ⟨ht, hp⟩ := e.of_calls hc
  apply Classical.byContradiction
  intro hno
  have hno' : ¬ ∃ k r, i + 1 ≤ k ∧ e.Returns k t r := fun ⟨k, r, h1, h2⟩ => hno ⟨k, r, by omega, h2⟩
  have hq : ∀ j, max M (i + 1) ≤ j → (e.st j).q ≠ [] := fun j hj => (e.avail_iff j).mp (ha j (by omega))
  have hw := e.waitE_stays hf ht (by rw [hp]; rfl) hno'
  have hs := e.waitE_asleep hf (M := max M (i + 1)) ht (fun j hj => hw j (by omega)) (fun j hj => .inl (hq j hj))
  exact e.avail_wakes hf hm ht hs hq

example : ∃ j r, 15 < j ∧ working.Returns j 0 r :=
  channel_pop_returns_partial working working_fair rfl (M := 16) (lasso_calls _ _ _ _ rfl)
    (fun j hj => (Exec.avail_iff _ j).mpr (working_q hj).1)

/-- C87. A `push` returns if from some instant on there always is room in the channel, however many producers compete
for it. What is missing: `channel_push_starves_refuted`, and a constructor that throws can lose the wakeup. -/
theorem channel_push_returns_partial (e : Exec cfg α n) (hf : e.Fair) (hm : cfg.ctorThrow = false) {i t : Nat} {v : α}
    (hc : e.Calls i t (.push v)) {M : Nat} (ha : ∀ j, M ≤ j → e.Room j) : ∃ j r, i < j ∧ e.Returns j t r := by
  obtain ⟨ht, hp⟩ := e.of_calls hc
  apply Classical.byContradiction
  intro hno
  have hno' : ¬ ∃ k r, i + 1 ≤ k ∧ e.Returns k t r := fun ⟨k, r, h1, h2⟩ => hno ⟨k, r, by omega, h2⟩
  have hq : ∀ j, max M (i + 1) ≤ j → (e.st j).q.length < cfg.cap := fun j hj => (e.room_iff j).mp (ha j (by omega))
  have hw := e.waitF_stays hf ht (by rw [hp]; rfl) hno'
  have hs := e.waitF_asleep hf (M := max M (i + 1)) ht (fun j hj => hw j (by omega)) (fun j hj => .inl (hq j hj))
  exact e.room_wakes hf hm ht hs hq

example : ∃ j r, 0 < j ∧ working.Returns j 1 r :=
  channel_push_returns_partial working working_fair rfl (v := 7) (M := 16) (lasso_calls _ _ _ _ rfl)
    (fun j hj => (Exec.room_iff _ j).mpr (working_q hj).2)

/-- C87. The only consumer of a channel is never starved: its `pop` returns if at some instant after the call there is a
value in the channel. -/
theorem channel_sole_consumer_returns_partial (e : Exec cfg α n) (hf : e.Fair) (hm : cfg.moveThrow = false) {i t : Nat}
    (hs : e.SoleConsumer t) (hc : e.Calls i t .pop) {M : Nat} (hM : i < M) (ha : e.Avail M) :
    ∃ j r, i < j ∧ e.Returns j t r := by
  apply Classical.byContradiction
  intro hno
  obtain ⟨ht, hp⟩ := e.of_calls hc
  have hno' : ¬ ∃ k r, i + 1 ≤ k ∧ e.Returns k t r := fun ⟨k, r, h1, h2⟩ => hno ⟨k, r, by omega, h2⟩
  have hw := e.waitE_stays hf ht (by rw [hp]; rfl) hno'
  have hq := e.sole_avail hs (M := M) (fun j hj => hw j (by omega)) ((e.avail_iff M).mp ha)
  exact hno (channel_pop_returns_partial e hf hm hc (fun j hj => (e.avail_iff j).mpr (hq j hj)))

example : ∃ j r, 15 < j ∧ working.Returns j 0 r :=
  channel_sole_consumer_returns_partial working working_fair rfl (M := 16)
    (fun i u h => by
      rcases h with h | h
      · have := lasso_calls_mem _ _ _ _ h; simpa [workPre, workLoop] using this
      · have := lasso_calls_mem _ _ _ _ h; simp [workPre, workLoop] at this)
    (lasso_calls _ _ _ _ rfl) (by decide) ((Exec.avail_iff _ _).mpr (working_q (by decide)).1)

/-- C87. The only producer of a channel is never starved: its `push` returns if at some instant after the call there is
room in the channel. -/
theorem channel_sole_producer_returns_partial (e : Exec cfg α n) (hf : e.Fair) (hm : cfg.ctorThrow = false) {i t : Nat}
    {v : α} (hs : e.SoleProducer t) (hc : e.Calls i t (.push v)) {M : Nat} (hM : i < M) (ha : e.Room M) :
    ∃ j r, i < j ∧ e.Returns j t r := by
  apply Classical.byContradiction
  intro hno
  obtain ⟨ht, hp⟩ := e.of_calls hc
  have hno' : ¬ ∃ k r, i + 1 ≤ k ∧ e.Returns k t r := fun ⟨k, r, h1, h2⟩ => hno ⟨k, r, by omega, h2⟩
  have hw := e.waitF_stays hf ht (by rw [hp]; rfl) hno'
  have hq := e.sole_room hs (M := M) (fun j hj => hw j (by omega)) ((e.room_iff M).mp ha)
  exact hno (channel_push_returns_partial e hf hm hc (fun j hj => (e.room_iff j).mpr (hq j hj)))

example : ∃ j r, 0 < j ∧ working.Returns j 1 r :=
  channel_sole_producer_returns_partial working working_fair rfl (v := 7) (M := 16)
    (fun i u v h => by
      rcases h with h | h
      · have := lasso_calls_mem _ _ _ _ h; simp [workPre, workLoop] at this; exact this.1
      · have := lasso_calls_mem _ _ _ _ h; simp [workPre, workLoop] at this; exact this.1)
    (lasso_calls _ _ _ _ rfl) (by decide) ((Exec.room_iff _ _).mpr (working_q (by decide)).2)

/-- C87. Without any fairness: as long as something happens to the channel, calls return. If from some instant on no
instant is idle and no wakeup is spurious, then calls return again and again. -/
theorem channel_system_progress (e : Exec cfg α n) {N0 : Nat} (hact : ∀ i, N0 ≤ i → e.act i ≠ none)
    (hsp : ∀ i, N0 ≤ i → ¬ e.SpuriousAt i) (N : Nat) : ∃ i t r, N ≤ i ∧ e.Returns i t r := by
  apply Classical.byContradiction
  intro hno
  have hdec : ∀ i, max N N0 ≤ i → potential n (e.st (i + 1)) < potential n (e.st i) := by
    intro i hi
    rcases e.ok i with ⟨h, _⟩ | ⟨a, ha, h⟩
    · exact absurd h (hact i (by omega))
    · have := next_potential h (fun t ht => hsp i (by omega) ⟨t, by rw [ha, ht]⟩)
        (fun ⟨t, r, hr⟩ => hno ⟨i, t, r, by omega, hr⟩)
      rwa [reachable_length (e.reach i)] at this
  obtain ⟨M, hM, hc⟩ := eventually_const (f := fun i => potential n (e.st i)) (fun i hi => Nat.le_of_lt (hdec i hi))
  have a := hc (M + 1) (by omega)
  have b := hdec M hM
  omega

example (N : Nat) : ∃ i t r, N ≤ i ∧ working.Returns i t r :=
  channel_system_progress working (N0 := 0)
    (fun i _ h => by
      obtain ⟨a, _, h1⟩ := lasso_act_mem work_pre work_loop work_core (by decide) i
      rw [show working.act i = _ from h1] at h; cases h)
    (fun i _ ⟨t, h⟩ => by
      obtain ⟨a, h0, h1⟩ := lasso_act_mem work_pre work_loop work_core (by decide) i
      rw [show working.act i = _ from h1] at h
      injection h with h; subst h
      simp [workPre, workLoop] at h0) N

/-! ### Starvation -/

/-- Thread 0 calls `pop` and falls asleep (schedule of channel.hpp:179-181). -/
def starvePre : List (Act Nat) := [.call 0 .pop, .step 0 none, .step 0 none]

/-- Thread 2 pushes a value and wakes thread 0, thread 1 takes the value first, thread 0 falls asleep again
(schedule of channel.hpp:85-105, 179-194). -/
def starveLoop : List (Act Nat) :=
  [.call 2 (.push 7), .step 2 none, .step 2 none, .step 2 none, .step 2 none, .step 2 none, .step 2 (some 0), .step 2 none,
   .call 1 .pop, .step 1 none, .step 1 none, .step 1 none, .step 1 none, .step 1 none, .step 1 none, .step 1 none,
   .step 0 none, .step 0 none]

/-- The state after the prefix (about channel.hpp:179-181). -/
def starve0 : St Nat := (run { cap := 1 } (init Nat 3) starvePre).get (by decide)
/-- The state after one round (about channel.hpp:179-194). -/
def starve1 : St Nat := (run { cap := 1 } starve0 starveLoop).get (by decide)

theorem starve_pre : run { cap := 1 } (init Nat 3) starvePre = some starve0 := by decide
theorem starve_loop : run { cap := 1 } starve0 starveLoop = some starve1 := by decide
theorem starve_core : core starve1 = core starve0 := by decide

/-- C87. `pop` can starve: there is a fair execution, every thread running again and again, in which the `pop` of one
thread never returns although values are pushed and popped by others again and again. The wakeup it is sent for each of
them is too late each time. -/
theorem channel_pop_starves_refuted : ∃ e : Exec { cap := 1 } Nat 3, e.Fair ∧
    (∃ i, e.Calls i 0 .pop ∧ ∀ j r, i < j → ¬ e.Returns j 0 r) ∧
    (∀ N, ∃ i, N ≤ i ∧ e.Avail i) ∧ ∀ N, ∃ i, N ≤ i ∧ e.Returns i 1 (.val (some 7)) := by
  refine ⟨lasso starve_pre starve_loop starve_core (by decide), lasso_fair _ _ _ _ ?_,
    ⟨0, lasso_calls _ _ _ _ rfl, fun j r hj => lasso_starved _ _ _ _ (by decide) (by decide) hj⟩, ?_,
    lasso_returns _ _ _ _ (op := .pop) (r := 15) (by decide) (by decide)⟩
  · intro t ht
    match t, ht with
    | 0, _ => exact ⟨16, _, rfl, rfl⟩
    | 1, _ => exact ⟨9, _, rfl, rfl⟩
    | 2, _ => exact ⟨1, _, rfl, rfl⟩
  · intro N
    obtain ⟨i, h1, h2⟩ := lasso_avail starve_pre starve_loop starve_core (by decide) (r := 8) (l := 1) (by decide) (by decide) N
    exact ⟨i, h1, (Exec.avail_iff _ i).mpr (fun h => by rw [h] at h2; cases h2)⟩

/-- Thread 1 fills the channel, thread 0 calls `push` and falls asleep (schedule of channel.hpp:85-105). -/
def starveFPre : List (Act Nat) :=
  [.call 1 (.push 5), .step 1 none, .step 1 none, .step 1 none, .step 1 none, .step 1 none, .step 1 none, .step 1 none,
   .call 0 (.push 6), .step 0 none, .step 0 none, .step 0 none]

/-- Thread 2 pops a value and wakes thread 0, thread 1 takes the room first, thread 0 falls asleep again
(schedule of channel.hpp:85-105, 179-194). -/
def starveFLoop : List (Act Nat) :=
  [.call 2 .pop, .step 2 none, .step 2 none, .step 2 none, .step 2 none, .step 2 (some 0), .step 2 none, .step 2 none,
   .call 1 (.push 5), .step 1 none, .step 1 none, .step 1 none, .step 1 none, .step 1 none, .step 1 none, .step 1 none,
   .step 0 none, .step 0 none]

/-- The state after the prefix (about channel.hpp:85-105). -/
def starveF0 : St Nat := (run { cap := 1 } (init Nat 3) starveFPre).get (by decide)
/-- The state after one round (about channel.hpp:85-105). -/
def starveF1 : St Nat := (run { cap := 1 } starveF0 starveFLoop).get (by decide)

theorem starveF_pre : run { cap := 1 } (init Nat 3) starveFPre = some starveF0 := by decide
theorem starveF_loop : run { cap := 1 } starveF0 starveFLoop = some starveF1 := by decide
theorem starveF_core : core starveF1 = core starveF0 := by decide

/-- C87. `push` can starve: there is a fair execution, every thread running again and again, in which the `push` of one
thread never returns although room is made and used by others again and again. -/
theorem channel_push_starves_refuted : ∃ e : Exec { cap := 1 } Nat 3, e.Fair ∧
    (∃ i, e.Calls i 0 (.push 6) ∧ ∀ j r, i < j → ¬ e.Returns j 0 r) ∧
    (∀ N, ∃ i, N ≤ i ∧ e.Room i) ∧ ∀ N, ∃ i, N ≤ i ∧ e.Returns i 1 (.bool true) := by
  refine ⟨lasso starveF_pre starveF_loop starveF_core (by decide), lasso_fair _ _ _ _ ?_,
    ⟨8, lasso_calls _ _ _ _ rfl, fun j r hj => lasso_starved _ _ _ _ (by decide) (by decide) hj⟩, ?_,
    lasso_returns _ _ _ _ (op := .push 5) (r := 15) (by decide) (by decide)⟩
  · intro t ht
    match t, ht with
    | 0, _ => exact ⟨16, _, rfl, rfl⟩
    | 1, _ => exact ⟨9, _, rfl, rfl⟩
    | 2, _ => exact ⟨1, _, rfl, rfl⟩
  · intro N
    obtain ⟨i, h1, h2⟩ := lasso_avail starveF_pre starveF_loop starveF_core (by decide) (r := 8) (l := 0) (by decide) (by decide) N
    exact ⟨i, h1, (Exec.room_iff _ i).mpr (by rw [h2]; decide)⟩

/-- Thread 0 calls `try_pop` and waits for the mutex (schedule of channel.hpp:200-201). -/
def mutexPre : List (Act Nat) := [.call 0 .tryPop]
/-- Thread 1 calls `try_pop` (schedule of channel.hpp:200-203). -/
def mutexLoop : List (Act Nat) := [.call 1 .tryPop, .step 1 none, .step 1 none, .step 1 none, .step 1 none]
/-- The state after the prefix (about channel.hpp:200-203). -/
def mutex0 : St Nat := (run { cap := 1 } (init Nat 2) mutexPre).get (by decide)
/-- The state after one round (about channel.hpp:200-203). -/
def mutex1 : St Nat := (run { cap := 1 } mutex0 mutexLoop).get (by decide)

theorem mutex_pre : run { cap := 1 } (init Nat 2) mutexPre = some mutex0 := by decide
theorem mutex_loop : run { cap := 1 } mutex0 mutexLoop = some mutex1 := by decide
theorem mutex_core : core mutex1 = core mutex0 := by decide

/-- C87. Fairness of the mutex is needed: with a scheduler that only promises to run a thread that could run from some
instant on without interruption, even `try_pop` need not return, because another thread may take the mutex again and
again (and `std::mutex` promises nothing else). -/
theorem channel_weak_fairness_refuted : ∃ e : Exec { cap := 1 } Nat 2, e.WeakFair ∧
    (∃ i, e.Calls i 0 .tryPop ∧ ∀ j r, i < j → ¬ e.Returns j 0 r) ∧
    ∀ N, ∃ i, N ≤ i ∧ e.Returns i 1 (.val none) := by
  refine ⟨lasso mutex_pre mutex_loop mutex_core (by decide), ?_,
    ⟨0, lasso_calls _ _ _ _ rfl, fun j r hj => lasso_starved _ _ _ _ (by decide) (by decide) hj⟩,
    lasso_returns _ _ _ _ (op := .tryPop) (r := 4) (by decide) (by decide)⟩
  rintro t ⟨N, hN⟩ N'
  match t with
  | 0 =>
    obtain ⟨x, hx⟩ := run_take_some mutex_loop 2
    obtain ⟨i, h1, _, h2, h3⟩ := lasso_again mutex_pre mutex_loop mutex_core (by decide) (r := 2) (by decide) rfl hx N
    obtain ⟨w, s', h4⟩ := hN i h1
    have hx' : x = (run { cap := 1 } mutex0 (mutexLoop.take 2)).get (by decide) := by simp [hx]
    have h5 := (core_eq h3).2.2
    have h6 : x.owner = some 1 := by rw [hx']; decide
    have h7 : x.pcs[0]? = some .qLock := by rw [hx']; decide
    simp only [next] at h4
    rw [h5.2, h7] at h4
    simp only [stepAt, acquire] at h4
    rw [h5.1, h6] at h4
    cases h4
  | 1 =>
    obtain ⟨x, hx⟩ := run_take_some mutex_loop 1
    obtain ⟨i, h1, _, h2, h3⟩ := lasso_again mutex_pre mutex_loop mutex_core (by decide) (r := 1) (by decide) rfl hx N'
    exact ⟨i, h1, _, h2, rfl⟩
  | t + 2 =>
    obtain ⟨w, s', h4⟩ := hN N (Nat.le_refl _)
    simp only [next] at h4
    split at h4
    · rename_i hp
      have := Exec.lt_of_pc _ hp
      omega
    · cases h4

end Verif.Channel
