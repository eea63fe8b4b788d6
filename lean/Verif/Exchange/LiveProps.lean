import Verif.Exchange.LiveExec
import Verif.Exchange.Props

/-!
Liveness of `exchange_channel.hpp` (C88): which calls return eventually, in executions without end.

The theorems with the hypothesis `e.Fair` assume a scheduler and a mutex that starve nobody; the remark about weaker
schedulers in `Verif.Channel.LiveProps` applies here as well.
-/
namespace Verif.Exchange

open Verif.Channel (Op Res Ev Act Phase ThreadRun eventually_const)

variable {α : Type} {cfg : Cfg} {n : Nat}

/-! ### Executions in which the hypotheses of the theorems hold -/

/-- Thread 1 pushes a value, thread 0 calls `pop` (schedule of exchange_channel.hpp:79-96, 124). -/
def workPre : List (Act Nat) :=
  [.call 1 (.push 7), .step 1 none, .step 1 none, .step 1 none, .step 1 none, .step 1 none, .step 1 none, .call 0 .pop]
/-- Thread 0 pops the value, thread 1 pushes another, thread 0 calls `pop` again (schedule of
exchange_channel.hpp:79-96, 124-136). -/
def workLoop : List (Act Nat) :=
  [.step 0 none, .step 0 none, .step 0 none, .step 0 none, .step 0 none, .step 0 none,
   .call 1 (.push 7), .step 1 none, .step 1 none, .step 1 none, .step 1 none, .step 1 none, .step 1 none, .call 0 .pop]
/-- The state after the prefix (about exchange_channel.hpp:79-96). -/
def work0 : St Nat := (run {} (init Nat 2) workPre).get (by decide)
/-- The state after one round (about exchange_channel.hpp:79-136). -/
def work1 : St Nat := (run {} work0 workLoop).get (by decide)

theorem work_pre : run {} (init Nat 2) workPre = some work0 := by decide
theorem work_loop : run {} work0 workLoop = some work1 := by decide
theorem work_core : core work1 = core work0 := by decide

/-- A producer and a consumer that run for ever (about exchange_channel.hpp:79-136). -/
def working : Exec {} Nat 2 := lasso work_pre work_loop work_core (by decide)

theorem working_fair : working.Fair := by
  refine lasso_fair _ _ _ _ ?_
  intro t ht
  match t, ht with
  | 0, _ => exact ⟨0, _, rfl, rfl⟩
  | 1, _ => exact ⟨8, _, rfl, rfl⟩

theorem working_avail : (working.st 8).slot ≠ none := by decide

/-- Thread 0 calls `pop` and falls asleep, thread 1 closes the channel (schedule of exchange_channel.hpp:53-63, 124-126). -/
def closePre : List (Act Nat) :=
  [.call 0 .pop, .step 0 none, .step 0 none,
   .call 1 .close, .step 1 none, .step 1 none, .step 1 none, .step 1 none, .step 1 none,
   .step 0 none, .step 0 none, .step 0 none, .step 0 none, .step 0 none]
/-- Both threads ask whether the channel is closed (schedule of exchange_channel.hpp:68-70). -/
def closeLoop : List (Act Nat) :=
  [.call 0 .isClosed, .step 0 none, .step 0 none, .call 1 .isClosed, .step 1 none, .step 1 none]
/-- The state after the prefix (about exchange_channel.hpp:53-63). -/
def close0 : St Nat := (run {} (init Nat 2) closePre).get (by decide)
/-- The state after one round (about exchange_channel.hpp:68-70). -/
def close1 : St Nat := (run {} close0 closeLoop).get (by decide)

theorem close_pre : run {} (init Nat 2) closePre = some close0 := by decide
theorem close_loop : run {} close0 closeLoop = some close1 := by decide
theorem close_core : core close1 = core close0 := by decide

/-- A pop that is released by a close (about exchange_channel.hpp:53-63, 124-132). -/
def closing : Exec {} Nat 2 := lasso close_pre close_loop close_core (by decide)

theorem closing_fair : closing.Fair := by
  refine lasso_fair _ _ _ _ ?_
  intro t ht
  match t, ht with
  | 0, _ => exact ⟨1, _, rfl, rfl⟩
  | 1, _ => exact ⟨4, _, rfl, rfl⟩

/-! ### The theorems -/

/-- C88. `push`, `try_pop`, `close` and `closed` always return (under fairness), whatever the other threads do and
whatever the element operations throw: a producer never waits for a consumer. -/
theorem exchange_push_returns (e : Exec cfg α n) (hf : e.Fair) {i t : Nat} {op : Op α} (hc : e.Calls i t op)
    (hop : op ≠ .pop) : ∃ j r, i < j ∧ e.Returns j t r := by
  obtain ⟨ht, hp⟩ := e.of_calls hc
  obtain ⟨k, r, h1, h2⟩ := e.returns_awake hf (i := i + 1) ht (Exec.entry_ne_idle hp) (by
    generalize e.pc (i + 1) t = p at hp
    cases op <;> simp [entry] at hp <;> first | exact absurd rfl hop | (subst hp; rfl))
  exact ⟨k, r, by omega, h2⟩

example : ∃ j r, 0 < j ∧ working.Returns j 1 r :=
  exchange_push_returns working working_fair (op := .push 7) (lasso_calls _ _ _ _ rfl) (by simp)

/-- C88. Once a `close` has taken effect every call returns, calls of `pop` that were already waiting included, whatever
the element operations throw. -/
theorem exchange_closed_returns (e : Exec cfg α n) (hf : e.Fair) {i t : Nat} {op : Op α} (hc : e.Calls i t op) {M : Nat}
    (hcl : e.Closed M) : ∃ j r, i < j ∧ e.Returns j t r := by
  by_cases hop : op = .pop
  · subst hop
    obtain ⟨ht, hp⟩ := e.of_calls hc
    apply Classical.byContradiction
    intro hno
    have hno' : ¬ ∃ k r, i + 1 ≤ k ∧ e.Returns k t r := fun ⟨k, r, h1, h2⟩ => hno ⟨k, r, by omega, h2⟩
    have hclosed : ∀ j, max M (i + 1) ≤ j → (e.st j).closed = true := fun j hj =>
      e.closed_mono (e.closed_of hcl) (by omega)
    have hw := e.waits_stays hf ht (by rw [← Option.some.inj hp]; rfl) hno'
    have hs := e.waits_asleep hf (M := max M (i + 1)) ht (fun j hj => hw j (by omega)) (fun j hj => .inr (hclosed j hj))
    exact e.closed_wakes hf ht hs (hclosed _ (Nat.le_refl _))
  · exact exchange_push_returns e hf hc hop

example : ∃ j r, 0 < j ∧ closing.Returns j 0 r :=
  exchange_closed_returns closing closing_fair (op := .pop) (M := 6) (lasso_calls _ _ _ _ rfl) ⟨1, by decide⟩

/-- C09, for finite executions and all element types: when a close has taken effect and nothing can run any more, every
call has returned, whatever was thrown before (stronger than `exchange_close_releases_partial`). -/
theorem exchange_close_releases {s : St α} (h : Reachable cfg n s) (hq : Quiescent cfg s) {t' : Nat}
    (hcl : .lin t' .close .unit ∈ s.hist) {t : Nat} (ht : t < n) : ThreadRun cfg.moveThrow t s.hist .idle := by
  have hc : s.closed = true := (explains_reach h).closed_of_mem hcl
  have hl := lockInv_reach h
  have hw := wakeC_reach h hc
  have hlt : t < s.pcs.length := by rw [reachable_length h]; exact ht
  have hp : s.pcs[t]? = some s.pcs[t] := List.getElem?_eq_getElem hlt
  obtain ⟨p, hph, hrun⟩ := runInv_reach h t _ hp
  generalize s.pcs[t] = pc at hp hph
  rcases quiescent_pc hl hq hp with rfl | rfl
  · cases hph; exact hrun
  · have := hw (countP_pos_of hp rfl)
    rw [List.countP_pos_iff] at this
    obtain ⟨x, hx, hx'⟩ := this
    obtain ⟨i, hi⟩ := List.mem_iff_getElem?.mp hx
    rcases quiescent_pc hl hq hi with rfl | rfl <;> simp [isCl] at hx'

/-- A channel of values whose operations may throw: thread 0 falls asleep in `pop`, a push of thread 1 throws, thread 1
closes (run of exchange_channel.hpp:53-136). -/
def closedEnd : St Nat := (run { ctorThrow := true, moveThrow := true } (init Nat 2)
  [.call 0 .pop, .step 0 none, .step 0 none, .call 1 (.push 3), .step 1 none, .step 1 none, .throw 1,
   .step 1 none, .step 1 none, .call 1 .close, .step 1 none, .step 1 none, .step 1 none, .step 1 none,
   .step 1 none, .step 0 none, .step 0 none, .step 0 none, .step 0 none, .step 0 none]).get (by decide)

example : ThreadRun true 0 closedEnd.hist .idle :=
  exchange_close_releases (cfg := { ctorThrow := true, moveThrow := true }) (n := 2) (t' := 1)
    ⟨_, (Option.some_get (by decide)).symm⟩
    (fun t w => match t with
      | 0 => rfl
      | 1 => rfl
      | t + 2 => rfl) (by decide) (by decide)

/-- C88. The only consumer is never starved: its `pop` returns if at some instant after the call there is a value in the
channel. Needs that nothing throws: a constructor that throws takes the value out of the channel again
(`exchange_drop_refuted`), a move that throws can lose the wakeup (`exchange_no_lost_wakeup_refuted`). -/
theorem exchange_sole_consumer_returns_partial (e : Exec cfg α n) (hf : e.Fair) (hm : cfg.moveThrow = false)
    (hct : cfg.ctorThrow = false) {i t : Nat} (hs : e.SoleConsumer t) (hc : e.Calls i t .pop) {M : Nat} (hM : i < M)
    (ha : e.Avail M) : ∃ j r, i < j ∧ e.Returns j t r := by
  apply Classical.byContradiction
  intro hno
  obtain ⟨ht, hp⟩ := e.of_calls hc
  have hno' : ¬ ∃ k r, i + 1 ≤ k ∧ e.Returns k t r := fun ⟨k, r, h1, h2⟩ => hno ⟨k, r, by omega, h2⟩
  have hw := e.waits_stays hf ht (by rw [← Option.some.inj hp]; rfl) hno'
  have hq := e.sole_avail hct hs (M := M) (fun j hj => hw j (by omega)) ((e.avail_iff M).mp ha)
  have hs := e.waits_asleep hf (M := M) ht (fun j hj => hw j (by omega)) (fun j hj => .inl (hq j hj))
  exact e.avail_wakes hf hm ht hs hq

example : ∃ j r, 7 < j ∧ working.Returns j 0 r :=
  exchange_sole_consumer_returns_partial working working_fair rfl rfl (M := 8)
    (fun i u h => by
      rcases h with h | h
      · have := lasso_calls_mem _ _ _ _ h; simpa [workPre, workLoop] using this
      · have := lasso_calls_mem _ _ _ _ h; simp [workPre, workLoop] at this)
    (lasso_calls _ _ _ _ rfl) (by decide) ((Exec.avail_iff _ _).mpr working_avail)

/-- C88. There is no execution in which a `pop` waits for ever while the slot always holds a value (other consumers or
throwing constructors may be present). Together with `exchange_pop_starves_refuted` this is the exact picture: a waiting
`pop` can only be passed by if somebody else empties the slot again and again. -/
theorem exchange_pop_returns_partial (e : Exec cfg α n) (hf : e.Fair) (hm : cfg.moveThrow = false) {i t : Nat}
    (hc : e.Calls i t .pop) (hno : ∀ j r, i < j → ¬ e.Returns j t r) : ∀ N, ∃ j, N ≤ j ∧ ¬ e.Avail j := by
  intro N
  apply Classical.byContradiction
  intro hall
  obtain ⟨ht, hp⟩ := e.of_calls hc
  have hno' : ¬ ∃ k r, i + 1 ≤ k ∧ e.Returns k t r := fun ⟨k, r, h1, h2⟩ => hno k r (by omega) h2
  have hq : ∀ j, max N (i + 1) ≤ j → (e.st j).slot ≠ none := fun j hj =>
    (e.avail_iff j).mp (Classical.byContradiction fun h => hall ⟨j, by omega, h⟩)
  have hw := e.waits_stays hf ht (by rw [← Option.some.inj hp]; rfl) hno'
  have hs := e.waits_asleep hf (M := max N (i + 1)) ht (fun j hj => hw j (by omega)) (fun j hj => .inl (hq j hj))
  exact e.avail_wakes hf hm ht hs hq

/-- C88. Without any fairness: as long as something happens to the channel, calls return. If from some instant on no
instant is idle and no wakeup is spurious, then calls return again and again. -/
theorem exchange_system_progress (e : Exec cfg α n) {N0 : Nat} (hact : ∀ i, N0 ≤ i → e.act i ≠ none)
    (hsp : ∀ i, N0 ≤ i → ¬ e.SpuriousAt i) (N : Nat) : ∃ i t r, N ≤ i ∧ e.Returns i t r := by
  apply Classical.byContradiction
  intro hno
  have hdec : ∀ i, max N N0 ≤ i → potential n (e.st (i + 1)) < potential n (e.st i) := by
    intro i hi
    rcases e.ok i with ⟨h, _⟩ | ⟨a, ha, h⟩
    · exact absurd h (hact i (by omega))
    · have := next_potential h (fun t ht => hsp i (by omega) ⟨t, by rw [ha, ht]⟩)
        (fun ⟨t, r, hr⟩ => hno ⟨i, t, r, by omega, hr⟩)
      rwa [reachable_length (e.reach i)] at this
  obtain ⟨M, hM, hc⟩ := eventually_const (f := fun i => potential n (e.st i)) (fun i hi => Nat.le_of_lt (hdec i hi))
  have a := hc (M + 1) (by omega)
  have b := hdec M hM
  omega

example (N : Nat) : ∃ i t r, N ≤ i ∧ working.Returns i t r :=
  exchange_system_progress working (N0 := 0)
    (fun i _ h => by
      obtain ⟨a, _, h1⟩ := lasso_act_mem work_pre work_loop work_core (by decide) i
      rw [show working.act i = _ from h1] at h; cases h)
    (fun i _ ⟨t, h⟩ => by
      obtain ⟨a, h0, h1⟩ := lasso_act_mem work_pre work_loop work_core (by decide) i
      rw [show working.act i = _ from h1] at h
      injection h with h; subst h
      simp [workPre, workLoop] at h0) N

/-! ### Starvation -/

/-- Thread 0 calls `pop` and falls asleep (schedule of exchange_channel.hpp:124-126). -/
def starvePre : List (Act Nat) := [.call 0 .pop, .step 0 none, .step 0 none]

/-- Thread 2 pushes a value and wakes thread 0, thread 1 takes the value first, thread 0 falls asleep again
(schedule of exchange_channel.hpp:79-96, 124-136). -/
def starveLoop : List (Act Nat) :=
  [.call 2 (.push 7), .step 2 none, .step 2 none, .step 2 none, .step 2 none, .step 2 (some 0), .step 2 none,
   .call 1 .pop, .step 1 none, .step 1 none, .step 1 none, .step 1 none, .step 1 none, .step 1 none,
   .step 0 none, .step 0 none]

/-- The state after the prefix (about exchange_channel.hpp:124-126). -/
def starve0 : St Nat := (run {} (init Nat 3) starvePre).get (by decide)
/-- The state after one round (about exchange_channel.hpp:124-136). -/
def starve1 : St Nat := (run {} starve0 starveLoop).get (by decide)

theorem starve_pre : run {} (init Nat 3) starvePre = some starve0 := by decide
theorem starve_loop : run {} starve0 starveLoop = some starve1 := by decide
theorem starve_core : core starve1 = core starve0 := by decide

/-- The starving execution (about exchange_channel.hpp:79-136). -/
def starving : Exec {} Nat 3 := lasso starve_pre starve_loop starve_core (by decide)

theorem starving_fair : starving.Fair := by
  refine lasso_fair _ _ _ _ ?_
  intro t ht
  match t, ht with
  | 0, _ => exact ⟨14, _, rfl, rfl⟩
  | 1, _ => exact ⟨9, _, rfl, rfl⟩
  | 2, _ => exact ⟨1, _, rfl, rfl⟩

theorem starving_never (j : Nat) (r : Res Nat) (hj : 0 < j) : ¬ starving.Returns j 0 r :=
  lasso_starved _ _ _ _ (by decide) (by decide) hj

example : ∀ N, ∃ j, N ≤ j ∧ ¬ starving.Avail j :=
  exchange_pop_returns_partial starving starving_fair rfl (i := 0) (t := 0) (lasso_calls _ _ _ _ rfl) starving_never

/-- C88. `pop` can starve: there is a fair execution, every thread running again and again, in which the `pop` of one
thread never returns although values are pushed and popped by others again and again. -/
theorem exchange_pop_starves_refuted : ∃ e : Exec {} Nat 3, e.Fair ∧
    (∃ i, e.Calls i 0 .pop ∧ ∀ j r, i < j → ¬ e.Returns j 0 r) ∧
    (∀ N, ∃ i, N ≤ i ∧ e.Avail i) ∧ ∀ N, ∃ i, N ≤ i ∧ e.Returns i 1 (.val (some 7)) := by
  refine ⟨starving, starving_fair, ⟨0, lasso_calls _ _ _ _ rfl, starving_never⟩, ?_,
    lasso_returns _ _ _ _ (op := .pop) (r := 13) (by decide) (by decide)⟩
  intro N
  obtain ⟨i, h1, h2⟩ := lasso_avail starve_pre starve_loop starve_core (by decide) (r := 7) (l := some 7) (by decide) (by decide) N
  exact ⟨i, h1, (Exec.avail_iff _ i).mpr (by rw [show (starving.st i).slot = _ from h2]; simp)⟩

end Verif.Exchange
