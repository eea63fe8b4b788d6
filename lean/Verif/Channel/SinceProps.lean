import Verif.Channel.Since
import Verif.Channel.ThrowProps
import Verif.Channel.LiveProps

/-! C05 and C87 for element types whose operations may throw, call by call: a waiting call is affected only by exceptions
of other calls that happen while it waits. -/
namespace Verif.Channel

variable {α : Type} {cfg : Cfg} {n : Nat}

/-! ### Finite executions -/

/-- C05, for any element type. When no thread can take a step, a `pop` that has not returned is on a channel that is not
closed and that holds no more elements than calls of `pop` of other threads were left by an exception since it was
called; a `push` that has not returned is on a channel that is not closed and lacks no more elements of being full than
calls of `push` of other threads were left by an exception since it was called. In particular exceptions before a call
cannot block it. -/
theorem channel_blocked_since {s : St α} (h : Reachable cfg n s) (hq : Quiescent cfg s) {t : Nat} (ht : t < n) :
    ThreadRun cfg.moveThrow t s.hist .idle ∨
    (ThreadRun cfg.moveThrow t s.hist (.called .pop) ∧ (∀ t' r, .lin t' .close r ∉ s.hist) ∧
      (inserted s.hist).length ≤ (removed s.hist).length + lostPops t s.hist) ∨
    (∃ v, ThreadRun cfg.moveThrow t s.hist (.called (.push v)) ∧ (∀ t' r, .lin t' .close r ∉ s.hist) ∧
      (removed s.hist).length + cfg.cap ≤ (inserted s.hist).length + lostPushes t s.hist) := by
  have hlt : t < s.pcs.length := by rw [reachable_length h]; exact ht
  have hp : s.pcs[t]? = some s.pcs[t] := List.getElem?_eq_getElem hlt
  obtain ⟨p, hph, hrun⟩ := runInv_reach h t _ hp
  have he := explains_reach h
  have hf := channel_fifo h
  have hl := lockInv_reach h
  generalize s.pcs[t] = pc at hp hph
  have hno : s.closed = false → ∀ t' r, Ev.lin t' .close r ∉ s.hist := by
    intro hcl t' r hmem
    have := he.closed_of_mem hmem
    rw [hcl] at this; cases this
  rcases quiescent_pc hl hq hp with rfl | rfl | ⟨v, rfl⟩
  · cases hph; exact .inl hrun
  · cases hph
    cases hc : s.closed with
    | true =>
      have := (lostE_reach h).2 hc (countP_pos_of hp rfl)
      rw [quiescent_count hl hq (p := isClE) rfl rfl (fun _ => rfl)] at this; omega
    | false =>
      have := sinceE_reach h t hc hp
      rw [quiescent_count hl hq (p := isTokE) rfl rfl (fun _ => rfl)] at this
      refine .inr (.inl ⟨hrun, hno hc, ?_⟩)
      rw [hf, List.length_append]; omega
  · cases hph
    cases hc : s.closed with
    | true =>
      have := (lostF_reach h).2 hc (countP_pos_of hp rfl)
      rw [quiescent_count hl hq (p := isClF) rfl rfl (fun _ => rfl)] at this; omega
    | false =>
      have := sinceF_reach h t v hc hp
      rw [quiescent_count hl hq (p := isTokF) rfl rfl (fun _ => rfl)] at this
      refine .inr (.inr ⟨v, hrun, hno hc, ?_⟩)
      rw [hf, List.length_append]; omega

/-- `stranded` of `ThrowProps.lean`: both exceptions happen during the `pop` that sleeps. -/
example : ∃ s : St Nat, Reachable { cap := 2, moveThrow := true } 5 s ∧
    (ThreadRun true 4 s.hist .idle ∨ (ThreadRun true 4 s.hist (.called .pop) ∧ (∀ t' r, .lin t' .close r ∉ s.hist) ∧
      (inserted s.hist).length ≤ (removed s.hist).length + lostPops 4 s.hist) ∨
    (∃ v, ThreadRun true 4 s.hist (.called (.push v)) ∧ (∀ t' r, .lin t' .close r ∉ s.hist) ∧
      (removed s.hist).length + 2 ≤ (inserted s.hist).length + lostPushes 4 s.hist)) := by
  obtain ⟨s, h, hq, _⟩ := channel_blocked_tight
  exact ⟨s, h, channel_blocked_since h hq (by decide)⟩

/-! ### Executions without end -/

/-- Thread 1 pushes a value, thread 0 calls `pop` (schedule of channel.hpp:85-105, 179). -/
def failPre : List (Act Nat) :=
  [.call 1 (.push 7), .step 1 none, .step 1 none, .step 1 none, .step 1 none, .step 1 none, .step 1 none, .step 1 none,
   .call 0 .pop]
/-- The `pop` of thread 0 and a `push` of thread 1 are left by exceptions, thread 0 calls `pop` again (schedule of
channel.hpp:85-105, 179-194). -/
def failLoop : List (Act Nat) :=
  [.step 0 none, .step 0 none, .throw 0, .step 0 none, .step 0 none,
   .call 1 (.push 7), .step 1 none, .step 1 none, .step 1 none, .throw 1, .step 1 none, .step 1 none, .call 0 .pop]
/-- A channel whose elements throw (channel.hpp:22-31). -/
def failCfg : Cfg := { cap := 3, ctorThrow := true, moveThrow := true }
/-- The state after the prefix (about channel.hpp:85-105). -/
def fail0 : St Nat := (run failCfg (init Nat 2) failPre).get (by decide)
/-- The state after one round (about channel.hpp:85-194). -/
def fail1 : St Nat := (run failCfg fail0 failLoop).get (by decide)

theorem fail_pre : run failCfg (init Nat 2) failPre = some fail0 := by decide
theorem fail_loop : run failCfg fail0 failLoop = some fail1 := by decide
theorem fail_core : core fail1 = core fail0 := by decide

/-- A producer and a consumer that run for ever, all of whose calls but the first are left by exceptions
(about channel.hpp:85-194). -/
def failing : Exec failCfg Nat 2 := lasso fail_pre fail_loop fail_core (by decide)

theorem failing_fair : failing.Fair := by
  refine lasso_fair _ _ _ _ ?_
  intro t ht
  match t, ht with
  | 0, _ => exact ⟨0, _, rfl, rfl⟩
  | 1, _ => exact ⟨6, _, rfl, rfl⟩

theorem failing_q {j : Nat} (hj : 9 ≤ j) : (failing.st j).q.length = 1 := by
  have := lasso_always fail_pre fail_loop fail_core (by decide)
    (Q := fun x => decide (x.q.length = 1) = true) (by
      have : ∀ r < failLoop.length, ((run failCfg fail0 (failLoop.take r)).map
        (fun x => decide (x.q.length = 1))) = some true := by decide
      intro r hr x hx
      have h := this r hr
      rw [hx] at h
      exact Option.some.inj h) (i := j) hj
  exact of_decide_eq_true this

theorem failing_consumer : failing.SoleConsumer 0 := fun i u h => by
  rcases h with h | h
  · have := lasso_calls_mem _ _ _ _ h; simpa [failPre, failLoop] using this
  · have := lasso_calls_mem _ _ _ _ h; simp [failPre, failLoop] at this

theorem failing_producer : failing.SoleProducer 1 := fun i u v h => by
  rcases h with h | h
  · have := lasso_calls_mem _ _ _ _ h; simp [failPre, failLoop] at this; exact this.1
  · have := lasso_calls_mem _ _ _ _ h; simp [failPre, failLoop] at this

theorem step_lostPops {s s' : St α} (h : Step cfg s s') {t : Nat} (ht : s.pcs[t]? = some .pSleep) :
    lostPops t s.hist ≤ lostPops t s'.hist := by
  cases h with
  | @loc u pc q' c' o' pc' es hp hl =>
    have hut : pc = .idle → u ≠ t := by rintro rfl rfl; rw [hp] at ht; cases ht
    dsimp only
    rw [lostPops_append]
    generalize s.q = q0, s.closed = c0, s.owner = o0 at hl
    generalize lostPops t s.hist = K
    cases hl <;> simp [lostPop]
    case call => simp [hut]
    case pBodyT => split <;> omega
  | _ => exact Nat.le_refl _

theorem step_lostPushes {s s' : St α} (h : Step cfg s s') {t : Nat} {v : α} (ht : s.pcs[t]? = some (.eSleep v)) :
    lostPushes t s.hist ≤ lostPushes t s'.hist := by
  cases h with
  | @loc u pc q' c' o' pc' es hp hl =>
    have hut : pc = .idle → u ≠ t := by rintro rfl rfl; rw [hp] at ht; cases ht
    dsimp only
    rw [lostPushes_append]
    generalize s.q = q0, s.closed = c0, s.owner = o0 at hl
    generalize lostPushes t s.hist = K
    cases hl <;> simp [lostPush]
    case call => simp [hut]
    case eBodyT => split <;> omega
  | _ => exact Nat.le_refl _

/-- A consumer that goes on takes the element or leaves by an exception. -/
theorem step_isPop_or {s s' : St α} (h : Step cfg s s') {t u : Nat} {pc pc' : PC α} (hut : u ≠ t)
    (hp : s.pcs[u]? = some pc) (hi : isPop pc = true) (hp' : s'.pcs[u]? = some pc') (hi' : isPop pc' = false)
    (hq : s.q ≠ []) : s.q.length = s'.q.length + 1 ∨ lostPops t s'.hist = lostPops t s.hist + 1 := by
  rcases step_thread h hp with h1 | ⟨rfl, h1⟩ | ⟨v, rfl, h1⟩ | ⟨q', c', o', pc', es, hl, rfl, h1⟩ | ⟨op, rfl, h1, _⟩ |
    ⟨op, x, rfl, h1, _⟩ | ⟨rfl, h1, _⟩ | ⟨rfl, h1, _⟩
  · rw [hp'] at h1; injection h1 with h1; subst h1; rw [hi] at hi'; cases hi'
  · simp [isPop] at hi
  · simp [isPop] at hi
  · rw [hp'] at h1; injection h1 with h1; subst h1
    dsimp only
    rw [lostPops_append]
    generalize s.q = q at *
    generalize s.closed = c at *
    generalize s.owner = o0 at hl
    cases hl <;> first | (simp [isPop] at hi; done) | (simp [isPop] at hi'; done) | skip
    case pCheckSl hx => exact absurd (.inl hq) hx
    case pBodyN => exact absurd rfl hq
    case pBodyS => simp
    case pBodyT hx => right; simp [lostPop, hut]
  all_goals simp [isPop] at hi

/-- A producer that goes on inserts the element or leaves by an exception. -/
theorem step_isPush_or {s s' : St α} (h : Step cfg s s') {t u : Nat} {pc pc' : PC α} (hut : u ≠ t)
    (hp : s.pcs[u]? = some pc) (hi : isPush pc = true) (hp' : s'.pcs[u]? = some pc') (hi' : isPush pc' = false)
    (hq : s.q.length < cfg.cap) (hc : s.closed = false) :
    s'.q.length = s.q.length + 1 ∨ lostPushes t s'.hist = lostPushes t s.hist + 1 := by
  rcases step_thread h hp with h1 | ⟨rfl, h1⟩ | ⟨v, rfl, h1⟩ | ⟨q', c', o', pc', es, hl, rfl, h1⟩ | ⟨op, rfl, h1, _⟩ |
    ⟨op, x, rfl, h1, _⟩ | ⟨rfl, h1, _⟩ | ⟨rfl, h1, _⟩
  · rw [hp'] at h1; injection h1 with h1; subst h1; rw [hi] at hi'; cases hi'
  · simp [isPush] at hi
  · simp [isPush] at hi
  · rw [hp'] at h1; injection h1 with h1; subst h1
    dsimp only
    rw [lostPushes_append]
    generalize s.q = q at *
    generalize s.closed = c at *
    generalize s.owner = o0 at hl
    cases hl <;> first | (simp [isPush] at hi; done) | (simp [isPush] at hi'; done) | skip
    case eCheckSl hx => exact absurd (.inl hq) hx
    case eBodyC => cases hc
    case eBodyO => simp
    case eBodyT hx => right; simp [lostPush, hut]
  all_goals simp [isPush] at hi

/-- A pop does not sleep for ever while there always are more values than exceptions of others during it. -/
theorem Exec.avail_wakes_since (e : Exec cfg α n) (hf : e.Fair) {M t : Nat} (ht : t < n)
    (hs : ∀ j, M ≤ j → e.pc j t = .pSleep) (hq : ∀ j, M ≤ j → lostPops t (e.st j).hist < (e.st j).q.length) : False := by
  have hopen : ∀ j, M ≤ j → (e.st j).closed = false := by
    intro j hj
    cases hc : (e.st j).closed with
    | false => rfl
    | true => exact (e.closed_wakes hf ht (fun k hk => hs k (by omega)) hc).elim
  have hsl : ∀ j, M ≤ j → (e.st j).pcs[t]? = some .pSleep := fun j hj => by rw [e.pc_eq ht, hs j hj]
  have hne : ∀ j, M ≤ j → (e.st j).q ≠ [] := fun j hj h => by have := hq j hj; rw [h] at this; simp at this
  obtain ⟨M1, hM1, hconst⟩ := eventually_const (f := fun j => (e.st j).pcs.countP isSlE) (N := M) (by
    intro j hj
    rcases e.cases j with h | h
    · rw [h]; exact Nat.le_refl _
    · exact step_slE h (.inl (hne j hj)))
  have hnt : ∀ j, M1 ≤ j → ∀ u, u < n → isNtE (e.pc j u) = false := by
    intro j hj u hu
    cases hx : isNtE (e.pc j u) with
    | false => rfl
    | true =>
      obtain ⟨k, hk, hst, h1, h2⟩ := e.passes hf Exec.ntE_active hu hx
      rcases step_ntE hst (e.pc_eq hu) h1 (e.pc_eq hu) h2 with h3 | h3
      · exact absurd (hs k (by omega)) (h3 _ (List.mem_of_getElem? (e.pc_eq ht)))
      · have a := hconst k (by omega)
        have b := hconst (k + 1) (by omega)
        omega
  have hle : ∀ j, M1 ≤ j → (e.st (j + 1)).q.length ≤ (e.st j).q.length := by
    intro j hj
    rcases e.cases j with h | h
    · rw [h]; exact Nat.le_refl _
    · rcases step_queue h with h1 | ⟨_, u, p, h2, h3⟩ | ⟨h1, _⟩
      · omega
      · have := hnt (j + 1) (by omega) u (e.lt_of_pc h2)
        rw [e.pc_some h2, h3] at this; cases this
      · omega
  -- from some instant on neither the elements nor the exceptions change
  obtain ⟨M2, hM2, hqc⟩ := eventually_const (f := fun j => (e.st j).q.length - lostPops t (e.st j).hist) (N := M1) (by
    intro j hj
    have a := hle j hj
    have b : lostPops t (e.st j).hist ≤ lostPops t (e.st (j + 1)).hist := by
      rcases e.cases j with h | h
      · rw [h]; exact Nat.le_refl _
      · exact step_lostPops h (hsl j (by omega))
    omega)
  have hw := sinceE_reach (e.reach M2) t (hopen M2 (by omega)) (hsl M2 (by omega))
  have hlen := hq M2 (by omega)
  obtain ⟨u, hu, htok⟩ := e.find_pc (i := M2) (p := isTokE) (by omega)
  have hpop : isPop (e.pc M2 u) = true := by
    have := hnt M2 hM2 u hu
    revert this htok
    generalize e.pc M2 u = p
    cases p <;> simp [isTokE, isNtE, isPop]
  obtain ⟨k, hk, hst, h1, h2⟩ := e.passes hf Exec.pop_active hu hpop
  have hut : u ≠ t := by rintro rfl; rw [hs k (by omega)] at h1; simp [isPop] at h1
  have h3 := step_isPop_or hst hut (e.pc_eq hu) h1 (e.pc_eq hu) h2 (hne k (by omega))
  have a := hqc k (by omega)
  have b := hqc (k + 1) (by omega)
  have c := hq k (by omega)
  have d := hle k (by omega)
  have f := step_lostPops hst (hsl k (by omega))
  omega

/-- A push does not sleep for ever while there always is more room than exceptions of others during it. -/
theorem Exec.room_wakes_since (e : Exec cfg α n) (hf : e.Fair) {M t : Nat} (ht : t < n)
    (hs : ∀ j, M ≤ j → ∃ v, e.pc j t = .eSleep v)
    (hq : ∀ j, M ≤ j → (e.st j).q.length + lostPushes t (e.st j).hist < cfg.cap) : False := by
  have hsl : ∀ j, M ≤ j → ∃ v, (e.st j).pcs[t]? = some (.eSleep v) := by
    intro j hj; obtain ⟨v, hv⟩ := hs j hj; exact ⟨v, by rw [e.pc_eq ht, hv]⟩
  have hopen : ∀ j, M ≤ j → (e.st j).closed = false := by
    intro j hj
    cases hc : (e.st j).closed with
    | false => rfl
    | true => exact (e.closed_wakesF hf ht (fun k hk => hs k (by omega)) hc).elim
  obtain ⟨M1, hM1, hconst⟩ := eventually_const (f := fun j => (e.st j).pcs.countP isSlF) (N := M) (by
    intro j hj
    rcases e.cases j with h | h
    · rw [h]; exact Nat.le_refl _
    · exact step_slF h (.inl (by have := hq j hj; omega)))
  have hnt : ∀ j, M1 ≤ j → ∀ u, u < n → isNtF (e.pc j u) = false := by
    intro j hj u hu
    cases hx : isNtF (e.pc j u) with
    | false => rfl
    | true =>
      obtain ⟨k, hk, hst, h1, h2⟩ := e.passes hf Exec.ntF_active hu hx
      rcases step_ntF hst (e.pc_eq hu) h1 (e.pc_eq hu) h2 with h3 | h3
      · obtain ⟨v, hv⟩ := hs k (by omega)
        exact absurd hv (h3 _ (List.mem_of_getElem? (e.pc_eq ht)) v)
      · have a := hconst k (by omega)
        have b := hconst (k + 1) (by omega)
        omega
  have hle : ∀ j, M1 ≤ j → (e.st j).q.length ≤ (e.st (j + 1)).q.length := by
    intro j hj
    rcases e.cases j with h | h
    · rw [h]; exact Nat.le_refl _
    · rcases step_queue h with h1 | ⟨h1, _⟩ | ⟨_, u, p, h2, h3⟩
      · omega
      · omega
      · have := hnt (j + 1) (by omega) u (e.lt_of_pc h2)
        rw [e.pc_some h2, h3] at this; cases this
  have hlost : ∀ j, M ≤ j → lostPushes t (e.st j).hist ≤ lostPushes t (e.st (j + 1)).hist := by
    intro j hj
    rcases e.cases j with h | h
    · rw [h]; exact Nat.le_refl _
    · obtain ⟨v, hv⟩ := hsl j hj
      exact step_lostPushes h hv
  obtain ⟨M2, hM2, hqc⟩ := eventually_const
    (f := fun j => cfg.cap - ((e.st j).q.length + lostPushes t (e.st j).hist)) (N := M1) (by
    intro j hj
    have a := hle j hj
    have b := hlost j (by omega)
    omega)
  obtain ⟨v, hv⟩ := hsl M2 (by omega)
  have hw := sinceF_reach (e.reach M2) t v (hopen M2 (by omega)) hv
  have hlen := hq M2 (by omega)
  obtain ⟨u, hu, htok⟩ := e.find_pc (i := M2) (p := isTokF) (by omega)
  have hpush : isPush (e.pc M2 u) = true := by
    have := hnt M2 hM2 u hu
    revert this htok
    generalize e.pc M2 u = p
    cases p <;> simp [isTokF, isNtF, isPush]
  obtain ⟨k, hk, hst, h1, h2⟩ := e.passes hf Exec.push_active hu hpush
  have hut : u ≠ t := by
    rintro rfl; obtain ⟨v, hv⟩ := hs k (by omega); rw [hv] at h1; simp [isPush] at h1
  have c := hq k (by omega)
  have h3 := step_isPush_or hst hut (e.pc_eq hu) h1 (e.pc_eq hu) h2 (by omega) (hopen k (by omega))
  have a := hqc k (by omega)
  have b := hqc (k + 1) (by omega)
  have d := hle k (by omega)
  have f := hlost k (by omega)
  omega

/-- C87, for any element type. A `pop` returns if from some instant on the channel always holds more elements than calls
of `pop` of other threads were left by an exception since it was called. For element types that do not throw this is
`channel_pop_returns_partial`. What is missing: `channel_pop_starves_refuted`; and `channel_blocked_tight` shows that the
exceptions have to be counted. -/
theorem channel_pop_returns_since_partial (e : Exec cfg α n) (hf : e.Fair) {i t : Nat} (hc : e.Calls i t .pop) {M : Nat}
    (ha : ∀ j, M ≤ j → (removed (e.st j).hist).length + lostPops t (e.st j).hist < (inserted (e.st j).hist).length) :
    ∃ j r, i < j ∧ e.Returns j t r := by
  obtain ⟨ht, hp⟩ := e.of_calls hc
  apply Classical.byContradiction
  intro hno
  have hno' : ¬ ∃ k r, i + 1 ≤ k ∧ e.Returns k t r := fun ⟨k, r, h1, h2⟩ => hno ⟨k, r, by omega, h2⟩
  have hq : ∀ j, max M (i + 1) ≤ j → lostPops t (e.st j).hist < (e.st j).q.length := by
    intro j hj
    have := ha j (by omega)
    rw [channel_fifo (e.reach j), List.length_append] at this
    omega
  have hw := e.waitE_stays hf ht (by rw [hp]; rfl) hno'
  have hs := e.waitE_asleep hf (M := max M (i + 1)) ht (fun j hj => hw j (by omega)) (fun j hj => .inl (by
    intro h; have := hq j hj; rw [h] at this; simp at this))
  exact e.avail_wakes_since hf ht hs hq

/-- C87, for any element type. A `push` returns if from some instant on the channel always lacks more elements of being
full than calls of `push` of other threads were left by an exception since it was called. For element types that do not
throw this is `channel_push_returns_partial`. What is missing: `channel_push_starves_refuted`. -/
theorem channel_push_returns_since_partial (e : Exec cfg α n) (hf : e.Fair) {i t : Nat} {v : α}
    (hc : e.Calls i t (.push v)) {M : Nat}
    (ha : ∀ j, M ≤ j → (inserted (e.st j).hist).length + lostPushes t (e.st j).hist <
      (removed (e.st j).hist).length + cfg.cap) : ∃ j r, i < j ∧ e.Returns j t r := by
  obtain ⟨ht, hp⟩ := e.of_calls hc
  apply Classical.byContradiction
  intro hno
  have hno' : ¬ ∃ k r, i + 1 ≤ k ∧ e.Returns k t r := fun ⟨k, r, h1, h2⟩ => hno ⟨k, r, by omega, h2⟩
  have hq : ∀ j, max M (i + 1) ≤ j → (e.st j).q.length + lostPushes t (e.st j).hist < cfg.cap := by
    intro j hj
    have := ha j (by omega)
    rw [channel_fifo (e.reach j), List.length_append] at this
    omega
  have hw := e.waitF_stays hf ht (by rw [hp]; rfl) hno'
  have hs := e.waitF_asleep hf (M := max M (i + 1)) ht (fun j hj => hw j (by omega)) (fun j hj => .inl (by
    have := hq j hj; omega))
  exact e.room_wakes_since hf ht hs hq

/-! ### One consumer, one producer -/

theorem Exec.sole_lostPops (e : Exec cfg α n) {t : Nat} (hs : e.SoleConsumer t) : ∀ i, lostPops t (e.st i).hist = 0
  | 0 => by rw [e.start]; rfl
  | i + 1 => by
    have ih := sole_lostPops e hs i
    rcases e.cases i with h | h
    · rw [h]; exact ih
    · have hcons : ∀ u, (e.st i).pcs[u]? = some .pBody → u = t := fun u hu =>
        e.sole_cons hs i u (e.lt_of_pc hu) (by rw [e.pc_some hu]; rfl)
      generalize e.st (i + 1) = s' at *
      generalize e.st i = s at *
      cases h with
      | @loc u pc q' c' o' pc' es hp hl =>
        dsimp only
        rw [lostPops_append, ih]
        generalize s.q = q0, s.closed = c0, s.owner = o0 at hl
        cases hl <;> simp [lostPop]
        case pBodyT => exact hcons u hp
      | _ => exact ih

theorem Exec.sole_lostPushes (e : Exec cfg α n) {t : Nat} (hs : e.SoleProducer t) : ∀ i, lostPushes t (e.st i).hist = 0
  | 0 => by rw [e.start]; rfl
  | i + 1 => by
    have ih := sole_lostPushes e hs i
    rcases e.cases i with h | h
    · rw [h]; exact ih
    · have hprod : ∀ u v, (e.st i).pcs[u]? = some (.eBody v) → u = t := fun u v hu =>
        e.sole_prod hs i u (e.lt_of_pc hu) (by rw [e.pc_some hu]; rfl)
      generalize e.st (i + 1) = s' at *
      generalize e.st i = s at *
      cases h with
      | @loc u pc q' c' o' pc' es hp hl =>
        dsimp only
        rw [lostPushes_append, ih]
        generalize s.q = q0, s.closed = c0, s.owner = o0 at hl
        cases hl <;> simp [lostPush]
        case eBodyT => exact hprod u _ hp
      | _ => exact ih

/-- C87. The only consumer of a channel is never starved, whatever the element operations throw: its `pop` returns if at
some instant after the call there is a value in the channel. -/
theorem channel_sole_consumer_returns (e : Exec cfg α n) (hf : e.Fair) {i t : Nat}
    (hs : e.SoleConsumer t) (hc : e.Calls i t .pop) {M : Nat} (hM : i < M) (ha : e.Avail M) :
    ∃ j r, i < j ∧ e.Returns j t r := by
  apply Classical.byContradiction
  intro hno
  obtain ⟨ht, hp⟩ := e.of_calls hc
  have hno' : ¬ ∃ k r, i + 1 ≤ k ∧ e.Returns k t r := fun ⟨k, r, h1, h2⟩ => hno ⟨k, r, by omega, h2⟩
  have hw := e.waitE_stays hf ht (by rw [hp]; rfl) hno'
  have hq := e.sole_avail hs (M := M) (fun j hj => hw j (by omega)) ((e.avail_iff M).mp ha)
  refine hno (channel_pop_returns_since_partial e hf hc (M := M) (fun j hj => ?_))
  rw [e.sole_lostPops hs]
  exact (e.avail_iff j).mpr (hq j hj)

example : ∃ j r, 8 < j ∧ failing.Returns j 0 r :=
  channel_sole_consumer_returns failing failing_fair (M := 9) failing_consumer (lasso_calls _ _ _ _ rfl) (by decide)
    ((Exec.avail_iff _ _).mpr (fun h => by have := failing_q (j := 9) (by decide); rw [h] at this; cases this))

/-- C87. The only producer of a channel is never starved, whatever the element operations throw: its `push` returns if at
some instant after the call there is room in the channel. -/
theorem channel_sole_producer_returns (e : Exec cfg α n) (hf : e.Fair) {i t : Nat} {v : α}
    (hs : e.SoleProducer t) (hc : e.Calls i t (.push v)) {M : Nat} (hM : i < M) (ha : e.Room M) :
    ∃ j r, i < j ∧ e.Returns j t r := by
  apply Classical.byContradiction
  intro hno
  obtain ⟨ht, hp⟩ := e.of_calls hc
  have hno' : ¬ ∃ k r, i + 1 ≤ k ∧ e.Returns k t r := fun ⟨k, r, h1, h2⟩ => hno ⟨k, r, by omega, h2⟩
  have hw := e.waitF_stays hf ht (by rw [hp]; rfl) hno'
  have hq := e.sole_room hs (M := M) (fun j hj => hw j (by omega)) ((e.room_iff M).mp ha)
  refine hno (channel_push_returns_since_partial e hf hc (M := M) (fun j hj => ?_))
  rw [e.sole_lostPushes hs]
  exact (e.room_iff j).mpr (hq j hj)

example : ∃ j r, 0 < j ∧ failing.Returns j 1 r :=
  channel_sole_producer_returns failing failing_fair (v := 7) (M := 9) failing_producer (lasso_calls _ _ _ _ rfl) (by decide)
    ((Exec.room_iff _ _).mpr (by rw [failing_q (by decide)]; decide))

/-- The theorems about many consumers and producers apply to it, too. -/
example : ∃ j r, 8 < j ∧ failing.Returns j 0 r :=
  channel_pop_returns_since_partial failing failing_fair (M := 9) (lasso_calls _ _ _ _ rfl) (fun j hj => by
    rw [failing.sole_lostPops failing_consumer]
    exact (Exec.avail_iff _ _).mpr (fun h => by have := failing_q (j := j) hj; rw [h] at this; cases this))

example : ∃ j r, 0 < j ∧ failing.Returns j 1 r :=
  channel_push_returns_since_partial failing failing_fair (v := 7) (M := 9) (lasso_calls _ _ _ _ rfl) (fun j hj => by
    rw [failing.sole_lostPushes failing_producer]
    exact (Exec.room_iff _ _).mpr (by rw [failing_q hj]; decide))

end Verif.Channel
