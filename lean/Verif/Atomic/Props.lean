import Verif.Atomic.Sim

/-!
Property C114: threads with arbitrary programs that work on values behind `mutex` and `shared_mutex` objects.

A plan gives the initial values and, for every thread, what it does next in which local state. `exec` interleaves the threads
in any way. `serial` is the specification: transactions one after the other, each executed alone.
-/
namespace Verif.Atomic

open Verif.Guards (Kind Owns valueOf)
open Verif.Pipeline (upd)

variable {α σ : Type}

/-! ### Specification -/

/-- Before anything was done; `M0` gives the initial values. -/
def Ser.init (p : Plan α σ) (M0 : Nat → α) : Ser α σ := ⟨M0, p.init, fun _ => 0⟩

/-- The transactions of the given threads, executed one after the other in this order with the given answers to `try_lock`,
explain what can be observed: the local state of every thread between two transactions, the value of every mutex that is not
locked exclusively; and the order contains all transactions that have ended and none that has not begun. -/
def Explains (p : Plan α σ) (M0 : Nat → α) (s : Sys α σ) (order : List (Nat × List Bool)) : Prop :=
  (∀ i r, (s.thr i).code = .ret r → (serial p (Ser.init p M0) order).st i = r ∧
    (serial p (Ser.init p M0) order).done i = (s.thr i).begun) ∧
  (∀ i, (serial p (Ser.init p M0) order).done i ≤ (s.thr i).begun ∧
    (s.thr i).begun ≤ (serial p (Ser.init p M0) order).done i + 1) ∧
  ∀ m, m < p.values.length → (∀ g, ¬ Owns s.mem g .excl m) →
    valueOf s.mem m = some ((serial p (Ser.init p M0) order).M m)

/-- All programs respect scopes and the number of mutex objects. -/
def Plan.Scoped (p : Plan α σ) : Prop := ∀ i r c, p.body i r = some c → Atomic.Scoped p.values.length [] c

/-- No transaction locks anything after its first guard has ended. -/
def Plan.TwoPhase (p : Plan α σ) : Prop := ∀ i r c, p.body i r = some c → Atomic.TwoPhase false c

/-- Every transaction calls `lock` and `lock_shared` in increasing order. -/
def Plan.Ordered (p : Plan α σ) : Prop := ∀ i r c, p.body i r = some c → Atomic.Ordered [] c

theorem sim_explains {p : Plan α σ} {M0} {s : Sys α σ} {order : List (Nat × List Bool)} {C} (b : Base p C s)
    (sm : Sim p (serial p (Ser.init p M0) order) C s.thr) : Explains p M0 s order := by
  refine ⟨fun i r hr => ?_, fun i => ?_, fun m hm hn => ?_⟩
  · rcases sm.each i with hg | hg
    · obtain ⟨_, _, _, _, _, h, _⟩ := hg
      rw [hr] at h
      exact absurd trivial h
    · obtain ⟨a, _, c, _⟩ := hg
      rw [hr] at c
      exact ⟨c, a⟩
  · rcases sm.each i with hg | hg
    · obtain ⟨_, _, _, h, _⟩ := hg
      omega
    · have := hg.1
      omega
  · rw [b.vals m hm, sm.free m]
    intro i h hh hk em
    refine hn h.g ?_
    have := b.own i h hh
    rw [hk, em] at this
    exact this

theorem explain_run {p : Plan α σ} {M0 : Nat → α} (hs : p.Scoped) (h2 : p.TwoPhase) : ∀ (acts : List Act) {s : Sys α σ}
    {order : List (Nat × List Bool)} {C}, Base p C s →
    Sim p (serial p (Ser.init p M0) order) C s.thr → ∃ commits : List (List (Nat × List Bool)), commits.length = acts.length ∧
      ∀ k s', exec p s (acts.take k) = some s' → Explains p M0 s' (order ++ (commits.take k).flatten)
  | [], s, order, C, b, sm => by
    refine ⟨[], rfl, fun k s' h => ?_⟩
    simp [exec] at h
    subst h
    simpa using sim_explains b sm
  | a :: as, s, order, C, b, sm => by
    cases hx : step p s a with
    | none =>
      refine ⟨[] :: List.replicate as.length [], by simp, fun k s' h => ?_⟩
      cases k with
      | zero => simp [exec] at h; subst h; simpa using sim_explains b sm
      | succ k => simp [exec, hx] at h
    | some s1 =>
      obtain ⟨C', more, b', sm'⟩ := sim_step hs h2 b sm hx
      obtain ⟨commits, hl, hc⟩ := explain_run hs h2 as b' sm'
      refine ⟨more :: commits, by simp [hl], fun k s' h => ?_⟩
      cases k with
      | zero => simp [exec] at h; subst h; simpa using sim_explains b sm
      | succ k =>
        simp only [List.take_succ_cons, exec, hx, Option.bind_some] at h
        have := hc k s' h
        simpa [List.append_assoc] using this

/-! ### Atomicity -/

/-- Withdraw 5 from an account if there is enough, for ever; the local state is what the thread has got. -/
def withdraw (got : Int) : Prog Int Int :=
  .lock 0 (.read 0 fun v => if 5 ≤ v then .write 0 (v - 5) (.drop 0 (.ret (got + 5))) else .drop 0 (.ret got))

/-- Move everything from account 1 to account 0 if both can be locked at once, in the order 1, 0; give up otherwise. The first
guard ends first. -/
def collect (got : Int) : Prog Int Int :=
  .tryLock 1 fun b => if b then
      .tryLock 0 fun b => if b then
        .read 1 fun x => .read 0 fun y => .write 0 (x + y) (.write 1 0 (.drop 1 (.drop 0 (.ret got))))
      else .drop 0 (.ret got)
    else .ret got

/-- Two threads that withdraw and one that collects. -/
def shop : Plan Int Int := ⟨[12, 7], 3, fun _ => 0, fun i got => some (if i = 2 then collect got else withdraw got)⟩

theorem shop_values (m : Nat) (hm : m < shop.values.length) : shop.values[m]? = some ((fun m => [12, 7].getD m 0) m) := by
  match m, hm with
  | 0, _ => rfl
  | 1, _ => rfl

theorem shop_body {i got c} (h : shop.body i got = some c) : c = collect got ∨ c = withdraw got := by
  simp only [shop, Option.some.injEq] at h
  subst h
  split
  · exact .inl rfl
  · exact .inr rfl

theorem shop_scoped : shop.Scoped := by
  intro i got c h
  rcases shop_body h with rfl | rfl
  · simp [collect, Scoped, shop]
  · simp only [withdraw, Scoped, shop, List.length_cons, List.length_nil, List.not_mem_nil, false_implies, implies_true]
    refine ⟨by omega, trivial, by omega, fun v => ?_⟩
    split <;> simp [Scoped]

theorem shop_twoPhase : shop.TwoPhase := by
  intro i got c h
  rcases shop_body h with rfl | rfl
  · simp [collect, TwoPhase]
  · simp only [withdraw, TwoPhase, true_and]
    intro v
    split <;> simp [TwoPhase]

theorem shop_ordered : shop.Ordered := by
  intro i got c h
  rcases shop_body h with rfl | rfl
  · simp [collect, Ordered]
  · simp only [withdraw, Ordered, List.not_mem_nil, false_implies, implies_true, true_and]
    intro v
    split <;> simp [Ordered]

/-- **C114 (atomicity).** Whatever programs the threads execute — they may branch on what they read, try locks, end guards in
any order, leave blocks early, go on for ever — and whatever the schedule: if no transaction locks anything after its first
guard has ended, everything that can be observed is explained by executing the transactions one after the other. A `try_lock`
that fails because of another thread is one that fails spuriously there. The order grows with the execution, contains all
transactions that have ended and none that has not begun; so a transaction that has ended before another one began precedes
it. -/
theorem atomic_serializable {p : Plan α σ} {M0 : Nat → α}
    (hM : ∀ m, m < p.values.length → p.values[m]? = some (M0 m)) (hs : p.Scoped) (h2 : p.TwoPhase) (acts : List Act) :
    ∃ commits : List (List (Nat × List Bool)), commits.length = acts.length ∧
      ∀ k s, exec p (start p) (acts.take k) = some s → Explains p M0 s (commits.take k).flatten := by
  obtain ⟨commits, hl, hc⟩ := explain_run hs h2 acts (base_start hM) (order := []) sim_start
  exact ⟨commits, hl, fun k s h => by simpa using hc k s h⟩

/-- The collecting thread gets one mutex and not the other one, which is locked at that moment. -/
example : (∀ m, m < shop.values.length → shop.values[m]? = some ((fun m => [12, 7].getD m 0) m)) ∧ shop.Scoped ∧
    shop.TwoPhase ∧ (exec shop (start shop) [.begin 2, .begin 0, .run 2 false, .run 0 false, .run 2 false, .run 0 false,
      .run 2 false, .run 0 false, .run 0 false]).any (fun s => decide (valueOf s.mem 0 = some 7) &&
        match (s.thr 2).code, (s.thr 0).code with | .ret 0, .ret 5 => true | _, _ => false) = true :=
  ⟨shop_values, shop_scoped, shop_twoPhase, by decide +kernel⟩

/-- The same transactions one after the other. -/
example : ((serial shop (Ser.init shop fun m => [12, 7].getD m 0) [(2, [true, false]), (0, [])]).M 0,
    (serial shop (Ser.init shop fun m => [12, 7].getD m 0) [(2, [true, false]), (0, [])]).st 0) = (7, 5) := by decide +kernel

/-- **C114 (invariants).** A relation between the values and the local states of the threads that every transaction preserves
when it is executed alone (whichever `try_lock`s fail) holds whenever no transaction is being executed, whatever the
schedule. -/
theorem atomic_invariant {p : Plan α σ} {M0 : Nat → α}
    (hM : ∀ m, m < p.values.length → p.values[m]? = some (M0 m)) (hs : p.Scoped) (h2 : p.TwoPhase)
    (I : (Nat → α) → (Nat → σ) → Prop) (h0 : I M0 p.init)
    (hI : ∀ M st i c ans, I M st → p.body i (st i) = some c → I (runTx M ans [] c).1 (upd st i (runTx M ans [] c).2))
    {s : Sys α σ} (hr : Reach p s) (st : Nat → σ) (hq : ∀ i, (s.thr i).code = .ret (st i)) :
    ∃ M, I M st ∧ ∀ m, m < p.values.length → valueOf s.mem m = some (M m) := by
  obtain ⟨acts, ha⟩ := hr
  have hg : ∃ C order, Base p C s ∧ Sim p (serial p (Ser.init p M0) order) C s.thr :=
    exec_induct (P := fun s => ∃ C order, Base p C s ∧ Sim p (serial p (Ser.init p M0) order) C s.thr)
      (fun _ _ _ ⟨_, _, b, sm⟩ h => by
        obtain ⟨C', more, b', sm'⟩ := sim_step hs h2 b sm h
        exact ⟨C', _, b', sm'⟩) acts _ _ ⟨M0, [], base_start hM, sim_start⟩ ha
  obtain ⟨C, order, b, sm⟩ := hg
  have ex := sim_explains b sm
  have hI' : ∀ (order : List (Nat × List Bool)) (G : Ser α σ), I G.M G.st → I (serial p G order).M (serial p G order).st := by
    intro order
    induction order with
    | nil => intro G h; exact h
    | cons e es ih =>
      intro G h
      show I (serial p (G.next p e) es).M (serial p (G.next p e) es).st
      apply ih
      unfold Ser.next
      split
      · exact h
      · rename_i c hc
        exact hI _ _ _ _ _ h hc
  have hst : (serial p (Ser.init p M0) order).st = st := funext fun i => (ex.1 i _ (hq i)).1
  refine ⟨(serial p (Ser.init p M0) order).M, hst ▸ hI' order _ h0, fun m hm => ex.2.2 m hm fun g ho => ?_⟩
  obtain ⟨i, hi⟩ := b.all g .excl m ho
  have := b.scope i
  rw [hq i] at this
  simp [Atomic.Scoped, kinds] at this
  rw [this] at hi
  simp at hi

/-- Nothing is withdrawn that is not there, and nothing is lost. -/
example {s : Sys Int Int} (hr : Reach shop s) (st : Nat → Int) (hq : ∀ i, (s.thr i).code = .ret (st i)) :
    ∃ M : Nat → Int, (0 ≤ M 0 ∧ 0 ≤ M 1 ∧ ∀ i, 0 ≤ st i) ∧ ∀ m, m < 2 → valueOf s.mem m = some (M m) :=
  atomic_invariant (M0 := fun m => [12, 7].getD m 0) shop_values shop_scoped shop_twoPhase
    (fun M st => 0 ≤ M 0 ∧ 0 ≤ M 1 ∧ ∀ i, 0 ≤ st i) ⟨by decide, by decide, fun _ => by simp [shop]⟩
    (fun M st i c ans hM hc => by
      obtain ⟨h0, h1, h3⟩ := hM
      have hst : ∀ x : Int, 0 ≤ x → ∀ j, 0 ≤ upd st i x j := fun x hx j => by
        simp only [upd]; split
        · exact hx
        · exact h3 j
      rcases shop_body hc with rfl | rfl
      · simp only [collect, runTx]
        split
        · simp only [runTx, if_true]
          split
          · simp [runTx]
            refine ⟨by simp [upd]; omega, by simp [upd], hst _ (h3 i)⟩
          · simp [runTx]
            exact ⟨h0, h1, hst _ (h3 i)⟩
        · simp [runTx]
          exact ⟨h0, h1, hst _ (h3 i)⟩
      · simp only [withdraw, runTx, List.getElem?_cons_zero]
        by_cases h5 : 5 ≤ M 0
        · simp only [if_pos h5, runTx, List.getElem?_cons_zero]
          refine ⟨by simp [upd]; omega, by simp [upd]; exact h1, hst _ (by have := h3 i; omega)⟩
        · simp only [if_neg h5, runTx]
          exact ⟨h0, h1, hst _ (h3 i)⟩) hr st hq

/-! ### Progress -/

/-- Threads lock in order, and only threads of the plan do anything. -/
structure Ord (p : Plan α σ) (thr : Nat → Thr α σ) : Prop where
  now : ∀ i, Atomic.Ordered (names (thr i).held) (thr i).code
  none : ∀ i, p.threads ≤ i → (thr i).code.isRet

theorem ord_eff {p : Plan α σ} {thr : Nat → Thr α σ} (o : Ord p thr) {C C'} {i : Nat} {t : Thr α σ} (hi : i < p.threads)
    (h : Eff C thr i C' t) : Ord p (upd thr i t) := by
  refine ⟨others (P := fun j t => Atomic.Ordered (names t.held) t.code) ?_ fun j _ => o.now j,
    fun j hj => by rw [upd_ne (by omega)]; exact o.none j hj⟩
  have hn := o.now i
  cases h with
  | push k m c g ans hrun hph hord free => exact hord _ hn
  | skip c hrun hph hord => exact hord _ hn
  | read d k x hnow hx => rw [hnow] at hn; exact hn _
  | write d v c x hnow hx hk => rw [hnow] at hn; exact hn
  | drop d c x hnow hx =>
    rw [hnow] at hn
    simp only [Atomic.Ordered] at hn
    rw [names, ← map_erase] at hn
    exact hn

/-- Who holds what, and the order of locking. -/
def Safe (p : Plan α σ) (s : Sys α σ) : Prop := (∃ C, Base p C s) ∧ Ord p s.thr

theorem safe_step {p : Plan α σ} (hs : p.Scoped) (ho : p.Ordered) {s s' : Sys α σ} {a : Act} (g : Safe p s)
    (h : step p s a = some s') : Safe p s' := by
  obtain ⟨⟨C, b⟩, o⟩ := g
  refine ⟨base_step hs b h, ?_⟩
  cases a with
  | begin i =>
    obtain ⟨hi, r, c, hr, hc, rfl⟩ := step_begin h
    have h0 : (s.thr i).held = [] := by
      have := b.scope i
      rw [hr] at this
      simpa [Atomic.Scoped, kinds] using this
    refine ⟨others (P := fun j t => Atomic.Ordered (names t.held) t.code) ?_ fun j _ => o.now j,
      fun j hj => by simp only; rw [upd_ne (by omega)]; exact o.none j hj⟩
    simp only [h0]
    exact ho i r c hc
  | run i sp =>
    obtain ⟨hi, h⟩ := step_run h
    obtain ⟨C', t, he, ht, _⟩ := exec1_eff b h
    rw [ht]
    exact ord_eff o hi he

/-- A thread that cannot execute its next command waits for a mutex that a thread holds. -/
theorem blocked {p : Plan α σ} {C} {s : Sys α σ} (b : Base p C s) {i : Nat} {sp : Bool} (hnow : ¬ (s.thr i).code.isRet)
    (h : exec1 s i sp = none) :
    ∃ m c j x, ((s.thr i).code = .lock m c ∨ (s.thr i).code = .lockShared m c) ∧ x ∈ (s.thr j).held ∧ x.m = m ∧
      m < p.values.length := by
  have hsc := b.scope i
  unfold exec1 at h
  dsimp only at h
  split at h
  · rename_i e; rw [e] at hnow; exact absurd trivial hnow
  · rename_i m c e
    rw [e] at hsc
    have hm := hsc.1
    simp only [Option.map_eq_none_iff] at h
    have := (not_congr (Guards.lock_iff_free b.reach (lt_of_vals (b.vals m hm)))).1 (by rintro ⟨r, hr⟩; rw [h] at hr; cases hr)
    simp only [Classical.not_forall, Classical.not_not] at this
    obtain ⟨g, k, ho⟩ := this
    obtain ⟨j, hj⟩ := b.all g k m ho
    exact ⟨m, c, j, _, .inl e, hj, rfl, hm⟩
  · rename_i m c e
    rw [e] at hsc
    have hm := hsc.1
    simp only [Option.map_eq_none_iff] at h
    have := (not_congr (Guards.lock_shared_iff b.reach (lt_of_vals (b.vals m hm)))).1
      (by rintro ⟨r, hr⟩; rw [h] at hr; cases hr)
    simp only [Classical.not_forall, Classical.not_not] at this
    obtain ⟨g, ho⟩ := this
    obtain ⟨j, hj⟩ := b.all g _ m ho
    exact ⟨m, c, j, _, .inr e, hj, rfl, hm⟩
  · rename_i m k e
    rw [e] at hsc
    obtain ⟨mem, bb, hst, _⟩ := Guards.try_lock_spec b.reach (lt_of_vals (b.vals m hsc.1)) sp
    rw [hst] at h
    cases bb <;> simp at h
  · rename_i m k e
    rw [e] at hsc
    obtain ⟨mem, bb, hst, _⟩ := Guards.try_lock_shared_spec b.reach (lt_of_vals (b.vals m hsc.1)) sp
    rw [hst] at h
    cases bb <;> simp at h
  · rename_i d c e
    rw [e] at hsc
    have hlt := hsc.1
    simp only [kinds, List.length_map] at hlt
    rw [List.getElem?_eq_getElem hlt] at h
    simp only at h
    obtain ⟨v, hv, hst⟩ := (Guards.access_effect b.reach (b.own i _ (List.getElem_mem hlt))).1
    rw [hst] at h
    cases h
  · rename_i d v c e
    rw [e] at hsc
    cases hx : (s.thr i).held[d]? with
    | none => obtain ⟨m, hm⟩ := hsc.1; simp [kinds, hx] at hm
    | some x =>
      have hk : x.kind = .excl := by
        obtain ⟨m, hm⟩ := hsc.1
        simp [kinds, hx] at hm
        exact hm.1
      rw [hx] at h
      simp only at h
      have ho := b.own i x (List.mem_of_getElem? hx)
      rw [hk] at ho
      obtain ⟨mem, hst, _⟩ := (Guards.access_effect b.reach ho).2.1 rfl v
      rw [hst] at h
      cases h
  · rename_i d c e
    rw [e] at hsc
    have hlt := hsc.1
    simp only [kinds, List.length_map] at hlt
    rw [List.getElem?_eq_getElem hlt] at h
    obtain ⟨g, hg, _⟩ := b.own i _ (List.getElem_mem hlt)
    simp [Guards.step, hg] at h

/-- If no thread can execute a command, none is within a transaction. -/
theorem idle_of_stuck {p : Plan α σ} {s : Sys α σ} (g : Safe p s) (hst : ∀ i, i < p.threads → exec1 s i false = none) :
    ∀ i, (s.thr i).code.isRet := by
  obtain ⟨⟨C, b⟩, o⟩ := g
  -- whoever has a command waits for a mutex, and whoever holds that one waits for a later one
  have wait : ∀ k m i, p.values.length - k ≤ m → i < p.threads →
      ∀ c, (s.thr i).code ≠ .lock m c ∧ (s.thr i).code ≠ .lockShared m c := by
    intro k
    induction k with
    | zero =>
      intro m i hm hi c
      have hsc := b.scope i
      constructor <;> intro e <;> rw [e] at hsc <;> have := hsc.1 <;> omega
    | succ k ih =>
      intro m i hm hi c
      suffices ∀ c, ((s.thr i).code = .lock m c ∨ (s.thr i).code = .lockShared m c) → False from
        ⟨fun e => this c (.inl e), fun e => this c (.inr e)⟩
      intro c e
      obtain ⟨m', c', j, x, e', hx, hxm, hm'⟩ := blocked b (by rcases e with e | e <;> rw [e] <;> exact id) (hst i hi)
      have hmm : m' = m := by
        rcases e with e | e <;> rcases e' with e' | e' <;> rw [e] at e' <;> simp at e' <;> exact e'.1.symm
      subst hmm
      have hjn : ¬ (s.thr j).code.isRet := not_ret (b.scope j) fun hn => by rw [hn] at hx; simp at hx
      have hj : j < p.threads := Nat.lt_of_not_le fun hle => hjn (o.none j hle)
      obtain ⟨m2, c2, _, _, e2, _, _, _⟩ := blocked b hjn (hst j hj)
      have hon := o.now j
      have hlt : m' < m2 := by
        have hmem : m' ∈ names (s.thr j).held := List.mem_map.2 ⟨x, hx, hxm⟩
        rcases e2 with e2 | e2 <;> rw [e2] at hon <;> exact hon.1 m' hmem
      have := ih m2 j (by omega) hj c2
      rcases e2 with e2 | e2
      · exact this.1 e2
      · exact this.2 e2
  intro i
  by_cases hi : i < p.threads
  · apply Classical.byContradiction
    intro hn
    obtain ⟨m, c, _, _, e, _, _, _⟩ := blocked b hn (hst i hi)
    have := wait p.values.length m i (by omega) hi c
    rcases e with e | e
    · exact this.1 e
    · exact this.2 e
  · exact o.none i (by omega)

theorem safe_start [Nonempty α] {p : Plan α σ} : Safe p (start p) := by
  refine ⟨?_, fun i => trivial, fun i _ => trivial⟩
  obtain ⟨v⟩ := ‹Nonempty α›
  refine ⟨fun m => p.values.getD m v, base_start (fun m hm => ?_)⟩
  simp [hm]

theorem safe_reach [Nonempty α] {p : Plan α σ} (hs : p.Scoped) (ho : p.Ordered) {s : Sys α σ} (hr : Reach p s) : Safe p s := by
  obtain ⟨acts, ha⟩ := hr
  exact exec_induct (fun _ _ _ g h => safe_step hs ho g h) acts _ _ safe_start ha

/-- **C114 (no deadlock).** If all threads call `lock` and `lock_shared` in the same order, then no thread ever waits for ever
on a mutex: in a state in which no thread can do anything, every thread is between two transactions and has nothing left to
do. `try_lock` may be called in any order. -/
theorem atomic_no_deadlock [Nonempty α] {p : Plan α σ} (hs : p.Scoped) (ho : p.Ordered) {s : Sys α σ} (hr : Reach p s)
    (hst : Stuck p s) : ∀ i, i < p.threads → ∃ r, (s.thr i).code = .ret r ∧ p.body i r = none := by
  have hidle := idle_of_stuck (safe_reach hs ho hr) fun i hi => by
    have := hst (.run i false)
    simpa [step, hi] using this
  intro i hi
  have h := hidle i
  cases hc : (s.thr i).code with
  | ret r =>
    refine ⟨r, rfl, ?_⟩
    have := hst (.begin i)
    simp only [step, if_pos hi, hc, Option.map_eq_none_iff] at this
    exact this
  | _ => rw [hc] at h; exact absurd h id

/-- Two threads that stop when they have got 5. -/
def small : Plan Int Int := ⟨[12], 2, fun _ => 0, fun _ got => if got < 5 then some (withdraw got) else none⟩

/-- They end here, and thread 1 has waited for thread 0. -/
example : (exec small (start small) [.begin 0, .begin 1, .run 0 false]).any (fun s => (step small s (.run 1 false)).isNone) =
      true ∧
    (exec small (start small) ([.begin 0, .begin 1] ++ List.replicate 4 (.run 0 false) ++ List.replicate 4 (.run 1 false))).any
      (fun s => (step small s (.begin 0)).isNone && (step small s (.begin 1)).isNone && (step small s (.run 0 false)).isNone &&
        decide (valueOf s.mem 0 = some 2)) = true ∧ shop.Scoped ∧ shop.Ordered :=
  ⟨by decide +kernel, by decide +kernel, shop_scoped, shop_ordered⟩

/-- `c` comes next in program `d`. -/
inductive Sub : Prog α σ → Prog α σ → Prop
  | lock (m : Nat) (c) : Sub c (.lock m c)
  | lockShared (m : Nat) (c) : Sub c (.lockShared m c)
  | tryLock (m : Nat) (k) (b : Bool) : Sub (k b) (.tryLock m k)
  | tryLockShared (m : Nat) (k) (b : Bool) : Sub (k b) (.tryLockShared m k)
  | read (d : Nat) (k) (v : α) : Sub (k v) (.read d k)
  | write (d : Nat) (v : α) (c) : Sub c (.write d v c)
  | drop (d : Nat) (c) : Sub c (.drop d c)

theorem sub_acc (c : Prog α σ) : Acc Sub c := by
  induction c with
  | ret r => exact ⟨_, fun y h => by cases h⟩
  | lock m k ih => exact ⟨_, fun y h => by cases h; exact ih⟩
  | lockShared m k ih => exact ⟨_, fun y h => by cases h; exact ih⟩
  | tryLock m k ih => exact ⟨_, fun y h => by cases h; exact ih _⟩
  | tryLockShared m k ih => exact ⟨_, fun y h => by cases h; exact ih _⟩
  | read d k ih => exact ⟨_, fun y h => by cases h; exact ih _⟩
  | write d v k ih => exact ⟨_, fun y h => by cases h; exact ih⟩
  | drop d k ih => exact ⟨_, fun y h => by cases h; exact ih⟩

/-- One of the first `n` programs has gone on by one command. -/
def Less (n : Nat) (f g : Nat → Prog α σ) : Prop := ∃ i c, i < n ∧ f = upd g i c ∧ Sub c (g i)

theorem less_acc : ∀ (n : Nat) (f : Nat → Prog α σ), Acc (Less n) f
  | 0, f => ⟨_, fun g ⟨i, c, h, _⟩ => by omega⟩
  | n + 1, f => by
    suffices ∀ c : Prog α σ, Acc Sub c → ∀ f : Nat → Prog α σ, Acc (Less n) f → f n = c → Acc (Less (n + 1)) f from
      this (f n) (sub_acc _) f (less_acc n f) rfl
    intro c hc
    induction hc with
    | intro c _ ih =>
      intro f hf
      induction hf with
      | intro f _ ihf =>
        intro e
        refine ⟨_, fun g ⟨i, x, hi, hg, hs⟩ => ?_⟩
        by_cases hin : i = n
        · subst hin
          subst hg
          exact ih x (e ▸ hs) _ (less_acc i _) upd_eq
        · exact ihf g ⟨i, x, by omega, hg, hs⟩ (by rw [hg, upd_ne (Ne.symm hin)]; exact e)

theorem exec1_sub {s s' : Sys α σ} {i : Nat} {sp : Bool} (h : exec1 s i sp = some s') :
    ∃ t, s'.thr = upd s.thr i t ∧ Sub t.code (s.thr i).code ∧ t.begun = (s.thr i).begun := by
  unfold exec1 at h
  dsimp only at h
  split at h
  · cases h
  · rename_i m c hnow
    simp only [Option.map_eq_some_iff] at h
    obtain ⟨r, _, rfl⟩ := h
    exact ⟨_, rfl, hnow ▸ .lock _ _, rfl⟩
  · rename_i m c hnow
    simp only [Option.map_eq_some_iff] at h
    obtain ⟨r, _, rfl⟩ := h
    exact ⟨_, rfl, hnow ▸ .lockShared _ _, rfl⟩
  · rename_i m k hnow
    split at h
    · injection h with h; subst h; exact ⟨_, rfl, hnow ▸ .tryLock _ _ _, rfl⟩
    · injection h with h; subst h; exact ⟨_, rfl, hnow ▸ .tryLock _ _ _, rfl⟩
    · cases h
  · rename_i m k hnow
    split at h
    · injection h with h; subst h; exact ⟨_, rfl, hnow ▸ .tryLockShared _ _ _, rfl⟩
    · injection h with h; subst h; exact ⟨_, rfl, hnow ▸ .tryLockShared _ _ _, rfl⟩
    · cases h
  · rename_i d c hnow
    split at h
    · cases h
    · split at h
      · injection h with h; subst h; exact ⟨_, rfl, hnow ▸ .read _ _ _, rfl⟩
      · cases h
  · rename_i d f c hnow
    split at h
    · cases h
    · simp only [Option.map_eq_some_iff] at h
      obtain ⟨r, _, rfl⟩ := h
      exact ⟨_, rfl, hnow ▸ .write _ _ _, rfl⟩
  · rename_i d c hnow
    split at h
    · cases h
    · simp only [Option.map_eq_some_iff] at h
      obtain ⟨r, _, rfl⟩ := h
      exact ⟨_, rfl, hnow ▸ .drop _ _, rfl⟩

/-- **C114 (completion).** Whatever has happened so far, all transactions that have begun can be completed, without any thread
beginning another one; and they are as soon as no thread begins another one for long enough: there is no infinite execution
without the begin of a transaction. -/
theorem atomic_completes [Nonempty α] {p : Plan α σ} (hs : p.Scoped) (ho : p.Ordered) {s : Sys α σ} (hr : Reach p s) :
    (∃ acts s', exec p s acts = some s' ∧ (∀ a ∈ acts, ∃ i sp, a = .run i sp) ∧ ∀ i, ∃ r, (s'.thr i).code = .ret r) ∧
    ¬ ∃ (f : Nat → Sys α σ), f 0 = s ∧ ∀ n, ∃ i sp, step p (f n) (.run i sp) = some (f (n + 1)) := by
  have hg := safe_reach hs ho hr
  constructor
  · suffices ∀ g : Nat → Prog α σ, Acc (Less p.threads) g → ∀ s : Sys α σ, (fun i => (s.thr i).code) = g → Safe p s →
        ∃ acts s', exec p s acts = some s' ∧ (∀ a ∈ acts, ∃ i sp, a = .run i sp) ∧ ∀ i, (s'.thr i).code.isRet by
      obtain ⟨acts, s', h1, h2, h3⟩ := this _ (less_acc _ _) s rfl hg
      refine ⟨acts, s', h1, h2, fun i => ?_⟩
      have h := h3 i
      cases hc : (s'.thr i).code with
      | ret r => exact ⟨r, rfl⟩
      | _ => rw [hc] at h; exact absurd h id
    intro g hacc
    induction hacc with
    | intro g _ ih =>
      intro s hsg hsafe
      by_cases hst : ∀ i, i < p.threads → exec1 s i false = none
      · exact ⟨[], s, rfl, by simp, idle_of_stuck hsafe hst⟩
      · simp only [Classical.not_forall] at hst
        obtain ⟨i, hi, hne⟩ := hst
        cases hx : exec1 s i false with
        | none => exact absurd hx hne
        | some s1 =>
          have hstep : step p s (.run i false) = some s1 := by simp [step, hi, hx]
          obtain ⟨t, ht, hsub, _⟩ := exec1_sub hx
          have hl : Less p.threads (fun j => (s1.thr j).code) g := by
            refine ⟨i, t.code, hi, ?_, ?_⟩
            · funext j
              rw [ht, ← hsg]
              simp only [upd]
              split <;> rfl
            · rw [← hsg]; exact hsub
          obtain ⟨acts, s', h1, h2, h3⟩ := ih _ hl s1 rfl (safe_step hs ho hsafe hstep)
          exact ⟨.run i false :: acts, s', by simp [exec, hstep, h1], by
            intro a ha
            rcases List.mem_cons.1 ha with rfl | ha
            · exact ⟨_, _, rfl⟩
            · exact h2 a ha, h3⟩
  · rintro ⟨f, _, hf⟩
    suffices ∀ g : Nat → Prog α σ, Acc (Less p.threads) g → ∀ n, (fun i => ((f n).thr i).code) = g → False from
      this _ (less_acc _ _) 0 rfl
    intro g hacc
    induction hacc with
    | intro g _ ih =>
      intro n hn
      obtain ⟨i, sp, h⟩ := hf n
      obtain ⟨hi, hx⟩ := step_run h
      obtain ⟨t, ht, hsub, _⟩ := exec1_sub hx
      refine ih _ ⟨i, t.code, hi, ?_, ?_⟩ (n + 1) rfl
      · funext j
        rw [ht, ← hn]
        simp only [upd]
        split <;> rfl
      · rw [← hn]; exact hsub

/-- In the middle of three transactions. -/
example : shop.Scoped ∧ shop.Ordered ∧ (exec shop (start shop) [.begin 0, .begin 1, .begin 2, .run 2 false, .run 0 false,
    .run 0 false, .run 2 false]).any (fun s => match (s.thr 0).code, (s.thr 2).code with
      | .write .., .drop .. => true | _, _ => false) = true := ⟨shop_scoped, shop_ordered, by decide +kernel⟩

/-- **C114 (`try_lock` does not wait).** A thread within a transaction whose next command is not `lock` or `lock_shared` can
execute it in every reachable state, whatever the others do and hold; so one that only tries locks never waits. -/
theorem atomic_try_never_blocks [Nonempty α] {p : Plan α σ} (hs : p.Scoped) {s : Sys α σ} (hr : Reach p s) {i : Nat}
    (hi : i < p.threads) (hc : ¬ ∃ r, (s.thr i).code = .ret r)
    (hn : ∀ m c, (s.thr i).code ≠ .lock m c ∧ (s.thr i).code ≠ .lockShared m c) (sp : Bool) :
    ∃ s', step p s (.run i sp) = some s' := by
  obtain ⟨acts, ha⟩ := hr
  obtain ⟨C, b⟩ : ∃ C, Base p C s := exec_induct (P := fun s => ∃ C, Base p C s)
    (fun _ _ _ ⟨_, b⟩ h => base_step hs b h) acts _ _ safe_start.1 ha
  have hnr : ¬ (s.thr i).code.isRet := by
    intro h
    cases hx : (s.thr i).code with
    | ret r => exact hc ⟨r, hx⟩
    | _ => rw [hx] at h; exact h
  cases hx : exec1 s i sp with
  | some s' => exact ⟨s', by simp [step, hi, hx]⟩
  | none =>
    obtain ⟨m, c, _, _, e, _⟩ := blocked b hnr hx
    rcases e with e | e
    · exact absurd e (hn m c).1
    · exact absurd e (hn m c).2

/-- The mutex that is tried is locked. -/
example : shop.Scoped ∧ (exec shop (start shop) [.begin 0, .begin 2, .run 0 false, .run 2 false]).any (fun s =>
    match (s.thr 2).code with | .tryLock 0 _ => (step shop s (.run 2 false)).isSome | _ => false) = true :=
  ⟨shop_scoped, by decide +kernel⟩

end Verif.Atomic
