import Verif.Defer.Model

/-!
Properties C16 and C17. The specification `sem` says what the documentation promises and knows nothing about counting
exceptions.
-/
namespace Verif.Defer

/-- Should the function of a guard run, given how the scope of the guard was left? -/
def shouldRun : Pol → Out → Bool
  | _, .terminate => false
  | .always, _ => true
  | .onFail, .thrown _ => true
  | .onFail, .normal => false
  | .onSuccess, .normal => true
  | .onSuccess, .thrown _ => false

/-- How a scope that was left with `o` is left after a guard of policy `p` whose function ended with `fo`. -/
def after (p : Pol) (o fo : Out) : Out :=
  match fo with
  | .normal => o
  | .terminate => .terminate
  | .thrown e => if p = .onSuccess then .thrown e else .terminate

/-- What a program should do. -/
def sem : Stmt → List Ev × Out
  | .skip => ([], .normal)
  | .emit n => ([.emit n], .normal)
  | .throw e => ([], .thrown e)
  | .seq a b =>
    match sem a with
    | (t, .normal) => (t ++ (sem b).1, (sem b).2)
    | r => r
  | .tryCatch a flt h =>
    match sem a with
    | (t, .thrown e) => if flt = none ∨ flt = some e then (t ++ (sem h).1, (sem h).2) else (t, .thrown e)
    | r => r
  | .noguard _ rest => sem rest
  | .guard p id f rest =>
    let r := sem rest
    if shouldRun p r.2 then (r.1 ++ .ran id :: (sem f).1, after p r.2 (sem f).2) else r

/-- Exceptions in flight because of how a program ended. -/
def Out.inFlight : Out → Nat
  | .thrown _ => 1
  | _ => 0

theorem exec_spec : ∀ (s : Stmt) (c : Nat),
    (exec s c).1 = (sem s).1 ∧ (exec s c).2.1 = (sem s).2 ∧
    ((sem s).2 ≠ .terminate → (exec s c).2.2 = c + (sem s).2.inFlight)
  | .skip, c => by simp [exec, sem, Out.inFlight]
  | .emit n, c => by simp [exec, sem, Out.inFlight]
  | .throw e, c => by simp [exec, sem, Out.inFlight]
  | .seq a b, c => by
    have iha := exec_spec a c
    have ihb := fun c => exec_spec b c
    simp only [exec, sem]
    generalize exec a c = ra at iha ⊢
    generalize sem a = sa at iha ⊢
    obtain ⟨t, o, c1⟩ := ra
    obtain ⟨t', o'⟩ := sa
    obtain ⟨h1, h2, h3⟩ := iha
    dsimp only at h1 h2 h3
    subst h1 h2
    cases o with
    | normal =>
      have := h3 (by simp)
      simp [Out.inFlight] at this
      subst this
      have := ihb c1
      dsimp only
      refine ⟨by rw [this.1], this.2.1, this.2.2⟩
    | thrown e => simpa using h3
    | terminate => simp
  | .tryCatch a flt h, c => by
    have iha := exec_spec a c
    have ihb := fun c => exec_spec h c
    simp only [exec, sem]
    generalize exec a c = ra at iha ⊢
    generalize sem a = sa at iha ⊢
    obtain ⟨t, o, c1⟩ := ra
    obtain ⟨t', o'⟩ := sa
    obtain ⟨h1, h2, h3⟩ := iha
    dsimp only at h1 h2 h3
    subst h1 h2
    cases o with
    | normal => simpa using h3
    | thrown e =>
      have hc := h3 (by simp)
      simp [Out.inFlight] at hc
      subst hc
      dsimp only
      by_cases hf : flt = none ∨ flt = some e
      · rw [if_pos hf, if_pos hf]
        have := ihb c
        simp only [Nat.add_sub_cancel]
        refine ⟨by rw [this.1], this.2.1, this.2.2⟩
      · rw [if_neg hf, if_neg hf]
        simp [Out.inFlight]
    | terminate => simp
  | .noguard p rest, c => by simpa [exec, sem] using exec_spec rest c
  | .guard p id f rest, c => by
    have iha := exec_spec rest c
    have ihb := fun c => exec_spec f c
    simp only [exec, sem]
    generalize exec rest c = ra at iha ⊢
    generalize sem rest = sa at iha ⊢
    obtain ⟨t, o, c1⟩ := ra
    obtain ⟨t', o'⟩ := sa
    obtain ⟨h1, h2, h3⟩ := iha
    dsimp only at h1 h2 h3
    subst h1 h2
    have hb := ihb c1
    generalize hrf : exec f c1 = rf at hb
    generalize sem f = sf at hb ⊢
    obtain ⟨t2, o2, c2⟩ := rf
    obtain ⟨t2', o2'⟩ := sf
    obtain ⟨g1, g2, g3⟩ := hb
    dsimp only at g1 g2 g3
    subst g1 g2
    cases o with
    | terminate => simp [shouldRun]
    | normal =>
      have hc := h3 (by simp)
      simp [Out.inFlight] at hc
      subst hc
      cases p <;> cases o2 <;> simp [runs, shouldRun, hrf, after, Out.isThrown, Out.inFlight] at g3 ⊢ <;> omega
    | thrown e =>
      have hc := h3 (by simp)
      simp [Out.inFlight] at hc
      subst hc
      cases p <;> cases o2 <;> simp [runs, shouldRun, hrf, after, Out.isThrown, Out.inFlight] at g3 ⊢ <;> omega

/-- **C16/C17.** Whatever the number of exceptions in flight when a program starts (e.g. because it runs inside a destructor
during unwinding), for every program of any size and nesting, counting uncaught exceptions decides exactly as the
documentation promises: the observable trace and the way the program ends are those of `sem`. -/
theorem defer_correct (s : Stmt) (c : Nat) : (exec s c).1 = (sem s).1 ∧ (exec s c).2.1 = (sem s).2 :=
  ⟨(exec_spec s c).1, (exec_spec s c).2.1⟩

/-- A rethrowing scope with a fail guard inside a try block, started with two exceptions in flight. -/
example : exec (.tryCatch (.guard .onFail 0 (.emit 5) (.guard .onSuccess 1 (.emit 6) (.throw 7))) (some 7) (.emit 8)) 2 =
    ([.ran 0, .emit 5, .emit 8], .normal, 2) := rfl

/-- **C16.** The number of uncaught exceptions is restored: it is one higher iff the program is left by an exception. -/
theorem defer_balanced (s : Stmt) (c : Nat) (h : (exec s c).2.1 ≠ .terminate) :
    (exec s c).2.2 = c + (exec s c).2.1.inFlight := by
  have := exec_spec s c
  rw [this.2.1] at h ⊢
  exact this.2.2 h

example : (exec (.guard .onFail 0 (.emit 5) (.throw 7)) 2).2 = (.thrown 7, 3) ∧ (exec (.guard .onFail 0 (.emit 5) .skip) 2).2 = (.normal, 2) :=
  ⟨rfl, rfl⟩

/-- **C16.** For a scope `{ guard; rest }`, executed with any number `c` of exceptions in flight: if `rest` is left normally,
the function of the guard is invoked iff the policy is not OnFail; if `rest` is left by an exception, iff it is not
OnSuccess; if the program was terminated, it is not invoked. -/
theorem guard_runs_iff (p : Pol) (id : Nat) (f rest : Stmt) (c : Nat) :
    ((exec rest c).2.1 = .normal →
      (exec (.guard p id f rest) c).1 = (exec rest c).1 ++ (if p = .onFail then [] else .ran id :: (exec f c).1)) ∧
    (∀ e, (exec rest c).2.1 = .thrown e →
      (exec (.guard p id f rest) c).1 = (exec rest c).1 ++ (if p = .onSuccess then [] else .ran id :: (exec f c).1)) ∧
    ((exec rest c).2.1 = .terminate → (exec (.guard p id f rest) c).1 = (exec rest c).1) := by
  have hg := (defer_correct (.guard p id f rest) c).1
  have hr := defer_correct rest c
  have hf := (defer_correct f c).1
  rw [hg, hr.1, hr.2, hf]
  simp only [sem]
  refine ⟨fun h => ?_, fun e h => ?_, fun h => ?_⟩ <;> rw [h] <;> cases p <;> simp [shouldRun]

example : (exec (.seq (.emit 1) (.throw 7)) 3).2.1 = .thrown 7 := rfl
example : (exec (.guard .onFail 0 (.emit 5) (.seq (.emit 1) (.throw 7))) 3).1 = [.emit 1, .ran 0, .emit 5] := rfl

/-- A scope entered during unwinding: an Always guard that runs because of an exception executes a scope of its own,
which succeeds; its success guard runs, its fail guard does not. -/
example : exec (.tryCatch (.guard .always 0 (.guard .onSuccess 1 (.emit 1) (.guard .onFail 2 (.emit 2) .skip)) (.throw 9))
    none .skip) 0 = ([.ran 0, .ran 1, .emit 1], .normal, 0) := rfl

/-! ### C17 -/

/-- The items of a block. -/
inductive Item where
  | stmt (s : Stmt)
  | guard (p : Pol) (id : Nat) (f : Stmt)
  | noguard (p : Pol)

/-- The block as a program. -/
def block : List Item → Stmt
  | [] => .skip
  | .stmt s :: is => .seq s (block is)
  | .guard p id f :: is => .guard p id f (block is)
  | .noguard p :: is => .noguard p (block is)

/-- Run the statements of a block one after the other until one of them does not end normally; `gs` collects the guards
created so far, the latest first. -/
def runItems : List Item → List (Pol × Nat × Stmt) → List Ev × Out × List (Pol × Nat × Stmt)
  | [], gs => ([], .normal, gs)
  | .stmt s :: is, gs =>
    match sem s with
    | (t, .normal) => let r := runItems is gs; (t ++ r.1, r.2)
    | (t, o) => (t, o, gs)
  | .guard p id f :: is, gs => runItems is ((p, id, f) :: gs)
  | .noguard _ :: is, gs => runItems is gs

/-- Process the guards, in the order given, when leaving the block with `o`. A guard that ends with an exception of its own
changes how the remaining guards see the block. -/
def leave : List (Pol × Nat × Stmt) → Out → List Ev × Out
  | [], o => ([], o)
  | (p, id, f) :: gs, o =>
    if shouldRun p o then
      let r := leave gs (after p o (sem f).2)
      (.ran id :: (sem f).1 ++ r.1, r.2)
    else leave gs o

theorem leave_terminate : ∀ gs, leave gs .terminate = ([], .terminate)
  | [] => rfl
  | (p, id, f) :: gs => by
    simp only [leave]
    rw [if_neg (by cases p <;> simp [shouldRun]), leave_terminate gs]

theorem leave_snoc : ∀ gs p id f o, leave (gs ++ [(p, id, f)]) o =
    if shouldRun p (leave gs o).2 then
      ((leave gs o).1 ++ .ran id :: (sem f).1, after p (leave gs o).2 (sem f).2) else leave gs o
  | [], p, id, f, o => by
    cases hr : shouldRun p o <;> simp [leave, hr]
  | (p', id', f') :: gs, p, id, f, o => by
    simp only [List.cons_append, leave]
    split
    · rw [leave_snoc]
      split <;> simp
    · exact leave_snoc gs p id f o

theorem runItems_acc : ∀ (is : List Item) (gs : List (Pol × Nat × Stmt)),
    runItems is gs = ((runItems is []).1, (runItems is []).2.1, (runItems is []).2.2 ++ gs)
  | [], gs => by simp [runItems]
  | .stmt s :: is, gs => by
    have := runItems_acc is gs
    simp only [runItems]
    split
    · rw [this]
    · simp
  | .guard p id f :: is, gs => by
    have h1 := runItems_acc is ((p, id, f) :: gs)
    have h2 := runItems_acc is [(p, id, f)]
    simp only [runItems]
    rw [h1, h2]; simp
  | .noguard p :: is, gs => by
    have := runItems_acc is gs
    simp only [runItems]; rw [this]

theorem sem_block : ∀ is : List Item,
    sem (block is) = ((runItems is []).1 ++ (leave (runItems is []).2.2 (runItems is []).2.1).1,
      (leave (runItems is []).2.2 (runItems is []).2.1).2)
  | [] => rfl
  | .stmt s :: is => by
    have ih := sem_block is
    simp only [block, sem, runItems]
    generalize sem s = r
    obtain ⟨t, o⟩ := r
    cases o with
    | normal => simp [ih]
    | thrown e => simp [leave]
    | terminate => simp [leave]
  | .guard p id f :: is => by
    have ih := sem_block is
    simp only [block, sem, runItems]
    rw [runItems_acc is [(p, id, f)], leave_snoc, ih]
    dsimp only
    split
    · simp
    · rfl
  | .noguard p :: is => by
    simp only [block, sem, runItems]; exact sem_block is

/-- **C17.** A block runs its statements in order and, when left, exactly the guards created so far, last created first,
each according to its policy and to how the block is being left at that moment: an exception escaping a success
guard turns a successful exit into a failing one for the guards created before it, an exception escaping any
other guard terminates the program, after which nothing runs. -/
theorem defer_block (is : List Item) (c : Nat) :
    (exec (block is) c).1 = (runItems is []).1 ++ (leave (runItems is []).2.2 (runItems is []).2.1).1 ∧
    (exec (block is) c).2.1 = (leave (runItems is []).2.2 (runItems is []).2.1).2 := by
  rw [(defer_correct _ c).1, (defer_correct _ c).2, sem_block]
  exact ⟨rfl, rfl⟩

/-- Guards in reverse order; the success guard 2 throws, so guard 1 (OnFail) runs and guard 0 (OnSuccess) does not. -/
example : exec (block [.guard .onSuccess 0 .skip, .stmt (.emit 7), .guard .onFail 1 (.emit 8), .noguard .always,
    .guard .onSuccess 2 (.throw 3), .guard .always 4 .skip]) 5 =
    ([.emit 7, .ran 4, .ran 2, .ran 1, .emit 8], .thrown 3, 6) := rfl

/-- **C17 (reverse order, stated directly).** If the functions end normally, a block that creates guards with policy Always
runs them in exactly the reverse order, whatever the statements in between and however the block is left. -/
theorem defer_reverse_order (gs : List (Nat × Stmt)) (body : Stmt) (c : Nat) (hf : ∀ g ∈ gs, (sem g.2).2 = .normal)
    (hb : (sem body).2 ≠ .terminate) :
    (exec (block (gs.map (fun g => Item.guard .always g.1 g.2) ++ [.stmt body])) c).1 =
      (sem body).1 ++ gs.reverse.flatMap (fun g => .ran g.1 :: (sem g.2).1) := by
  rw [(defer_correct _ c).1]
  suffices h : sem (block (gs.map (fun g => Item.guard .always g.1 g.2) ++ [.stmt body])) =
      ((sem body).1 ++ gs.reverse.flatMap (fun g => .ran g.1 :: (sem g.2).1), (sem body).2) by rw [h]
  induction gs with
  | nil =>
    simp only [List.map_nil, List.nil_append, block, sem]
    generalize sem body = r
    obtain ⟨t, o⟩ := r
    cases o <;> simp
  | cons g gs ih =>
    have ih := ih (fun g hg => hf g (List.mem_cons_of_mem _ hg))
    have hg := hf g (List.mem_cons_self ..)
    simp only [List.map_cons, List.cons_append, block, sem]
    rw [ih]
    dsimp only
    rw [if_pos (by cases h : (sem body).2 <;> simp_all [shouldRun]), hg]
    simp [after]

example : (∀ g ∈ [(1, Stmt.emit 10), (2, .tryCatch (.throw 1) none .skip)], (sem g.2).2 = .normal) ∧
    (sem (.throw 4)).2 ≠ .terminate := by
  constructor
  · intro g hg; simp at hg; rcases hg with rfl | rfl <;> rfl
  · simp [sem]

/-- Number of guards with name `id` in a program. -/
def occurrences (id : Nat) : Stmt → Nat
  | .skip => 0
  | .emit _ => 0
  | .throw _ => 0
  | .seq a b => occurrences id a + occurrences id b
  | .tryCatch a _ h => occurrences id a + occurrences id h
  | .guard _ id' f rest => (if id' = id then 1 else 0) + occurrences id f + occurrences id rest
  | .noguard _ rest => occurrences id rest

theorem sem_once (id : Nat) : ∀ s, (sem s).1.count (.ran id) ≤ occurrences id s
  | .skip => by simp [sem]
  | .emit n => by simp [sem]
  | .throw e => by simp [sem]
  | .seq a b => by
    have h1 := sem_once id a
    have h2 := sem_once id b
    simp only [sem, occurrences]
    split
    · rename_i t h; rw [h] at h1; rw [List.count_append]; dsimp only at *; omega
    · omega
  | .tryCatch a flt h => by
    have h1 := sem_once id a
    have h2 := sem_once id h
    simp only [sem, occurrences]
    split
    · rename_i t e h; rw [h] at h1
      dsimp only at h1
      split
      · rw [List.count_append]; omega
      · dsimp only; omega
    · omega
  | .noguard p rest => by simpa [sem, occurrences] using sem_once id rest
  | .guard p id' f rest => by
    have h1 := sem_once id rest
    have h2 := sem_once id f
    simp only [sem, occurrences]
    split
    · simp only [List.count_append, List.count_cons, beq_iff_eq, Ev.ran.injEq]
      split <;> omega
    · omega

/-- **C17.** Every guard runs at most once: a guard named uniquely in the program occurs at most once in the trace. -/
theorem defer_at_most_once (s : Stmt) (c id : Nat) (h : occurrences id s ≤ 1) : (exec s c).1.count (.ran id) ≤ 1 := by
  rw [(defer_correct s c).1]
  exact Nat.le_trans (sem_once id s) h

example : occurrences 4 (.guard .always 4 (.emit 1) (.guard .onFail 3 .skip (.throw 2))) ≤ 1 := by decide

/-- **C17.** An empty guard has no effect at all. -/
theorem defer_empty (p : Pol) (rest : Stmt) (c : Nat) : exec (.noguard p rest) c = exec rest c := rfl

/-- **C17.** An exception escaping the function of an Always or OnFail guard terminates the program; an exception escaping a
success guard leaves the scope with that exception. -/
theorem defer_guard_throws (p : Pol) (id e : Nat) (f rest : Stmt) (c : Nat) (hf : ∀ c, (exec f c).2.1 = .thrown e)
    (hr : shouldRun p (exec rest c).2.1) :
    (exec (.guard p id f rest) c).2.1 = if p = .onSuccess then .thrown e else .terminate := by
  have h1 := hf 0
  rw [(defer_correct _ _).2] at h1 hr ⊢
  simp only [sem]
  rw [if_pos hr]
  simp [after, h1]

example : (∀ c, (exec (.seq (.emit 1) (.throw 3)) c).2.1 = .thrown 3) ∧
    shouldRun .onSuccess (exec (.emit 2) 1).2.1 := ⟨fun _ => rfl, rfl⟩

end Verif.Defer
