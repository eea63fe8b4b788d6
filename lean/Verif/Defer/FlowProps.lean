import Verif.Defer.FlowModel
import Std.Data.String.ToNat

/-!
Property C85. The specification `Sem` says how programs with guards should behave and knows nothing about counting exceptions.
-/
namespace Verif.Defer.Flow

/-- Is the scope left by an exception? -/
def failed : Out → Bool
  | .thrown _ => true
  | _ => false

/-- Should a guard run when its scope is left in this way? -/
def shouldRun : Pol → Out → Bool
  | .always, _ => true
  | .onFail, o => failed o
  | .onSuccess, o => !failed o

/-- What a program should do: like C++, but a guard is run depending on how its scope is left. -/
inductive Sem : Bool → Option Nat → Stmt → Store → List Ev → Out → Store → Prop
  | skip : Sem co h .skip σ [] .normal σ
  | emit : Sem co h (.emit e) σ [.emit (e σ)] .normal σ
  | assign : Sem co h (.assign x e) σ [] .normal (σ.set x (e σ))
  | throw : Sem co h (.throw e) σ [] (.thrown (e σ)) σ
  | rethrow : Sem co (some e) .rethrow σ [] (.thrown e) σ
  | rethrowNone : Sem co none .rethrow σ [] .terminate σ
  | ret : Sem co h (.ret e) σ [] (.returned (e σ)) σ
  | brk : Sem co h .brk σ [] .brk σ
  | cont : Sem co h .cont σ [] .cont σ
  | seqNormal : Sem co h a σ t₁ .normal σ₁ → Sem co h b σ₁ t₂ o σ₂ → Sem co h (.seq a b) σ (t₁ ++ t₂) o σ₂
  | seqLeft : Sem co h a σ t o σ₁ → o ≠ .normal → Sem co h (.seq a b) σ t o σ₁
  | iteTrue : b σ = true → Sem co h s σ t o σ₁ → Sem co h (.ite b s s') σ t o σ₁
  | iteFalse : b σ = false → Sem co h s' σ t o σ₁ → Sem co h (.ite b s s') σ t o σ₁
  | loopEnd : b σ = false → Sem co h (.loop b s) σ [] .normal σ
  | loopNext : b σ = true → Sem co h s σ t₁ o₁ σ₁ → o₁ = .normal ∨ o₁ = .cont → Sem co h (.loop b s) σ₁ t₂ o σ₂ →
      Sem co h (.loop b s) σ (t₁ ++ t₂) o σ₂
  | loopBreak : b σ = true → Sem co h s σ t .brk σ₁ → Sem co h (.loop b s) σ t .normal σ₁
  | loopLeft : b σ = true → Sem co h s σ t o σ₁ → o ≠ .normal → o ≠ .cont → o ≠ .brk → Sem co h (.loop b s) σ t o σ₁
  | tryPass : Sem co h s σ t o σ₁ → (∀ e, o = .thrown e → flt ≠ none ∧ flt ≠ some e) → Sem co h (.tryCatch s flt hd) σ t o σ₁
  | tryCatch : Sem co h s σ t₁ (.thrown e) σ₁ → flt = none ∨ flt = some e → Sem false (some e) hd σ₁ t₂ o σ₂ →
      Sem co h (.tryCatch s flt hd) σ (t₁ ++ t₂) o σ₂
  | callReturn : Sem false h s σ t (.returned v) σ₁ → Sem co h (.call x s) σ t .normal (σ₁.set x v)
  | callEnd : Sem false h s σ t .normal σ₁ → Sem co h (.call x s) σ t .normal σ₁
  | callThrow : Sem false h s σ t (.thrown e) σ₁ → Sem co h (.call x s) σ t (.thrown e) σ₁
  | callTerminate : Sem false h s σ t .terminate σ₁ → Sem co h (.call x s) σ t .terminate σ₁
  /-- the guard could not be made: its function is not invoked -/
  | guardInit : init σ = some e → Sem co h (.guard p i init f s) σ [] (.thrown e) σ
  | guardTerminate : init σ = none → Sem co h s σ t .terminate σ₁ → Sem co h (.guard p i init f s) σ (.made i :: t) .terminate σ₁
  | guardQuiet : init σ = none → Sem co h s σ t o σ₁ → o ≠ .terminate → shouldRun p o = false →
      Sem co h (.guard p i init f s) σ (.made i :: (t ++ [.gone i p o false])) o σ₁
  /-- the function ends normally: the scope is left as before -/
  | guardRun : init σ = none → Sem co h s σ t₁ o σ₁ → o ≠ .terminate → shouldRun p o = true → Sem false h f σ₁ t₂ fo σ₂ →
      fo = .normal ∨ (∃ v, fo = .returned v) →
      Sem co h (.guard p i init f s) σ (.made i :: (t₁ ++ .gone i p o true :: t₂)) o σ₂
  /-- the function of a success guard throws: so does the scope -/
  | guardThrow : init σ = none → Sem co h s σ t₁ o σ₁ → o ≠ .terminate → failed o = false → o ≠ .abandoned →
      Sem false h f σ₁ t₂ (.thrown e) σ₂ →
      Sem co h (.guard .onSuccess i init f s) σ (.made i :: (t₁ ++ .gone i .onSuccess o true :: t₂)) (.thrown e) σ₂
  /-- the function of another guard throws, or terminates -/
  | guardFatal : init σ = none → Sem co h s σ t₁ o σ₁ → o ≠ .terminate → shouldRun p o = true → Sem false h f σ₁ t₂ fo σ₂ →
      fo = .terminate ∨ (∃ e, fo = .thrown e) ∧ p ≠ .onSuccess →
      Sem co h (.guard p i init f s) σ (.made i :: (t₁ ++ .gone i p o true :: t₂)) .terminate σ₂
  | resume : Sem true h .suspend σ [.suspended] .normal σ₁
  | abandon : Sem true h .suspend σ [.suspended] .abandoned σ₁

/-- Exceptions in flight because of how a statement ended. -/
def inFlight (o : Out) : Nat := if failed o then 1 else 0

theorem runs_eq (p : Pol) (o : Out) (c c₁ : Nat) (h : c₁ = c + inFlight o) : runs p c c₁ = shouldRun p o := by
  subst h
  unfold inFlight
  cases p <;> cases hf : failed o <;> simp [runs, shouldRun, hf]

theorem exec_sem (R : Nat → Nat → Prop) (hR : ∀ c c', R c c' → c' = c) {co h s c σ t o c' σ'}
    (hx : Exec R co h s c σ t o c' σ') : Sem co h s σ t o σ' ∧ (o ≠ .terminate → c' = c + inFlight o) := by
  induction hx with
  | skip => exact ⟨.skip, by simp [inFlight, failed]⟩
  | emit => exact ⟨.emit, by simp [inFlight, failed]⟩
  | assign => exact ⟨.assign, by simp [inFlight, failed]⟩
  | throw => exact ⟨.throw, by simp [inFlight, failed]⟩
  | rethrow => exact ⟨.rethrow, by simp [inFlight, failed]⟩
  | rethrowNone => exact ⟨.rethrowNone, by simp⟩
  | ret => exact ⟨.ret, by simp [inFlight, failed]⟩
  | brk => exact ⟨.brk, by simp [inFlight, failed]⟩
  | cont => exact ⟨.cont, by simp [inFlight, failed]⟩
  | seqNormal _ _ ih1 ih2 =>
    have h1 := ih1.2 (by simp)
    simp [inFlight, failed] at h1; subst h1
    exact ⟨.seqNormal ih1.1 ih2.1, ih2.2⟩
  | seqLeft _ hn ih => exact ⟨.seqLeft ih.1 hn, ih.2⟩
  | iteTrue hb _ ih => exact ⟨.iteTrue hb ih.1, ih.2⟩
  | iteFalse hb _ ih => exact ⟨.iteFalse hb ih.1, ih.2⟩
  | loopEnd hb => exact ⟨.loopEnd hb, by simp [inFlight, failed]⟩
  | loopNext hb _ ho _ ih1 ih2 =>
    have h1 := ih1.2 (by rcases ho with rfl | rfl <;> simp)
    have h1 : _ = _ := h1.trans (by rcases ho with rfl | rfl <;> simp [inFlight, failed] <;> rfl)
    subst h1
    exact ⟨.loopNext hb ih1.1 ho ih2.1, ih2.2⟩
  | loopBreak hb _ ih => exact ⟨.loopBreak hb ih.1, by simpa [inFlight, failed] using ih.2⟩
  | loopLeft hb _ h1 h2 h3 ih => exact ⟨.loopLeft hb ih.1 h1 h2 h3, ih.2⟩
  | tryPass _ ho ih => exact ⟨.tryPass ih.1 ho, ih.2⟩
  | tryCatch _ hf _ ih1 ih2 =>
    have h1 := ih1.2 (by simp)
    simp [inFlight, failed] at h1; subst h1
    exact ⟨.tryCatch ih1.1 hf ih2.1, ih2.2⟩
  | callReturn _ ih => exact ⟨.callReturn ih.1, by simpa [inFlight, failed] using ih.2⟩
  | callEnd _ ih => exact ⟨.callEnd ih.1, ih.2⟩
  | callThrow _ ih => exact ⟨.callThrow ih.1, ih.2⟩
  | callTerminate _ ih => exact ⟨.callTerminate ih.1, ih.2⟩
  | guardInit hi => exact ⟨.guardInit hi, by simp [inFlight, failed]⟩
  | guardTerminate hi _ ih => exact ⟨.guardTerminate hi ih.1, by simp⟩
  | guardQuiet hi _ ht hr ih =>
    rw [runs_eq _ _ _ _ (ih.2 ht)] at hr
    exact ⟨.guardQuiet hi ih.1 ht hr, ih.2⟩
  | @guardRun init σ co h s c t₁ o c₁ σ₁ p f t₂ fo c₂ σ₂ o' i hi _ ht hr _ ha ih1 ih2 =>
    have hc := ih1.2 ht
    rw [runs_eq _ _ _ _ hc] at hr
    cases fo with
    | normal =>
      simp [afterDtor] at ha; subst ha
      have := ih2.2 (by simp)
      exact ⟨.guardRun hi ih1.1 ht hr ih2.1 (.inl rfl), fun _ => by simpa [inFlight, failed, hc] using this⟩
    | returned v =>
      simp [afterDtor] at ha; subst ha
      have := ih2.2 (by simp)
      exact ⟨.guardRun hi ih1.1 ht hr ih2.1 (.inr ⟨v, rfl⟩), fun _ => by simpa [inFlight, failed, hc] using this⟩
    | terminate =>
      simp [afterDtor] at ha; subst ha
      exact ⟨.guardFatal hi ih1.1 ht hr ih2.1 (.inl rfl), by simp⟩
    | thrown e =>
      have h2 := ih2.2 (by simp)
      by_cases hp : p = .onSuccess
      · subst hp
        have hf : failed o = false := by simpa [shouldRun] using hr
        have hna : o ≠ .abandoned := by rintro rfl; simp [afterDtor] at ha
        have : o' = .thrown e := by cases o <;> simp_all [afterDtor, failed]
        subst this
        refine ⟨.guardThrow hi ih1.1 ht hf hna ih2.1, fun _ => ?_⟩
        have h0 : inFlight o = 0 := by unfold inFlight; rw [hf]; rfl
        rw [h2, hc, h0]; rfl
      · have : o' = .terminate := by cases p <;> simp_all [afterDtor]
        subst this
        exact ⟨.guardFatal hi ih1.1 ht hr ih2.1 (.inr ⟨⟨e, rfl⟩, hp⟩), by simp⟩
    | brk => simp [afterDtor] at ha
    | cont => simp [afterDtor] at ha
    | abandoned => simp [afterDtor] at ha
  | resume hr => exact ⟨.resume, by simp [inFlight, failed, hR _ _ hr]⟩
  | abandon hr => exact ⟨.abandon, by simp [inFlight, failed, hR _ _ hr]⟩

theorem sem_exec {co h s σ t o σ'} (hx : Sem co h s σ t o σ') : ∀ c, ∃ c', Exec (fun c c' => c' = c) co h s c σ t o c' σ' := by
  have cnt : ∀ {co h s c σ t o c' σ'}, Exec (fun c c' => c' = c) co h s c σ t o c' σ' → o ≠ .terminate → c' = c + inFlight o :=
    fun hx => (exec_sem _ (fun _ _ h => h) hx).2
  induction hx with
  | skip => exact fun c => ⟨_, .skip⟩
  | emit => exact fun c => ⟨_, .emit⟩
  | assign => exact fun c => ⟨_, .assign⟩
  | throw => exact fun c => ⟨_, .throw⟩
  | rethrow => exact fun c => ⟨_, .rethrow⟩
  | rethrowNone => exact fun c => ⟨_, .rethrowNone⟩
  | ret => exact fun c => ⟨_, .ret⟩
  | brk => exact fun c => ⟨_, .brk⟩
  | cont => exact fun c => ⟨_, .cont⟩
  | seqNormal _ _ ih1 ih2 => intro c; obtain ⟨c1, h1⟩ := ih1 c; obtain ⟨c2, h2⟩ := ih2 c1; exact ⟨_, .seqNormal h1 h2⟩
  | seqLeft _ hn ih => intro c; obtain ⟨c1, h1⟩ := ih c; exact ⟨_, .seqLeft h1 hn⟩
  | iteTrue hb _ ih => intro c; obtain ⟨c1, h1⟩ := ih c; exact ⟨_, .iteTrue hb h1⟩
  | iteFalse hb _ ih => intro c; obtain ⟨c1, h1⟩ := ih c; exact ⟨_, .iteFalse hb h1⟩
  | loopEnd hb => exact fun c => ⟨_, .loopEnd hb⟩
  | loopNext hb _ ho _ ih1 ih2 => intro c; obtain ⟨c1, h1⟩ := ih1 c; obtain ⟨c2, h2⟩ := ih2 c1; exact ⟨_, .loopNext hb h1 ho h2⟩
  | loopBreak hb _ ih => intro c; obtain ⟨c1, h1⟩ := ih c; exact ⟨_, .loopBreak hb h1⟩
  | loopLeft hb _ a1 a2 a3 ih => intro c; obtain ⟨c1, h1⟩ := ih c; exact ⟨_, .loopLeft hb h1 a1 a2 a3⟩
  | tryPass _ ho ih => intro c; obtain ⟨c1, h1⟩ := ih c; exact ⟨_, .tryPass h1 ho⟩
  | tryCatch _ hf _ ih1 ih2 => intro c; obtain ⟨c1, h1⟩ := ih1 c; obtain ⟨c2, h2⟩ := ih2 (c1 - 1); exact ⟨_, .tryCatch h1 hf h2⟩
  | callReturn _ ih => intro c; obtain ⟨c1, h1⟩ := ih c; exact ⟨_, .callReturn h1⟩
  | callEnd _ ih => intro c; obtain ⟨c1, h1⟩ := ih c; exact ⟨_, .callEnd h1⟩
  | callThrow _ ih => intro c; obtain ⟨c1, h1⟩ := ih c; exact ⟨_, .callThrow h1⟩
  | callTerminate _ ih => intro c; obtain ⟨c1, h1⟩ := ih c; exact ⟨_, .callTerminate h1⟩
  | guardInit hi => exact fun c => ⟨_, .guardInit hi⟩
  | guardTerminate hi _ ih => intro c; obtain ⟨c1, h1⟩ := ih c; exact ⟨_, .guardTerminate hi h1⟩
  | guardQuiet hi _ ht hr ih =>
    intro c; obtain ⟨c1, h1⟩ := ih c
    exact ⟨_, .guardQuiet hi h1 ht (by rw [runs_eq _ _ _ _ (cnt h1 ht)]; exact hr)⟩
  | guardRun hi _ ht hr _ hf ih1 ih2 =>
    intro c; obtain ⟨c1, h1⟩ := ih1 c; obtain ⟨c2, h2⟩ := ih2 c1
    refine ⟨_, .guardRun hi h1 ht (by rw [runs_eq _ _ _ _ (cnt h1 ht)]; exact hr) h2 ?_⟩
    rcases hf with rfl | ⟨v, rfl⟩ <;> rfl
  | @guardThrow _ _ _ _ _ _ o _ _ _ _ _ _ hi _ ht hf ha _ ih1 ih2 =>
    intro c; obtain ⟨c1, h1⟩ := ih1 c; obtain ⟨c2, h2⟩ := ih2 c1
    refine ⟨_, .guardRun hi h1 ht (by rw [runs_eq _ _ _ _ (cnt h1 ht)]; simp [shouldRun, hf]) h2 ?_⟩
    cases o <;> simp_all [afterDtor, failed]
  | @guardFatal _ _ _ _ _ _ o _ p _ _ fo _ _ hi _ ht hr _ hf ih1 ih2 =>
    intro c; obtain ⟨c1, h1⟩ := ih1 c; obtain ⟨c2, h2⟩ := ih2 c1
    refine ⟨_, .guardRun hi h1 ht (by rw [runs_eq _ _ _ _ (cnt h1 ht)]; exact hr) h2 ?_⟩
    rcases hf with rfl | ⟨⟨e, rfl⟩, hp⟩
    · rfl
    · cases p <;> simp_all [afterDtor]
  | resume => exact fun c => ⟨_, .resume rfl⟩
  | abandon => exact fun c => ⟨_, .abandon rfl⟩

/-- **C85 (part).** In every function with loops, branches, `return`, `break`, `continue`, `throw;`, calls and guards that read and write its
variables, and in every coroutine that is resumed (or destroyed) with as many exceptions in flight as when it was suspended, guards do what
their policy says: the executions are exactly those of `Sem`, whatever the number of exceptions in flight at the start. Missing: coroutines
that are resumed with another number of exceptions in flight (`flow_resume_refuted`). -/
theorem flow_correct_partial (co : Bool) (h : Option Nat) (s : Stmt) (c : Nat) (σ σ' : Store) (t : List Ev) (o : Out) :
    (∃ c', Exec (fun c c' => c' = c) co h s c σ t o c' σ') ↔ Sem co h s σ t o σ' :=
  ⟨fun ⟨_, hx⟩ => (exec_sem _ (fun _ _ h => h) hx).1, fun hx => sem_exec hx c⟩

/-- The count of exceptions in flight is right again after every statement. -/
theorem flow_balanced (co : Bool) (h : Option Nat) (s : Stmt) (c c' : Nat) (σ σ' : Store) (t : List Ev) (o : Out)
    (hx : Exec (fun c c' => c' = c) co h s c σ t o c' σ') (ho : o ≠ .terminate) : c' = c + if failed o then 1 else 0 :=
  (exec_sem _ (fun _ _ h => h) hx).2 ho

example : Exec (fun c c' => c' = c) false none
    (.tryCatch (.guard .onFail 1 (fun _ => none) .skip (.throw (fun _ => 5))) none .rethrow) 2 (fun _ => 0)
    ([.made 1, .gone 1 .onFail (.thrown 5) true] ++ []) (.thrown 5) 3 (fun _ => 0) :=
  .tryCatch (.guardRun (t₁ := []) (t₂ := []) rfl .throw (by decide) rfl .skip rfl) (.inl rfl) .rethrow

/-- Guards may be written in terms of the code without suspension points: how coroutines are resumed does not matter. -/
theorem exec_plain (R R' : Nat → Nat → Prop) {co h s c σ t o c' σ'} (hx : Exec R co h s c σ t o c' σ') (hco : co = false) :
    Exec R' co h s c σ t o c' σ' := by
  induction hx with
  | skip => exact .skip
  | emit => exact .emit
  | assign => exact .assign
  | throw => exact .throw
  | rethrow => exact .rethrow
  | rethrowNone => exact .rethrowNone
  | ret => exact .ret
  | brk => exact .brk
  | cont => exact .cont
  | seqNormal _ _ ih1 ih2 => exact .seqNormal (ih1 hco) (ih2 hco)
  | seqLeft _ hn ih => exact .seqLeft (ih hco) hn
  | iteTrue hb _ ih => exact .iteTrue hb (ih hco)
  | iteFalse hb _ ih => exact .iteFalse hb (ih hco)
  | loopEnd hb => exact .loopEnd hb
  | loopNext hb _ ho _ ih1 ih2 => exact .loopNext hb (ih1 hco) ho (ih2 hco)
  | loopBreak hb _ ih => exact .loopBreak hb (ih hco)
  | loopLeft hb _ a1 a2 a3 ih => exact .loopLeft hb (ih hco) a1 a2 a3
  | tryPass _ ho ih => exact .tryPass (ih hco) ho
  | tryCatch _ hf _ ih1 ih2 => exact .tryCatch (ih1 hco) hf (ih2 rfl)
  | callReturn _ ih => exact .callReturn (ih rfl)
  | callEnd _ ih => exact .callEnd (ih rfl)
  | callThrow _ ih => exact .callThrow (ih rfl)
  | callTerminate _ ih => exact .callTerminate (ih rfl)
  | guardInit hi => exact .guardInit hi
  | guardTerminate hi _ ih => exact .guardTerminate hi (ih hco)
  | guardQuiet hi _ ht hr ih => exact .guardQuiet hi (ih hco) ht hr
  | guardRun hi _ ht hr _ ha ih1 ih2 => exact .guardRun hi (ih1 hco) ht hr (ih2 rfl) ha
  | resume hr => cases hco
  | abandon hr => cases hco

/-- **C85.** In ordinary functions (no suspension points in reach) nothing has to be assumed about coroutines. -/
theorem flow_correct (R : Nat → Nat → Prop) (h : Option Nat) (s : Stmt) (c : Nat) (σ σ' : Store) (t : List Ev) (o : Out) :
    (∃ c', Exec R false h s c σ t o c' σ') ↔ Sem false h s σ t o σ' := by
  rw [← flow_correct_partial false h s c]
  exact ⟨fun ⟨c', hx⟩ => ⟨c', exec_plain _ _ hx rfl⟩, fun ⟨c', hx⟩ => ⟨c', exec_plain _ _ hx rfl⟩⟩

/-- A loop that leaves by `break` in its second round, with a success guard in its body that counts, inside a scope with a fail guard, in a
function that returns a variable which a guard changes afterwards. -/
def demo : Stmt :=
  .call 0 (.guard .onFail 1 (fun _ => none) (.emit (fun _ => 9))
    (.seq (.loop (fun _ => true) (.guard .onSuccess 2 (fun _ => none) (.assign 5 (fun σ => σ 5 + 1))
      (.ite (fun σ => σ 5 == 1) .brk .cont)))
      (.guard .always 3 (fun _ => none) (.assign 5 (fun _ => 77)) (.ret (fun σ => σ 5)))))

/-- The function returns 2: the value of the variable before guard 3 changed it. -/
example : Sem false none demo (fun _ => 0)
    [.made 1, .made 2, .gone 2 .onSuccess .cont true, .made 2, .gone 2 .onSuccess .brk true, .made 3, .gone 3 .always (.returned 2) true,
      .gone 1 .onFail (.returned 2) false] .normal
    ((((Store.set (fun _ => 0) 5 1).set 5 2).set 5 77).set 0 2) :=
  .callReturn (.guardQuiet (t := [.made 2, .gone 2 .onSuccess .cont true, .made 2, .gone 2 .onSuccess .brk true, .made 3,
      .gone 3 .always (.returned 2) true]) rfl
    (.seqNormal (t₁ := [.made 2, .gone 2 .onSuccess .cont true, .made 2, .gone 2 .onSuccess .brk true])
      (.loopNext (t₁ := [.made 2, .gone 2 .onSuccess .cont true]) (o₁ := .cont) rfl
        (.guardRun (t₁ := []) (t₂ := []) rfl (.iteFalse rfl .cont) (by decide) rfl .assign (.inl rfl)) (.inr rfl)
        (.loopBreak rfl (.guardRun (t₁ := []) (t₂ := []) rfl (.iteTrue rfl .brk) (by decide) rfl .assign (.inl rfl))))
      (.guardRun (t₁ := []) (t₂ := []) rfl .ret (by decide) rfl .assign (.inl rfl))) (by decide) rfl)

/-- The specification is a function of the program and its variables when nothing is suspended: there is one thing to do. -/
theorem sem_deterministic {co h s σ t o σ'} (hx : Sem co h s σ t o σ') (hco : co = false) :
    ∀ {t₂ o₂ σ₂}, Sem co h s σ t₂ o₂ σ₂ → t₂ = t ∧ o₂ = o ∧ σ₂ = σ' := by
  induction hx with
  | skip => intro _ _ _ h; cases h; simp
  | emit => intro _ _ _ h; cases h; simp
  | assign => intro _ _ _ h; cases h; simp
  | throw => intro _ _ _ h; cases h; simp
  | rethrow => intro _ _ _ h; cases h; simp
  | rethrowNone => intro _ _ _ h; cases h; simp
  | ret => intro _ _ _ h; cases h; simp
  | brk => intro _ _ _ h; cases h; simp
  | cont => intro _ _ _ h; cases h; simp
  | seqNormal _ _ ih1 ih2 =>
    intro _ _ _ h
    cases h with
    | seqNormal h1 h2 =>
      obtain ⟨rfl, _, rfl⟩ := ih1 hco h1
      obtain ⟨rfl, rfl, rfl⟩ := ih2 hco h2
      exact ⟨rfl, rfl, rfl⟩
    | seqLeft h1 hn => exact absurd (ih1 hco h1).2.1 hn
  | seqLeft _ hn ih =>
    intro _ _ _ h
    cases h with
    | seqNormal h1 h2 => exact absurd (ih hco h1).2.1.symm hn
    | seqLeft h1 _ => exact ih hco h1
  | iteTrue hb _ ih =>
    intro _ _ _ h
    cases h with
    | iteTrue _ h1 => exact ih hco h1
    | iteFalse hb' _ => simp_all
  | iteFalse hb _ ih =>
    intro _ _ _ h
    cases h with
    | iteFalse _ h1 => exact ih hco h1
    | iteTrue hb' _ => simp_all
  | loopEnd hb => intro _ _ _ h; cases h <;> simp_all
  | loopNext hb _ ho _ ih1 ih2 =>
    intro _ _ _ h
    cases h with
    | loopEnd hb' => simp_all
    | loopNext _ h1 _ h2 =>
      obtain ⟨rfl, _, rfl⟩ := ih1 hco h1
      obtain ⟨rfl, rfl, rfl⟩ := ih2 hco h2
      exact ⟨rfl, rfl, rfl⟩
    | loopBreak _ h1 => have := (ih1 hco h1).2.1; subst this; simp at ho
    | loopLeft _ h1 a1 a2 a3 => have := (ih1 hco h1).2.1; subst this; simp_all
  | loopBreak hb _ ih =>
    intro _ _ _ h
    cases h with
    | loopEnd hb' => simp_all
    | loopNext _ h1 ho _ => have := (ih hco h1).2.1; subst this; simp at ho
    | loopBreak _ h1 => obtain ⟨rfl, _, rfl⟩ := ih hco h1; exact ⟨rfl, rfl, rfl⟩
    | loopLeft _ h1 a1 a2 a3 => exact absurd (ih hco h1).2.1 a3
  | loopLeft hb _ a1 a2 a3 ih =>
    intro _ _ _ h
    cases h with
    | loopEnd hb' => simp_all
    | loopNext _ h1 ho _ => have := (ih hco h1).2.1; subst this; simp_all
    | loopBreak _ h1 => exact absurd (ih hco h1).2.1.symm a3
    | loopLeft _ h1 _ _ _ => exact ih hco h1
  | tryPass _ ho ih =>
    intro _ _ _ h
    cases h with
    | tryPass h1 _ => exact ih hco h1
    | tryCatch h1 hf _ => have := (ih hco h1).2.1; have := ho _ this.symm; rcases hf with hf | hf <;> simp_all
  | tryCatch _ hf _ ih1 ih2 =>
    intro _ _ _ h
    cases h with
    | tryPass h1 ho => have := (ih1 hco h1).2.1; have := ho _ this; rcases hf with hf | hf <;> simp_all
    | tryCatch h1 _ h2 =>
      obtain ⟨rfl, he, rfl⟩ := ih1 hco h1
      cases he
      obtain ⟨rfl, rfl, rfl⟩ := ih2 rfl h2
      exact ⟨rfl, rfl, rfl⟩
  | callReturn _ ih =>
    intro _ _ _ h
    cases h with
    | callReturn h1 => obtain ⟨rfl, he, rfl⟩ := ih rfl h1; cases he; exact ⟨rfl, rfl, rfl⟩
    | callEnd h1 => have := (ih rfl h1).2.1; cases this
    | callThrow h1 => have := (ih rfl h1).2.1; cases this
    | callTerminate h1 => have := (ih rfl h1).2.1; cases this
  | callEnd _ ih =>
    intro _ _ _ h
    cases h with
    | callReturn h1 => have := (ih rfl h1).2.1; cases this
    | callEnd h1 => exact ih rfl h1
    | callThrow h1 => have := (ih rfl h1).2.1; cases this
    | callTerminate h1 => have := (ih rfl h1).2.1; cases this
  | callThrow _ ih =>
    intro _ _ _ h
    cases h with
    | callReturn h1 => have := (ih rfl h1).2.1; cases this
    | callEnd h1 => have := (ih rfl h1).2.1; cases this
    | callThrow h1 => exact ih rfl h1
    | callTerminate h1 => have := (ih rfl h1).2.1; cases this
  | callTerminate _ ih =>
    intro _ _ _ h
    cases h with
    | callReturn h1 => have := (ih rfl h1).2.1; cases this
    | callEnd h1 => have := (ih rfl h1).2.1; cases this
    | callThrow h1 => have := (ih rfl h1).2.1; cases this
    | callTerminate h1 => exact ih rfl h1
  | guardInit hi =>
    intro _ _ _ h
    cases h <;> simp_all
  | guardTerminate hi _ ih =>
    intro _ _ _ h
    cases h with
    | guardInit hi' => simp_all
    | guardTerminate _ h1 => obtain ⟨rfl, _, rfl⟩ := ih hco h1; exact ⟨rfl, rfl, rfl⟩
    | guardQuiet _ h1 ht _ => exact absurd (ih hco h1).2.1 ht
    | guardRun _ h1 ht _ _ _ => exact absurd (ih hco h1).2.1 ht
    | guardThrow _ h1 ht _ _ _ => exact absurd (ih hco h1).2.1 ht
    | guardFatal _ h1 ht _ _ _ => exact absurd (ih hco h1).2.1 ht
  | guardQuiet hi _ ht hr ih =>
    intro _ _ _ h
    cases h with
    | guardInit hi' => simp_all
    | guardTerminate _ h1 => exact absurd (ih hco h1).2.1.symm ht
    | guardQuiet _ h1 _ _ => obtain ⟨rfl, rfl, rfl⟩ := ih hco h1; exact ⟨rfl, rfl, rfl⟩
    | guardRun _ h1 _ hr' _ _ => obtain ⟨rfl, rfl, rfl⟩ := ih hco h1; simp_all
    | guardThrow _ h1 _ hf _ _ => obtain ⟨rfl, rfl, rfl⟩ := ih hco h1; simp_all [shouldRun]
    | guardFatal _ h1 _ hr' _ _ => obtain ⟨rfl, rfl, rfl⟩ := ih hco h1; simp_all
  | guardRun hi _ ht hr _ hf ih1 ih2 =>
    intro _ _ _ h
    cases h with
    | guardInit hi' => simp_all
    | guardTerminate _ h1 => exact absurd (ih1 hco h1).2.1.symm ht
    | guardQuiet _ h1 _ _ => obtain ⟨rfl, rfl, rfl⟩ := ih1 hco h1; simp_all
    | guardRun _ h1 _ _ h2 _ =>
      obtain ⟨rfl, rfl, rfl⟩ := ih1 hco h1
      obtain ⟨rfl, rfl, rfl⟩ := ih2 rfl h2
      exact ⟨rfl, rfl, rfl⟩
    | guardThrow _ h1 _ _ _ h2 =>
      obtain ⟨rfl, rfl, rfl⟩ := ih1 hco h1
      have := (ih2 rfl h2).2.1; subst this; simp at hf
    | guardFatal _ h1 _ _ h2 hf' =>
      obtain ⟨rfl, rfl, rfl⟩ := ih1 hco h1
      have := (ih2 rfl h2).2.1; subst this
      rcases hf with rfl | ⟨v, rfl⟩ <;> simp at hf'
  | guardThrow hi _ ht hf ha _ ih1 ih2 =>
    intro _ _ _ h
    cases h with
    | guardInit hi' => simp_all
    | guardTerminate _ h1 => exact absurd (ih1 hco h1).2.1.symm ht
    | guardQuiet _ h1 _ hr => obtain ⟨rfl, rfl, rfl⟩ := ih1 hco h1; simp_all [shouldRun]
    | guardRun _ h1 _ _ h2 hf =>
      obtain ⟨rfl, rfl, rfl⟩ := ih1 hco h1
      have := (ih2 rfl h2).2.1; subst this; simp at hf
    | guardThrow _ h1 _ _ _ h2 =>
      obtain ⟨rfl, rfl, rfl⟩ := ih1 hco h1
      obtain ⟨rfl, he, rfl⟩ := ih2 rfl h2
      cases he; exact ⟨rfl, rfl, rfl⟩
    | guardFatal _ h1 _ _ h2 hf' =>
      obtain ⟨rfl, rfl, rfl⟩ := ih1 hco h1
      have := (ih2 rfl h2).2.1; subst this; simp at hf'
  | guardFatal hi _ ht hr _ hf ih1 ih2 =>
    intro _ _ _ h
    cases h with
    | guardInit hi' => simp_all
    | guardTerminate _ h1 => exact absurd (ih1 hco h1).2.1.symm ht
    | guardQuiet _ h1 _ _ => obtain ⟨rfl, rfl, rfl⟩ := ih1 hco h1; simp_all
    | guardRun _ h1 _ _ h2 hf' =>
      obtain ⟨rfl, rfl, rfl⟩ := ih1 hco h1
      have := (ih2 rfl h2).2.1; subst this
      rcases hf' with rfl | ⟨v, rfl⟩ <;> simp at hf
    | guardThrow _ h1 _ _ _ h2 =>
      obtain ⟨rfl, rfl, rfl⟩ := ih1 hco h1
      have := (ih2 rfl h2).2.1; subst this; simp at hf
    | guardFatal _ h1 _ _ h2 _ =>
      obtain ⟨rfl, rfl, rfl⟩ := ih1 hco h1
      obtain ⟨rfl, rfl, rfl⟩ := ih2 rfl h2
      exact ⟨rfl, rfl, rfl⟩
  | resume => cases hco
  | abandon => cases hco

/-- **C85.** What an ordinary function with guards does is determined by its code and its variables: it does not depend on the number of
exceptions in flight when it is called, e.g. by a destructor during unwinding. -/
theorem flow_deterministic (R R' : Nat → Nat → Prop) (h : Option Nat) (s : Stmt) (c₁ c₁' c₂ c₂' : Nat) (σ σ₁ σ₂ : Store)
    (t₁ t₂ : List Ev) (o₁ o₂ : Out) (hx : Exec R false h s c₁ σ t₁ o₁ c₁' σ₁) (hy : Exec R' false h s c₂ σ t₂ o₂ c₂' σ₂) :
    t₂ = t₁ ∧ o₂ = o₁ ∧ σ₂ = σ₁ :=
  sem_deterministic ((flow_correct R h s c₁ σ σ₁ t₁ o₁).1 ⟨_, hx⟩) rfl ((flow_correct R' h s c₂ σ σ₂ t₂ o₂).1 ⟨_, hy⟩)

/-- **C85.** A guard that assigns to a variable sees the variables as they are at the end of its scope, its assignment is seen by the code after the scope, the
other variables keep their values, and the scope is left the way it was being left (in particular a value already returned stays). -/
theorem guard_assigns (R : Nat → Nat → Prop) (co : Bool) (h : Option Nat) (x : Nat) (e : Store → Nat) (i : Nat) (rest : Stmt) (c c' : Nat) (σ σ₁ : Store)
    (t : List Ev) (o : Out) (ho : o ≠ .terminate) (hx : Exec R co h rest c σ t o c' σ₁) :
    ∃ σ', Exec R co h (.guard .always i (fun _ => none) (.assign x e) rest) c σ (.made i :: (t ++ [.gone i .always o true])) o c' σ' ∧
      σ' x = e σ₁ ∧ ∀ y, y ≠ x → σ' y = σ₁ y :=
  ⟨σ₁.set x (e σ₁), .guardRun (fo := .normal) rfl hx ho (by simp [runs]) .assign rfl, by simp [Store.set], fun y hy => by simp [Store.set, hy]⟩

example : Exec (fun c c' => c' = c) false none (.ret (fun σ => σ 5)) 0 (fun _ => 3) [] (.returned 3) 0 (fun _ => 3) := .ret

/-- **C85.** A plain assignment or the result of a call changes that variable and no other. -/
theorem flow_assigns (R : Nat → Nat → Prop) (co : Bool) (h : Option Nat) (x : Nat) (e : Store → Nat) (c c' : Nat) (σ σ' : Store) (t : List Ev) (o : Out)
    (hx : Exec R co h (.assign x e) c σ t o c' σ' ∨ Exec R co h (.call x (.ret e)) c σ t o c' σ') :
    o = .normal ∧ t = [] ∧ c' = c ∧ σ' x = e σ ∧ ∀ y, y ≠ x → σ' y = σ y := by
  rcases hx with hx | hx
  · cases hx
    exact ⟨rfl, rfl, rfl, by simp [Store.set], fun y hy => by simp [Store.set, hy]⟩
  · cases hx with
    | callReturn hx => cases hx; exact ⟨rfl, rfl, rfl, by simp [Store.set], fun y hy => by simp [Store.set, hy]⟩
    | callEnd hx => cases hx
    | callThrow hx => cases hx
    | callTerminate hx => cases hx

example : Exec (fun c c' => c' = c) false none (.assign 1 (fun σ => σ 5 + 1)) 0 (fun _ => 3) [] .normal 0 (Store.set (fun _ => 3) 1 4) := .assign

/-! ### Coroutines that are resumed elsewhere -/

/-- **C85 (refuted).** The destructor of a coroutine's guard may be fooled when the coroutine is resumed with another number of exceptions in
flight. Resumed by a destructor that runs during unwinding, a scope that succeeds runs its fail guard and not its success guard; started
by such a destructor and resumed later, a scope that fails runs its success guard and not its fail guard. -/
theorem flow_resume_refuted :
    (∃ c₀ c₁ c' t, Exec (fun c c' => c = c₀ ∧ c' = c₁) true none
        (.guard .onFail 1 (fun _ => none) .skip (.guard .onSuccess 2 (fun _ => none) .skip .suspend)) c₀ (fun _ => 0) t .normal c' (fun _ => 0) ∧
      .gone 1 .onFail .normal true ∈ t ∧ .gone 2 .onSuccess .normal false ∈ t) ∧
    (∃ c₀ c₁ c' t, Exec (fun c c' => c = c₀ ∧ c' = c₁) true none
        (.guard .onFail 1 (fun _ => none) .skip (.guard .onSuccess 2 (fun _ => none) .skip (.seq .suspend (.throw (fun _ => 5))))) c₀ (fun _ => 0) t
        (.thrown 5) c' (fun _ => 0) ∧
      .gone 1 .onFail (.thrown 5) false ∈ t ∧ .gone 2 .onSuccess (.thrown 5) true ∈ t) := by
  refine ⟨⟨0, 1, _, _, .guardRun rfl (.guardQuiet rfl (.resume ⟨rfl, rfl⟩) (by decide) rfl) (by decide) rfl .skip rfl, by decide, by decide⟩,
    ⟨1, 0, _, _, .guardQuiet rfl (.guardRun rfl (.seqNormal (.resume ⟨rfl, rfl⟩) .throw) (by decide) rfl .skip rfl) (by decide) rfl,
      by decide, by decide⟩⟩

/-- A guard's destruction agrees with how the scope was left. -/
def agrees : Ev → Bool
  | .gone _ p o ran => ran == shouldRun p o
  | _ => true

/-- The event is the destruction of a guard whose scope was left by an exception. -/
def failing : Ev → Bool
  | .gone _ _ o _ => failed o
  | _ => false

theorem runs_ge (p : Pol) (o : Out) (c c₁ : Nat) (h : c + inFlight o ≤ c₁) (hf : failed o = true) : runs p c c₁ = shouldRun p o := by
  have : inFlight o = 1 := by unfold inFlight; rw [hf]; rfl
  have hlt : c < c₁ := by omega
  cases p <;> simp [runs, shouldRun, hf, hlt]

theorem runs_le (p : Pol) (o : Out) (c c₁ : Nat) (h : c₁ ≤ c + inFlight o) (hf : failed o = false) : runs p c c₁ = shouldRun p o := by
  have : inFlight o = 0 := by unfold inFlight; rw [hf]; rfl
  have hlt : ¬ c < c₁ := by omega
  cases p <;> simp [runs, shouldRun, hf, hlt]

theorem inFlight_after {p : Pol} {o fo o' : Out} (ha : afterDtor p o fo = some o') (ho : o' ≠ .terminate) :
    (inFlight fo = 0 ∧ o' = o) ∨ (failed fo = true ∧ failed o' = true ∧ inFlight o = 0 ∧ inFlight fo = inFlight o') := by
  cases fo <;> simp [afterDtor] at ha
  · exact .inl ⟨rfl, ha.symm⟩
  · cases p <;> simp at ha
    · exact absurd ha.symm ho
    · exact absurd ha.symm ho
    · cases o <;> simp at ha <;> subst ha <;> first | exact absurd rfl ho | exact .inr ⟨rfl, rfl, rfl, rfl⟩
  · exact .inl ⟨rfl, ha.symm⟩
  · exact absurd ha.symm ho

theorem exec_ge (R : Nat → Nat → Prop) (hR : ∀ c c', R c c' → c ≤ c') {co h s c σ t o c' σ'} (hx : Exec R co h s c σ t o c' σ') :
    (∀ e ∈ t, failing e → agrees e) ∧ (o ≠ .terminate → c + inFlight o ≤ c') := by
  induction hx with
  | skip => simp [inFlight, failed]
  | emit => simp [inFlight, failed, failing]
  | assign => simp [inFlight, failed]
  | throw => simp [inFlight, failed]
  | rethrow => simp [inFlight, failed]
  | rethrowNone => simp
  | ret => simp [inFlight, failed]
  | brk => simp [inFlight, failed]
  | cont => simp [inFlight, failed]
  | seqNormal _ _ ih1 ih2 =>
    have := ih1.2 (by simp)
    refine ⟨fun e he => ?_, fun ho => by have := ih2.2 ho; omega⟩
    rcases List.mem_append.1 he with he | he
    · exact ih1.1 e he
    · exact ih2.1 e he
  | seqLeft _ hn ih => exact ih
  | iteTrue hb _ ih => exact ih
  | iteFalse hb _ ih => exact ih
  | loopEnd hb => simp [inFlight, failed]
  | loopNext hb _ ho _ ih1 ih2 =>
    have := ih1.2 (by rcases ho with rfl | rfl <;> simp)
    refine ⟨fun e he => ?_, fun ho => by have := ih2.2 ho; omega⟩
    rcases List.mem_append.1 he with he | he
    · exact ih1.1 e he
    · exact ih2.1 e he
  | loopBreak hb _ ih => exact ⟨ih.1, fun _ => ih.2 (by simp)⟩
  | loopLeft hb _ a1 a2 a3 ih => exact ih
  | tryPass _ ho ih => exact ih
  | tryCatch _ hf _ ih1 ih2 =>
    have := ih1.2 (by simp)
    simp [inFlight, failed] at this
    refine ⟨fun e he => ?_, fun ho => by have := ih2.2 ho; omega⟩
    rcases List.mem_append.1 he with he | he
    · exact ih1.1 e he
    · exact ih2.1 e he
  | callReturn _ ih => exact ⟨ih.1, fun _ => ih.2 (by simp)⟩
  | callEnd _ ih => exact ih
  | callThrow _ ih => exact ih
  | callTerminate _ ih => exact ih
  | guardInit hi => simp [inFlight, failed]
  | guardTerminate hi _ ih =>
    refine ⟨fun e he => ?_, by simp⟩
    rcases List.mem_cons.1 he with rfl | he
    · exact by simp [failing]
    · exact ih.1 e he
  | guardQuiet hi _ ht hr ih =>
    refine ⟨fun e he => ?_, ih.2⟩
    rcases List.mem_cons.1 he with rfl | he
    · simp [failing]
    rcases List.mem_append.1 he with he | he
    · exact ih.1 e he
    simp only [List.mem_singleton] at he; subst he
    intro hf
    rw [runs_ge _ _ _ _ (ih.2 ht) hf] at hr
    simp [agrees, hr]
  | guardRun hi _ ht hr _ ha ih1 ih2 =>
    refine ⟨fun e he => ?_, fun ho => ?_⟩
    · rcases List.mem_cons.1 he with rfl | he
      · simp [failing]
      rcases List.mem_append.1 he with he | he
      · exact ih1.1 e he
      rcases List.mem_cons.1 he with rfl | he
      · intro hf
        rw [runs_ge _ _ _ _ (ih1.2 ht) hf] at hr
        simp [agrees, hr]
      · exact ih2.1 e he
    · have h1 := ih1.2 ht
      have h2 := ih2.2 (by rintro rfl; simp [afterDtor] at ha; exact ho ha.symm)
      rcases inFlight_after ha ho with ⟨h, rfl⟩ | ⟨_, _, h, h'⟩ <;> omega
  | resume hr => exact ⟨by simp [failing], by simpa [inFlight, failed] using hR _ _ hr⟩
  | abandon hr => exact ⟨by simp [failing], by simpa [inFlight, failed] using hR _ _ hr⟩

theorem exec_le (R : Nat → Nat → Prop) (hR : ∀ c c', R c c' → c' ≤ c) {co h s c σ t o c' σ'} (hx : Exec R co h s c σ t o c' σ') :
    (∀ e ∈ t, failing e = false → agrees e) ∧ (o ≠ .terminate → c' ≤ c + inFlight o) := by
  induction hx with
  | skip => simp [inFlight, failed]
  | emit => simp [inFlight, failed, agrees]
  | assign => simp [inFlight, failed]
  | throw => simp [inFlight, failed]
  | rethrow => simp [inFlight, failed]
  | rethrowNone => simp
  | ret => simp [inFlight, failed]
  | brk => simp [inFlight, failed]
  | cont => simp [inFlight, failed]
  | seqNormal _ _ ih1 ih2 =>
    have := ih1.2 (by simp)
    simp [inFlight, failed] at this
    refine ⟨fun e he => ?_, fun ho => by have := ih2.2 ho; omega⟩
    rcases List.mem_append.1 he with he | he
    · exact ih1.1 e he
    · exact ih2.1 e he
  | seqLeft _ hn ih => exact ih
  | iteTrue hb _ ih => exact ih
  | iteFalse hb _ ih => exact ih
  | loopEnd hb => simp [inFlight, failed]
  | @loopNext _ _ _ _ _ _ _ o₁ _ _ _ _ _ _ hb _ ho _ ih1 ih2 =>
    have := ih1.2 (by rcases ho with rfl | rfl <;> simp)
    have h0 : inFlight o₁ = 0 := by rcases ho with rfl | rfl <;> rfl
    refine ⟨fun e he => ?_, fun ho => by have := ih2.2 ho; omega⟩
    rcases List.mem_append.1 he with he | he
    · exact ih1.1 e he
    · exact ih2.1 e he
  | loopBreak hb _ ih => exact ⟨ih.1, fun _ => ih.2 (by simp)⟩
  | loopLeft hb _ a1 a2 a3 ih => exact ih
  | tryPass _ ho ih => exact ih
  | tryCatch _ hf _ ih1 ih2 =>
    have := ih1.2 (by simp)
    simp [inFlight, failed] at this
    refine ⟨fun e he => ?_, fun ho => by have := ih2.2 ho; omega⟩
    rcases List.mem_append.1 he with he | he
    · exact ih1.1 e he
    · exact ih2.1 e he
  | callReturn _ ih => exact ⟨ih.1, fun _ => ih.2 (by simp)⟩
  | callEnd _ ih => exact ih
  | callThrow _ ih => exact ih
  | callTerminate _ ih => exact ih
  | guardInit hi => simp [inFlight, failed]
  | guardTerminate hi _ ih =>
    refine ⟨fun e he => ?_, by simp⟩
    rcases List.mem_cons.1 he with rfl | he
    · exact by simp [agrees]
    · exact ih.1 e he
  | guardQuiet hi _ ht hr ih =>
    refine ⟨fun e he => ?_, ih.2⟩
    rcases List.mem_cons.1 he with rfl | he
    · simp [agrees]
    rcases List.mem_append.1 he with he | he
    · exact ih.1 e he
    simp only [List.mem_singleton] at he; subst he
    intro hf
    rw [runs_le _ _ _ _ (ih.2 ht) hf] at hr
    simp [agrees, hr]
  | guardRun hi _ ht hr _ ha ih1 ih2 =>
    refine ⟨fun e he => ?_, fun ho => ?_⟩
    · rcases List.mem_cons.1 he with rfl | he
      · simp [agrees]
      rcases List.mem_append.1 he with he | he
      · exact ih1.1 e he
      rcases List.mem_cons.1 he with rfl | he
      · intro hf
        rw [runs_le _ _ _ _ (ih1.2 ht) hf] at hr
        simp [agrees, hr]
      · exact ih2.1 e he
    · have h1 := ih1.2 ht
      have h2 := ih2.2 (by rintro rfl; simp [afterDtor] at ha; exact ho ha.symm)
      rcases inFlight_after ha ho with ⟨h, rfl⟩ | ⟨_, _, h, h'⟩ <;> omega
  | resume hr => exact ⟨by simp [agrees], by simpa [inFlight, failed] using hR _ _ hr⟩
  | abandon hr => exact ⟨by simp [agrees], by simpa [inFlight, failed] using hR _ _ hr⟩

/-- **C85 (part).** A coroutine that is never resumed with fewer exceptions in flight than when it was suspended handles failing scopes
correctly: their fail guards run and their success guards do not. So it does if it is started outside of unwinding (`c = 0`). Missing: that
its successful scopes are handled correctly, which is refuted by `flow_resume_refuted`. -/
theorem flow_fail_partial (R : Nat → Nat → Prop) (hR : ∀ c c', R c c' → c ≤ c') (co : Bool) (h : Option Nat) (s : Stmt) (c c' : Nat)
    (σ σ' : Store) (t : List Ev) (o : Out) (hx : Exec R co h s c σ t o c' σ') (i : Nat) (p : Pol) (e : Nat) (ran : Bool)
    (hg : .gone i p (.thrown e) ran ∈ t) : ran = true ↔ p ≠ .onSuccess := by
  have := (exec_ge R hR hx).1 _ hg rfl
  cases p <;> simp_all [agrees, shouldRun, failed]

/-- **C85 (part).** A coroutine that is never resumed with more exceptions in flight than when it was suspended handles successful scopes
correctly: their success guards run and their fail guards do not, also when it is destroyed while suspended. Missing: that its failing scopes
are handled correctly, which is refuted by `flow_resume_refuted`. -/
theorem flow_success_partial (R : Nat → Nat → Prop) (hR : ∀ c c', R c c' → c' ≤ c) (co : Bool) (h : Option Nat) (s : Stmt) (c c' : Nat)
    (σ σ' : Store) (t : List Ev) (o : Out) (hx : Exec R co h s c σ t o c' σ') (i : Nat) (p : Pol) (left : Out) (ran : Bool)
    (hg : .gone i p left ran ∈ t) (hl : ∀ e, left ≠ .thrown e) : ran = true ↔ p ≠ .onFail := by
  have hf : failed left = false := by cases left <;> simp_all [failed]
  have := (exec_le R hR hx).1 _ hg (by simpa [failing] using hf)
  cases p <;> simp_all [agrees, shouldRun]

/-- A coroutine resumed with one more exception in flight whose scope then fails: its fail guard runs, its success guard does not. -/
example : ∃ c' t, Exec (fun c c' => c ≤ c') true none
    (.guard .onFail 1 (fun _ => none) .skip (.guard .onSuccess 2 (fun _ => none) .skip (.seq .suspend (.throw (fun _ => 5))))) 0 (fun _ => 0) t
      (.thrown 5) c' (fun _ => 0) ∧ .gone 1 .onFail (.thrown 5) true ∈ t ∧ .gone 2 .onSuccess (.thrown 5) false ∈ t :=
  ⟨2, _, .guardRun rfl (.guardQuiet rfl (.seqNormal (.resume (c₁ := 1) (by decide)) .throw) (by decide) rfl) (by decide) rfl .skip rfl,
    by decide, by decide⟩

/-- A coroutine started during unwinding and destroyed while suspended, outside of it: its success guard runs, its fail guard does not. -/
example : ∃ c' t, Exec (fun c c' => c' ≤ c) true none
    (.guard .onFail 1 (fun _ => none) .skip (.guard .onSuccess 2 (fun _ => none) .skip (.seq .suspend (.throw (fun _ => 5))))) 1 (fun _ => 0) t
      .abandoned c' (fun _ => 0) ∧ .gone 1 .onFail .abandoned false ∈ t ∧ .gone 2 .onSuccess .abandoned true ∈ t :=
  ⟨0, _, .guardQuiet rfl (.guardRun rfl (.seqLeft (.abandon (c₁ := 0) (by decide)) (by decide)) (by decide) rfl .skip rfl) (by decide) rfl,
    by decide, by decide⟩

/-! ### Order -/

/-- Replay the constructions and destructions of guards against a stack: a guard that is destroyed must be the last one constructed among
those that exist. -/
def replay : List Nat → List Ev → Option (List Nat)
  | st, [] => some st
  | st, .made i :: t => replay (i :: st) t
  | j :: st, .gone i _ _ _ :: t => if i = j then replay st t else none
  | [], .gone _ _ _ _ :: _ => none
  | st, .emit _ :: t => replay st t
  | st, .suspended :: t => replay st t

theorem replay_append : ∀ (t u : List Ev) (st : List Nat), replay st (t ++ u) = (replay st t).bind fun st' => replay st' u
  | [], u, st => rfl
  | .made i :: t, u, st => by simp only [List.cons_append, replay]; exact replay_append t u _
  | .gone i p o r :: t, u, [] => rfl
  | .gone i p o r :: t, u, j :: st => by
    simp only [List.cons_append, replay]
    split
    · exact replay_append t u st
    · rfl
  | .emit _ :: t, u, st => by simp only [List.cons_append, replay]; exact replay_append t u _
  | .suspended :: t, u, st => by simp only [List.cons_append, replay]; exact replay_append t u _

theorem afterDtor_terminate {p : Pol} {o fo o' : Out} (ha : afterDtor p o fo = some o') (hf : fo = .terminate) : o' = .terminate := by
  subst hf; simp [afterDtor] at ha; exact ha.symm

theorem exec_replay (R : Nat → Nat → Prop) {co h s c σ t o c' σ'} (hx : Exec R co h s c σ t o c' σ') :
    ∀ st, (o ≠ .terminate → replay st t = some st) ∧ (∃ st', replay st t = some (st' ++ st)) := by
  induction hx with
  | skip => exact fun st => ⟨fun _ => rfl, [], rfl⟩
  | emit => exact fun st => ⟨fun _ => rfl, [], rfl⟩
  | assign => exact fun st => ⟨fun _ => rfl, [], rfl⟩
  | throw => exact fun st => ⟨fun _ => rfl, [], rfl⟩
  | rethrow => exact fun st => ⟨fun _ => rfl, [], rfl⟩
  | rethrowNone => exact fun st => ⟨fun _ => rfl, [], rfl⟩
  | ret => exact fun st => ⟨fun _ => rfl, [], rfl⟩
  | brk => exact fun st => ⟨fun _ => rfl, [], rfl⟩
  | cont => exact fun st => ⟨fun _ => rfl, [], rfl⟩
  | seqNormal _ _ ih1 ih2 => intro st; rw [replay_append, (ih1 st).1 (by simp)]; exact ih2 st
  | seqLeft _ hn ih => exact ih
  | iteTrue hb _ ih => exact ih
  | iteFalse hb _ ih => exact ih
  | loopEnd hb => exact fun st => ⟨fun _ => rfl, [], rfl⟩
  | loopNext hb _ ho _ ih1 ih2 =>
    intro st; rw [replay_append, (ih1 st).1 (by rcases ho with rfl | rfl <;> simp)]; exact ih2 st
  | loopBreak hb _ ih => exact fun st => ⟨fun _ => (ih st).1 (by simp), (ih st).2⟩
  | loopLeft hb _ a1 a2 a3 ih => exact ih
  | tryPass _ ho ih => exact ih
  | tryCatch _ hf _ ih1 ih2 => intro st; rw [replay_append, (ih1 st).1 (by simp)]; exact ih2 st
  | callReturn _ ih => exact fun st => ⟨fun _ => (ih st).1 (by simp), (ih st).2⟩
  | callEnd _ ih => exact ih
  | callThrow _ ih => exact ih
  | callTerminate _ ih => exact ih
  | guardInit hi => exact fun st => ⟨fun _ => rfl, [], rfl⟩
  | @guardTerminate _ _ _ _ _ _ _ _ _ _ i _ hi _ ih =>
    intro st
    refine ⟨by simp, ?_⟩
    obtain ⟨st', h'⟩ := (ih (i :: st)).2
    refine ⟨st' ++ [i], ?_⟩
    simp only [replay]; rw [h', List.append_assoc]; rfl
  | guardQuiet hi _ ht hr ih =>
    intro st
    refine (fun this => ⟨fun _ => this, [], this⟩ : replay st _ = some st → _) ?_
    simp only [replay]; rw [replay_append, (ih _).1 ht]; simp [replay]
  | guardRun hi _ ht hr _ ha ih1 ih2 =>
    intro st
    simp only [replay]
    rw [replay_append, (ih1 _).1 ht]
    simp only [Option.bind_some, replay, if_true]
    exact ⟨fun ho => (ih2 st).1 (fun hf => ho (afterDtor_terminate ha hf)), (ih2 st).2⟩
  | resume hr => exact fun st => ⟨fun _ => rfl, [], rfl⟩
  | abandon hr => exact fun st => ⟨fun _ => rfl, [], rfl⟩

/-- **C85.** However a program runs — loops, early exits, exceptions, suspension, on whatever threads — every guard it constructs is destroyed
exactly once, in the reverse order of construction; if the program is terminated, the guards that exist at that moment are not destroyed. -/
theorem flow_lifo (R : Nat → Nat → Prop) (co : Bool) (h : Option Nat) (s : Stmt) (c c' : Nat) (σ σ' : Store) (t : List Ev) (o : Out)
    (hx : Exec R co h s c σ t o c' σ') :
    (o ≠ .terminate → replay [] t = some []) ∧ ∃ alive, replay [] t = some alive := by
  obtain ⟨h1, st', h2⟩ := exec_replay R hx []
  exact ⟨h1, _, h2⟩

/-- A fail guard that throws while the scope is left by an exception: the program is terminated, and the outer guard is never destroyed. -/
example : ∃ c' t, Exec (fun _ _ => False) false none
    (.guard .always 1 (fun _ => none) .skip (.guard .onFail 2 (fun _ => none) (.throw (fun _ => 6)) (.throw (fun _ => 5)))) 0 (fun _ => 0) t
      .terminate c' (fun _ => 0) ∧ replay [] t = some [1] :=
  ⟨2, _, .guardTerminate rfl (.guardRun rfl .throw (by decide) rfl .throw rfl), rfl⟩

/-- **C85.** If the function of a guard cannot be copied or moved into the guard, the rest of the block is not executed and the function
is not invoked. -/
theorem flow_init_throws (R : Nat → Nat → Prop) (co : Bool) (h : Option Nat) (p : Pol) (i : Nat) (init : Store → Option Nat) (f s : Stmt)
    (c c' : Nat) (σ σ' : Store) (t : List Ev) (o : Out) (e : Nat) (hi : init σ = some e)
    (hx : Exec R co h (.guard p i init f s) c σ t o c' σ') : t = [] ∧ o = .thrown e ∧ σ' = σ := by
  cases hx with
  | guardInit h => rw [hi] at h; cases h; exact ⟨rfl, rfl, rfl⟩
  | guardTerminate h _ => rw [hi] at h; cases h
  | guardQuiet h _ _ _ => rw [hi] at h; cases h
  | guardRun h _ _ _ _ _ => rw [hi] at h; cases h

example : Exec (fun _ _ => False) false none (.guard .always 1 (fun σ => some (σ 3)) (.emit (fun _ => 1)) (.emit (fun _ => 2))) 4 (fun x => x)
    [] (.thrown 3) 5 (fun x => x) := .guardInit rfl

/-! ### The macros -/

theorem guardName_inj (n m : Nat) : guardName n = guardName m ↔ n = m := by
  constructor
  · intro h
    have h : "_scope_guard" ++ toString n = "_scope_guard" ++ toString m := h
    have h := congrArg String.toList h
    simp only [String.toList_append, List.append_cancel_left_eq] at h
    exact Nat.repr_inj.1 (String.toList_inj.1 h)
  · rintro rfl; rfl

/-- **C85.** A block with any number of `DICE_DEFER*` compiles iff no two of them are on the same line. -/
theorem flow_macro_names (lines : List Nat) : blockCompiles lines = true ↔ lines.Nodup := by
  unfold blockCompiles
  rw [decide_eq_true_iff]
  induction lines with
  | nil => simp
  | cons n ns ih =>
    simp only [List.map_cons, List.nodup_cons, ih, List.mem_map, not_exists, not_and]
    constructor
    · rintro ⟨h, hn⟩; exact ⟨fun hm => h n hm rfl, hn⟩
    · rintro ⟨h, hn⟩; exact ⟨fun m hm he => h ((guardName_inj m n).1 he ▸ hm), hn⟩

example : blockCompiles [7, 12, 70, 1] = true ∧ guardName 12 = "_scope_guard12" :=
  ⟨(flow_macro_names _).2 (by decide), by decide +kernel⟩

/-- **C85 (refuted).** Two `DICE_DEFER*` cannot be used in one block without regard to where they are: on one line (for example in the
expansion of another macro) they declare the same variable. -/
theorem flow_macro_same_line_refuted : ∃ n, blockCompiles [n, n] = false :=
  ⟨3, by rw [Bool.eq_false_iff]; exact fun h => absurd ((flow_macro_names _).1 h) (by decide)⟩

/-- **C85.** Each form has its policy, and its body may let an exception out exactly if the destructor of its guard may. -/
theorem flow_macro_forms (f : Form) :
    (f.noexcept = true ↔ f ≠ .toSuccess) ∧ f.noexcept = dtorNoexcept f.pol ∧
    (∀ o, shouldRun f.pol o = true ↔ f = .defer ∨ (f = .toFail ∧ ∃ e, o = .thrown e) ∨ (f = .toSuccess ∧ ∀ e, o ≠ .thrown e)) := by
  cases f <;> refine ⟨by simp [Form.noexcept], by rfl, fun o => ?_⟩ <;> cases o <;> simp [Form.pol, shouldRun, failed]

end Verif.Defer.Flow
