import Verif.Sandbox.Model

/-! Property C53 of sandbox.hpp. -/
namespace Verif.Sandbox

/-- Before the child terminates: everything except its termination. -/
def NotYet (es : List Event) : Prop := ∀ e ∈ es, ∀ f, e ≠ .terminated f

/-- **C53.** The parent waits for the end of its child, however often it is interrupted and whatever else happens to the child. -/
theorem waits {b : Bool} : ∀ {es : List Event}, NotYet es → (wait b es = .waiting ∧ ∀ es', wait b (es ++ es') = wait b es')
  | [], _ => ⟨rfl, fun _ => rfl⟩
  | e :: es, h => by
    have ih := waits (b := b) (es := es) (fun e he => h e (by simp [he]))
    cases e with
    | interrupt => exact ih
    | stopped => exact ih
    | continued => exact ih
    | terminated f => exact absurd rfl (h (.terminated f) (by simp) f)

example : NotYet [.interrupt, .stopped, .continued] ∧ wait true [.interrupt, .stopped, .continued] = .waiting := by
  refine ⟨?_, by decide⟩
  intro e he
  simp at he
  rcases he with rfl | rfl | rfl <;> simp

/-- **C53.** The status of a process that exited: success iff the low byte of the code is 0. -/
theorem report_exited (code : Int) :
    report (status (.exited code)) = .result (if code % 256 = 0 then ExitSuccess else ExitFailure) := by
  have h1 : wifexited (status (.exited code)) = true := by
    unfold wifexited; exact decide_eq_true (by simp only [status]; omega)
  have h2 : wexitstatus (status (.exited code)) = (code % 256).toNat := by
    simp only [wexitstatus, status]; omega
  unfold report
  rw [h1, h2]
  by_cases h : code % 256 = 0
  · simp [h]
  · have : ¬ (code % 256).toNat = 0 := by omega
    simp [h, this]

example : report (status (.exited 3)) = .result ExitFailure ∧ report (status (.exited 256)) = .result ExitSuccess := by decide

/-- **C53.** The status of a process killed by a signal: the signal. -/
theorem report_killed {sig : Nat} (h1 : 1 ≤ sig) (h2 : sig ≤ 126) (core : Bool) :
    report (status (.killed sig core)) = .result sig := by
  have hm : (status (.killed sig core)) % 128 = sig := by
    simp only [status]; cases core <;> simp <;> omega
  have e1 : wifexited (status (.killed sig core)) = false := by
    simp only [wifexited, hm, decide_eq_false_iff_not]; omega
  have e2 : wifsignaled (status (.killed sig core)) = true := by
    unfold wifsignaled
    simp only [decide_eq_true_eq]
    have : ((status (.killed sig core) : Nat) : Int) % 128 = sig := by omega
    rw [this]
    split <;> omega
  unfold report
  rw [e1, e2]
  simp only [wtermsig, hm]

example : report (status (.killed 9 false)) = .result 9 ∧ report (status (.killed 11 true)) = .result 11 := by decide

/-- **C53.** What is reported for every status word there may be: by the low seven bits exited (0), stopped (127), or killed. -/
theorem report_status (w : Nat) :
    report w = if w % 128 = 0 then .result (if w / 256 % 256 = 0 then ExitSuccess else ExitFailure)
      else if w % 128 = 127 then .threwRuntimeError else .result (w % 128) := by
  have hs : wifsignaled w = decide (w % 128 ≠ 0 ∧ w % 128 ≠ 127) := by
    rw [Bool.eq_iff_iff]
    unfold wifsignaled
    simp only [decide_eq_true_eq]
    split <;> omega
  unfold report
  rw [hs]
  by_cases h0 : w % 128 = 0
  · by_cases h1 : w / 256 % 256 = 0 <;> simp [wifexited, wexitstatus, h0, h1]
  · by_cases h1 : w % 128 = 127 <;> simp [wifexited, wtermsig, h0, h1]

example : report 0x137f = .threwRuntimeError ∧ report 0x8b = .result 11 := by decide

/-- The child runs with all signals unblocked and at their default disposition. -/
theorem resetLoop_spec (p : Process) (hk : p.dispositions 9 = .default ∧ p.dispositions 19 = .default) (i n : Nat) :
    (∀ j, i ≤ j → j < i + n → (resetLoop p i n).dispositions j = .default) ∧
    (∀ j, ¬(i ≤ j ∧ j < i + n) → (resetLoop p i n).dispositions j = p.dispositions j) ∧
    (resetLoop p i n).blocked = p.blocked ∧ (resetLoop p i n).terminateHandler = p.terminateHandler := by
  induction n generalizing p i with
  | zero => exact ⟨fun j h1 h2 => by omega, fun _ _ => rfl, rfl, rfl⟩
  | succ n ih =>
    have hd : ∀ j, (resetAction p i).dispositions j = if j = i then .default else p.dispositions j := by
      intro j
      unfold resetAction
      by_cases h : i = 9 ∨ i = 19
      · rw [if_pos h]
        by_cases hj : j = i
        · rw [if_pos hj, hj]
          rcases h with rfl | rfl
          · exact hk.1
          · exact hk.2
        · rw [if_neg hj]
      · rw [if_neg h]
    have hb : (resetAction p i).blocked = p.blocked ∧ (resetAction p i).terminateHandler = p.terminateHandler := by
      unfold resetAction; split <;> exact ⟨rfl, rfl⟩
    obtain ⟨h1, h2, h3, h4⟩ := ih (resetAction p i) (by rw [hd, hd]; constructor <;> split <;> simp [hk]) (i + 1)
    rw [resetLoop]
    refine ⟨?_, ?_, h3.trans hb.1, h4.trans hb.2⟩
    · intro j hj1 hj2
      by_cases hj : j = i
      · rw [h2 j (by omega), hd, if_pos hj]
      · exact h1 j (by omega) (by omega)
    · intro j hj
      rw [h2 j (by omega), hd, if_neg (by omega)]

/-- **C53.** Whatever handlers, ignored and blocked signals the parent has: when the function is called, no signal is blocked and all signals
have their default disposition. -/
theorem child_signals (p : Process) (hk : p.dispositions 9 = .default ∧ p.dispositions 19 = .default) {s : Nat} (h1 : 1 ≤ s)
    (h2 : s < NSIG) :
    (clearAllSignalHandlers p).blocked s = false ∧ (clearAllSignalHandlers p).dispositions s = .default ∧
    (clearAllSignalHandlers p).terminateHandler = p.terminateHandler := by
  obtain ⟨a1, _, a3, a4⟩ := resetLoop_spec { p with blocked := fun _ => false } hk 1 (NSIG - 1)
  refine ⟨?_, ?_, ?_⟩
  · rw [clearAllSignalHandlers, a3]
  · rw [clearAllSignalHandlers]; exact a1 s h1 (by simp only [NSIG] at *; omega)
  · rw [clearAllSignalHandlers, a4]

example : (clearAllSignalHandlers ⟨fun s => if s = 13 then .ignore else .default, fun s => s == 2, none⟩).dispositions 13 = .default :=
  (child_signals _ ⟨rfl, rfl⟩ (by decide) (by decide)).2.1

/-- What the caller should be told about a function. -/
def expected : Result → SubProcessResult
  | .returnedVoid => ExitSuccess
  | .returnedInt c => if c = 0 then ExitSuccess else ExitFailure
  | .threw => Aborted
  | .killed s _ => s
  | .exited c => if c = 0 then ExitSuccess else ExitFailure

/-- What the kernel guarantees and the interface needs: signals are in range, exit codes fit into the byte the kernel keeps. -/
def Ordinary : Result → Prop
  | .returnedInt c => 0 ≤ c ∧ c < 256
  | .exited c => 0 ≤ c ∧ c < 256
  | .killed s _ => 1 ≤ s ∧ s < NSIG
  | _ => True

/-- **C53 (partial).** The result is what happened to the child: success iff it returned (0 or void), failure iff it returned another code,
the signal iff it was killed, an abort iff it threw; after any number of interruptions, stops and continuations. Missing for the full claim:
exit codes that do not fit in a byte, parents with a terminate handler, parents ignoring `SIGCHLD`, and `fork` failing; see the
refutations below. -/
theorem sandbox_partial {parent : Process} {func : Process → Result} {before : List Event} (hb : NotYet before)
    (hterm : parent.terminateHandler = none) (hchld : parent.dispositions 17 ≠ .ignore)
    (hk : parent.dispositions 9 = .default ∧ parent.dispositions 19 = .default)
    (ho : Ordinary (func (clearAllSignalHandlers parent))) :
    sandbox true parent func before = .result (expected (func (clearAllSignalHandlers parent))) := by
  have ht : (clearAllSignalHandlers parent).terminateHandler = none := by
    rw [(child_signals parent hk (s := 1) (by decide) (by decide)).2.2, hterm]
  unfold sandbox
  simp only
  rw [(waits hb).2, decide_eq_false hchld]
  simp only [wait, child]
  generalize hr : func (clearAllSignalHandlers parent) = r at ho
  cases r with
  | returnedVoid => simp only [invokeLikeMain, report_exited, expected]; rfl
  | returnedInt c =>
    simp only [Ordinary] at ho
    simp only [invokeLikeMain, report_exited, expected]
    have : c % 256 = c := by omega
    rw [this]
  | threw =>
    simp only [invokeLikeMain, terminate, ht]
    exact report_killed (by decide) (by decide) true
  | killed s core =>
    simp only [Ordinary, NSIG] at ho
    exact report_killed ho.1 (by omega) core
  | exited c =>
    simp only [Ordinary] at ho
    simp only [invokeLikeMain, report_exited, expected]
    have : c % 256 = c := by omega
    rw [this]

/-- A parent with a handler for SIGABRT, like a test runner. -/
def testRunner : Process := ⟨fun s => if s = 6 then .handler else .default, fun _ => false, none⟩

example : NotYet [.interrupt, .stopped, .interrupt, .continued] ∧ testRunner.terminateHandler = none ∧ testRunner.dispositions 17 ≠ .ignore ∧
    Ordinary (.killed SIGSEGV true) ∧
    sandbox true testRunner (fun _ => .killed SIGSEGV true) [.interrupt, .stopped, .interrupt, .continued] = .result 11 := by
  refine ⟨?_, rfl, by decide, by simp [Ordinary, SIGSEGV, NSIG], by decide⟩
  intro e he f
  simp at he
  rcases he with rfl | rfl | rfl | rfl <;> simp

/-- **C53, refuted** for codes that do not fit in a byte: returning 256 is reported as success. -/
theorem exit_code_refuted : sandbox true testRunner (fun _ => .returnedInt 256) [] = .result ExitSuccess := by decide

/-- **C53.** In general the low byte of the code decides. -/
theorem exit_code (parent : Process) (hchld : parent.dispositions 17 ≠ .ignore) (c : Int) :
    sandbox true parent (fun _ => .returnedInt c) [] = .result (if c % 256 = 0 then ExitSuccess else ExitFailure) := by
  unfold sandbox
  simp only [List.nil_append, wait, child, invokeLikeMain, decide_eq_false hchld]
  exact report_exited c

example : sandbox true ⟨fun _ => .default, fun _ => false, none⟩ (fun _ => .returnedInt (-1)) [] = .result ExitFailure := by decide

/-- **C53, refuted** if the parent has installed a terminate handler: the child inherits it, and exceptions are reported as what it does. -/
theorem terminate_handler_refuted :
    sandbox true { testRunner with terminateHandler := some (.exited 0) } (fun _ => .threw) [] = .result ExitSuccess := by decide

/-- **C53, refuted** if the parent ignores `SIGCHLD`: the call throws whatever the child does, even though it ran. -/
theorem sigchld_ignored_refuted {parent : Process} (h : parent.dispositions 17 = .ignore) (func : Process → Result) {before : List Event}
    (hb : NotYet before) : sandbox true parent func before = .threwSystemError := by
  unfold sandbox
  simp only
  rw [(waits hb).2, decide_eq_true h]
  rfl

example : sandbox true ⟨fun _ => .ignore, fun _ => false, none⟩ (fun _ => .returnedVoid) [.interrupt] = .threwSystemError := by decide

/-- **C53.** Results for exiting are different from those for all signals, so the caller can tell them apart; the "weird" branch is not
reached. -/
theorem results_distinct {f : Fate} (hf : ∀ s c, f = .killed s c → 1 ≤ s ∧ s < NSIG) :
    (∃ r, report (status f) = .result r ∧ ((r = ExitSuccess ∨ r = ExitFailure) ↔ ∃ c, f = .exited c)) := by
  cases f with
  | exited c =>
    refine ⟨_, report_exited c, ?_⟩
    constructor
    · intro _; exact ⟨c, rfl⟩
    · intro _; split <;> simp
  | killed s core =>
    obtain ⟨h1, h2⟩ := hf s core rfl
    refine ⟨_, report_killed h1 (by simp only [NSIG] at h2; omega) core, ?_⟩
    constructor
    · rintro (h | h)
      · have h : (s : Int) = -1 := h
        omega
      · have h : (s : Int) = -2 := h
        omega
    · rintro ⟨c, h⟩; simp at h

example : report (status (.killed 6 true)) = .result 6 ∧ (6 : Int) ≠ ExitFailure ∧ (6 : Int) ≠ ExitSuccess := by decide

end Verif.Sandbox
