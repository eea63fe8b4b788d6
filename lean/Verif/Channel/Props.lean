import Verif.Channel.Progress

/-!
Properties of `dice::template_library::channel` (C01-C06). All are about every execution (`Reachable`): any number of
threads, any program of calls, any schedule, any spurious wakeups, any stale reads of the closed flag without the mutex, and, where not excluded by a hypothesis, any
exceptions of the element type.
-/
namespace Verif.Channel

variable {α : Type}

/-! ### A concrete execution, used to show that the hypotheses below are met -/

/-- Let thread `t` take `k` steps. -/
def steps (t k : Nat) : List (Act Nat) := List.replicate k (.step t none)

/-- Two threads, capacity 1: thread 1 pops and falls asleep, thread 0 pushes 5 and wakes it, thread 1 pops again and
falls asleep, thread 0 closes and wakes it, thread 1 gets nothing, thread 0 pushes 6 with a stale first look at the
flag. -/
def demo : List (Act Nat) :=
  [.call 1 .pop] ++ steps 1 2 ++ [.call 0 (.push 5)] ++ steps 0 5 ++ [.step 0 (some 1), .step 0 none] ++ steps 1 7 ++
  [.call 1 .pop] ++ steps 1 2 ++ [.call 0 .close] ++ steps 0 6 ++ steps 1 5 ++
  [.call 0 (.push 6), .stale 0] ++ steps 0 5 ++ [.call 0 .isClosed] ++ steps 0 2

/-- The state at the end of `demo`. -/
def demoEnd : St Nat := (run { cap := 1 } (init Nat 2) demo).get (by decide)

theorem demo_reach : Reachable { cap := 1 } 2 demoEnd := ⟨demo, (Option.some_get _).symm⟩

example : (inserted demoEnd.hist, removed demoEnd.hist, demoEnd.q, demoEnd.closed, demoEnd.pcs) =
    ([5], [5], [], true, [.idle, .idle]) := by decide

theorem demo_hist : demoEnd.hist =
    [.call 1 .pop, .call 0 (.push 5), .lin 0 (.push 5) (.bool true), .ret 0 (.bool true), .lin 1 .pop (.val (some 5)),
     .ret 1 (.val (some 5)), .call 1 .pop, .call 0 .close, .lin 0 .close .unit, .ret 0 .unit,
     .lin 1 .pop (.val none), .ret 1 (.val none), .call 0 (.push 6), .lin 0 (.push 6) (.bool false),
     .ret 0 (.bool false), .call 0 .isClosed, .lin 0 .isClosed (.bool true), .ret 0 (.bool true)] := by decide

/-- The schedule of the witness: capacity 1. Thread 0 pushes 0. Threads 1 and 2 push and fall asleep on the full
channel. Thread 3 pops and its notification wakes thread 1, whose element constructor throws. Thread 3 pops again
(empty, falls asleep). Thread 2 is asleep although there is room. -/
def lostProducer : List (Act Nat) :=
  [.call 0 (.push 0)] ++ steps 0 7 ++
  [.call 1 (.push 1)] ++ steps 1 3 ++ [.call 2 (.push 2)] ++ steps 2 3 ++
  [.call 3 .pop] ++ steps 3 4 ++ [.step 3 (some 1)] ++ steps 3 2 ++
  steps 1 2 ++ [.throw 1] ++ steps 1 2 ++ [.call 3 .pop] ++ steps 3 2

/-- Three threads inside `lostProducer` before anything is thrown: a full channel and two sleeping pushes. -/
def full : St Nat := (run { cap := 1 } (init Nat 4) (lostProducer.take 16)).get (by decide)

theorem full_reach : Reachable { cap := 1 } 4 full := ⟨lostProducer.take 16, (Option.some_get _).symm⟩

theorem quiescent_of_pcs {cfg : Cfg} {s : St α} (h : ∀ pc ∈ s.pcs, pc = .idle ∨ pc = .pSleep ∨ ∃ v, pc = .eSleep v) :
    Quiescent cfg s := by
  intro t w
  simp only [next]
  cases hp : s.pcs[t]? with
  | none => rfl
  | some pc => rcases h _ (List.mem_of_getElem? hp) with rfl | rfl | ⟨v, rfl⟩ <;> rfl

/-- Thread 0 asleep in a pop on an empty channel whose elements may throw when constructed. -/
def emptyWait : St Nat :=
  (run { cap := 2, ctorThrow := true } (init Nat 2) ([.call 0 .pop] ++ steps 0 2)).get (by decide)

theorem emptyWait_reach : Reachable { cap := 2, ctorThrow := true } 2 emptyWait := ⟨_, (Option.some_get _).symm⟩

theorem emptyWait_quiescent : Quiescent { cap := 2, ctorThrow := true } emptyWait := by
  refine quiescent_of_pcs ?_
  have : emptyWait.pcs = [.pSleep, .idle] := by decide
  rw [this]; simp

theorem full_quiescent : Quiescent { cap := 1 } full := by
  refine quiescent_of_pcs ?_
  have : full.pcs = [.idle, .eSleep 1, .eSleep 2, .idle] := by decide
  rw [this]; simp

theorem demo_quiescent : Quiescent { cap := 1 } demoEnd := by
  refine quiescent_of_pcs ?_
  have : demoEnd.pcs = [.idle, .idle] := by decide
  rw [this]; simp

/-! ### C01: FIFO, exactly once -/

/-- C01. At every instant of every execution, the values inserted so far, in order of insertion, are the values removed
so far, in order of removal, followed by the values still in the channel. Nothing is lost, duplicated, invented or
reordered. -/
theorem channel_fifo {cfg : Cfg} {n : Nat} {s : St α} (h : Reachable cfg n s) :
    inserted s.hist = removed s.hist ++ s.q :=
  (explains_reach h).fifo

example : inserted demoEnd.hist = removed demoEnd.hist ++ demoEnd.q := channel_fifo demo_reach

/-- C01, in terms of calls only: the removed values are a prefix of the inserted ones. -/
theorem channel_removed_prefix {cfg : Cfg} {n : Nat} {s : St α} (h : Reachable cfg n s) :
    removed s.hist <+: inserted s.hist := ⟨s.q, (channel_fifo h).symm⟩

example : removed demoEnd.hist <+: inserted demoEnd.hist := channel_removed_prefix demo_reach

/-! ### C02: capacity -/

/-- C02. At most `cap` values are ever in the channel: values inserted so far exceed values removed so far by at most
`cap`. -/
theorem channel_capacity {cfg : Cfg} {n : Nat} {s : St α} (h : Reachable cfg n s) :
    s.q.length ≤ cfg.cap ∧ (inserted s.hist).length ≤ (removed s.hist).length + cfg.cap := by
  have h1 := (explains_reach h).bound
  have h2 := channel_fifo h
  dsimp only at h1
  refine ⟨h1, ?_⟩
  rw [h2, List.length_append]; omega

/-- A full channel of capacity 1. -/
example : full.q = [0] ∧ full.q.length ≤ 1 := ⟨by decide, (channel_capacity full_reach).1⟩

/-! ### C06 and C04: every call takes effect atomically and returns what it did -/

/-- C06. Linearizability: the instants at which the calls take effect, in the order in which they happen, form a run of
the atomic bounded queue; every call takes effect exactly once, between its invocation and its return, and returns the
result of that effect. (With an element type whose move constructor throws, a pop may take its value out and then
throw.) -/
theorem channel_linearizable {cfg : Cfg} {n : Nat} {s : St α} (h : Reachable cfg n s) :
    (∃ q c, Explains cfg.cap s.hist (q, c)) ∧ ∀ t < n, ∃ p, ThreadRun cfg.moveThrow t s.hist p := by
  refine ⟨⟨_, _, explains_reach h⟩, ?_⟩
  intro t ht
  have hlt : t < s.pcs.length := by rw [reachable_length h]; exact ht
  obtain ⟨p, _, hp⟩ := runInv_reach h t s.pcs[t] (List.getElem?_eq_getElem hlt)
  exact ⟨p, hp⟩

example : ∃ q c, Explains 1 demoEnd.hist (q, c) := (channel_linearizable demo_reach).1

/-- Every call that returns or ends with an exception took effect at exactly one point in between, on the state left by everything
before, with the result it returns; except that a pop can end with an exception although it took effect by removing a value, if moving
elements throws. -/
theorem channel_call_outcome {cfg : Cfg} {n : Nat} {s : St α} (h : Reachable cfg n s)
    {t : Nat} (ht : t < n) {op : Op α} {r : Res α} {h1 h2 h3 : List (Ev α)}
    (hh : s.hist = h1 ++ .call t op :: h2 ++ .ret t r :: h3)
    (hw : ∀ e ∈ h2, e.tid = t → ∃ op r, e = .lin t op r) :
    ∃ g1 g2 st st' r', (r = r' ∨ (cfg.moveThrow = true ∧ r = .threw ∧ (op = .pop ∨ op = .tryPop) ∧ ∃ x, r' = .val (some x))) ∧
      h2 = g1 ++ .lin t op r' :: g2 ∧ (∀ e ∈ g1 ++ g2, e.tid ≠ t) ∧
      Explains cfg.cap (h1 ++ .call t op :: g1) st ∧ Atomic cfg.cap st op r' st' ∧
      Explains cfg.cap (h1 ++ .call t op :: g1 ++ [.lin t op r']) st' := by
  obtain ⟨⟨q, c, he⟩, hr⟩ := channel_linearizable h
  obtain ⟨p, hp⟩ := hr t ht
  rw [hh] at hp he
  have hp2 : ThreadRun cfg.moveThrow t (((h1 ++ .call t op :: h2) ++ [.ret t r]) ++ h3) p := by simpa using hp
  obtain ⟨p2, hp2⟩ := hp2.prefix
  rcases hp2.snoc_inv with ⟨hne, _⟩ | ⟨_, h', _⟩ | ⟨_, _, h', _⟩ | ⟨op', r1, r', h', _, hrun, hres⟩
  · exact absurd rfl hne
  · cases h'
  · cases h'
  · cases h'
    rcases hrun.window hw with ⟨hcon, _⟩ | ⟨g1, g2, r2, rfl, hlin, hno⟩
    · cases hcon
    · cases hlin
      have he2 : Explains cfg.cap ((h1 ++ .call t op :: g1 ++ [.lin t op r']) ++ (g2 ++ .ret t r :: h3)) (q, c) := by
        simpa using he
      obtain ⟨st', he3⟩ := he2.prefix
      obtain ⟨st, he4, hx⟩ := he3.snoc_inv
      rcases hx with ⟨hx, _⟩ | ⟨_, _, _, hx, ha⟩
      · exact absurd rfl (hx _ _ _)
      · cases hx
        refine ⟨g1, g2, st, st', r', ?_, rfl, hno, he4, ha, he3⟩
        rcases hres with rfl | ⟨hl, rfl, x, rfl⟩
        · exact .inl rfl
        · exact .inr ⟨hl, rfl, by cases ha <;> simp, x, rfl⟩

example := channel_call_outcome (t := 0) (op := .push 5) (r := .bool true) (h1 := [.call 1 .pop]) (h2 := [.lin 0 (.push 5) (.bool true)])
  (h3 := demoEnd.hist.drop 4) demo_reach (by decide) (by decide) (by intro e he _; simp at he; exact ⟨_, _, he⟩)

/-- C04. A completed call, spelled out: if thread `t` called `op` and later returned `r`, with no other call or return
of `t` in between, then at exactly one point in between the call took effect on the queue with result `r`, in the
queue state left by everything that took effect before. Calls that end with an exception are included if moving elements does not
throw. -/
theorem channel_call_effect {cfg : Cfg} {n : Nat} {s : St α} (h : Reachable cfg n s)
    {t : Nat} (ht : t < n) {op : Op α} {r : Res α} {h1 h2 h3 : List (Ev α)}
    (hh : s.hist = h1 ++ .call t op :: h2 ++ .ret t r :: h3)
    (hw : ∀ e ∈ h2, e.tid = t → ∃ op r, e = .lin t op r) (hm : r ≠ .threw ∨ cfg.moveThrow = false) :
    ∃ g1 g2 st st', h2 = g1 ++ .lin t op r :: g2 ∧ (∀ e ∈ g1 ++ g2, e.tid ≠ t) ∧
      Explains cfg.cap (h1 ++ .call t op :: g1) st ∧ Atomic cfg.cap st op r st' ∧
      Explains cfg.cap (h1 ++ .call t op :: g1 ++ [.lin t op r]) st' := by
  obtain ⟨g1, g2, st, st', r', hr, rfl, hno, he, ha, he'⟩ := channel_call_outcome h ht hh hw
  rcases hr with rfl | ⟨hl, rfl, _⟩
  · exact ⟨g1, g2, st, st', rfl, hno, he, ha, he'⟩
  · rcases hm with hm | hm
    · exact absurd rfl hm
    · rw [hm] at hl; cases hl

/-- The push of 5, with the waiting pop around it. -/
example : ∃ g1 g2 st st', ([.lin 0 (.push 5) (.bool true)] : List (Ev Nat)) = g1 ++ .lin 0 (.push 5) (.bool true) :: g2 ∧
    (∀ e ∈ g1 ++ g2, e.tid ≠ 0) ∧ Explains 1 ([.call 1 .pop] ++ .call 0 (.push 5) :: g1) st ∧
    Atomic 1 st (.push 5) (.bool true) st' ∧
    Explains 1 ([.call 1 .pop] ++ .call 0 (.push 5) :: g1 ++ [.lin 0 (.push 5) (.bool true)]) st' :=
  channel_call_effect (h3 := demoEnd.hist.drop 4) demo_reach (by decide) (by decide) (by
    intro e he _; simp at he; exact ⟨_, _, he⟩) (.inl (by simp))

/-- C04/C06. If neither constructing nor moving elements throws, no operation throws. -/
theorem channel_nothrow {cfg : Cfg} (hc : cfg.ctorThrow = false) (hm : cfg.moveThrow = false) {n : Nat} {s : St α}
    (h : Reachable cfg n s) : ∀ t op, Ev.lin t op .threw ∉ s.hist := by
  refine reach_ind (P := fun s => ∀ t op, Ev.lin t op .threw ∉ s.hist) (by simp [init]) ?_ h
  intro s s' hi hs
  cases hs with
  | loc hp hl =>
    intro t op hmem
    rcases List.mem_append.mp hmem with hmem | hmem
    · exact hi t op hmem
    · clear hp
      generalize s.q = q, s.closed = c, s.owner = o at hl
      cases hl <;> simp_all
  | _ => exact hi

example : ∀ t op, Ev.lin t op .threw ∉ demoEnd.hist := channel_nothrow rfl rfl demo_reach

/-- C04. What each result means. A push returns true exactly when it appended its value to a queue with room; false
exactly when the channel was closed (or, for try_push, full); a pop returns a value exactly when that value was at the
front, nothing exactly when the queue was empty (and, for pop, closed). -/
theorem atomic_meaning {cap : Nat} {q q' : List α} {c c' : Bool} {r : Res α} (op : Op α)
    (h : Atomic cap (q, c) op r (q', c')) :
    (∀ v, op = .push v → (r = .bool true ↔ q' = q ++ [v]) ∧ (r = .bool true → q.length < cap ∧ c = false) ∧
      (r = .bool false → c = true ∧ q' = q)) ∧
    (∀ v, op = .tryPush v → (r = .bool true ↔ q' = q ++ [v]) ∧ (r = .bool true → q.length < cap ∧ c = false) ∧
      (r = .bool false → (c = true ∨ cap ≤ q.length) ∧ q' = q)) ∧
    (op = .pop → (∀ x, r = .val (some x) ↔ r ≠ .threw ∧ q = x :: q') ∧ (r = .val none ↔ q = [] ∧ c = true)) ∧
    (op = .tryPop → (∀ x, r = .val (some x) ↔ r ≠ .threw ∧ q = x :: q') ∧ (r = .val none ↔ q = [])) ∧
    (op = .isClosed → r = .bool c ∧ q' = q ∧ c' = c) ∧
    (op = .close → r = .unit ∧ q' = q ∧ c' = true) := by
  cases h <;> simp <;> grind

example : (Res.bool false : Res Nat) = .bool true ↔ [1] = [1] ++ [2] :=
  ((atomic_meaning (.tryPush 2) (Atomic.tryPushFull (cap := 1) (q := [1]) (by decide))).2.1 2 rfl).1

/-! ### C03: close -/

/-- C03. After `close` has taken effect, nothing is inserted any more and every push and try_push that takes effect
later returns false. -/
theorem channel_closed_rejects {cfg : Cfg} {n : Nat} {s : St α} (h : Reachable cfg n s) {t : Nat} {r : Res α}
    {h1 h2 : List (Ev α)} (hh : s.hist = h1 ++ .lin t .close r :: h2) :
    inserted h2 = [] ∧ (∀ t' v r', .lin t' (.push v) r' ∈ h2 → r' = .bool false) ∧
      (∀ t' v r', .lin t' (.tryPush v) r' ∈ h2 → r' = .bool false) := by
  have he := explains_reach h
  rw [hh] at he
  have he' : Explains cfg.cap ((h1 ++ [.lin t .close r]) ++ h2) (s.q, s.closed) := by simpa using he
  obtain ⟨⟨q, c⟩, hs⟩ := he'.prefix
  have hc : c = true := hs.closed_of_mem (t := t) (r := r) (by simp)
  subst hc
  obtain ⟨_, h1, h2, h3, _⟩ := hs.after_closed he'
  exact ⟨h1, h2, h3⟩

/-- The close in `demo`, with a rejected push after it. -/
example : inserted (demoEnd.hist.drop 9) = [] :=
  (channel_closed_rejects demo_reach (h1 := demoEnd.hist.take 8) (t := 0) (r := .unit) (by decide)).1

/-- C03, in real time: a push or try_push that is called after some `close` took effect (in particular after it
returned) returns false. -/
theorem channel_push_after_close {cfg : Cfg} {n : Nat} {s : St α}
    (h : Reachable cfg n s) {t t' : Nat} (ht : t < n) {v : α} {op : Op α} (hop : op = .push v ∨ op = .tryPush v)
    {r rc : Res α} {h1 h2 h3 : List (Ev α)} (hh : s.hist = h1 ++ .call t op :: h2 ++ .ret t r :: h3)
    (hw : ∀ e ∈ h2, e.tid = t → ∃ op r, e = .lin t op r) (hcl : .lin t' .close rc ∈ h1) : r = .bool false := by
  obtain ⟨g1, g2, st, st', r', hr, rfl, _, he, ha, _⟩ := channel_call_outcome h ht hh hw
  have hc := he.closed_of_mem (t := t') (r := rc) (by simp [hcl])
  rcases hop with rfl | rfl <;> cases ha <;> simp_all

/-- The push of 6 in `demo`, which overlooks the close at first. -/
example : (Res.bool false : Res Nat) = .bool false :=
  channel_push_after_close (t := 0) (t' := 0) (v := 6) (rc := .unit) demo_reach (by decide) (.inl rfl)
    (h1 := demoEnd.hist.take 12) (h2 := [.lin 0 (.push 6) (.bool false)]) (h3 := demoEnd.hist.drop 15) (by decide)
    (by intro e he _; simp at he; exact ⟨_, _, he⟩) (by decide)

/-- C03. `close` loses nothing and a `pop` reports the end only at the end: if a pop took effect with "nothing", then a
close had taken effect before, every value ever inserted had been removed before, and none is inserted or removed
later. -/
theorem channel_pop_end {cfg : Cfg} {n : Nat} {s : St α} (h : Reachable cfg n s) {t : Nat}
    {h1 h2 : List (Ev α)} (hh : s.hist = h1 ++ .lin t .pop (.val none) :: h2) :
    (∃ t', .lin t' .close .unit ∈ h1) ∧ inserted h1 = removed h1 ∧ inserted h2 = [] ∧ removed h2 = [] := by
  have he := explains_reach h
  rw [hh] at he
  have he' : Explains cfg.cap ((h1 ++ [.lin t .pop (.val none)]) ++ h2) (s.q, s.closed) := by simpa using he
  obtain ⟨st', hs⟩ := he'.prefix
  obtain ⟨st, hs1, hx⟩ := hs.snoc_inv
  rcases hx with ⟨hx, _⟩ | ⟨_, _, _, hx, ha⟩
  · exact absurd rfl (hx _ _ _)
  · cases hx
    cases ha
    obtain ⟨_, hi, _, _, d, hd⟩ := hs.after_closed he'
    have hq : s.q = [] := (List.append_eq_nil_iff.mp hd.symm).2
    have f1 := hs1.fifo
    have f2 := he'.fifo
    simp only [List.append_nil] at f1
    refine ⟨hs1.close_mem rfl, f1, hi, ?_⟩
    simp [inserted_append, removed_append, inserted, removed, hi, hq, f1] at f2
    exact f2

/-- The second pop of `demo`. -/
example : inserted (demoEnd.hist.take 10) = removed (demoEnd.hist.take 10) :=
  (channel_pop_end demo_reach (t := 1) (h2 := demoEnd.hist.drop 11) (by decide)).2.1

/-- C03. Once a close took effect, `closed()` reports true for ever, and before it reports false. -/
theorem channel_closed_monotone {cfg : Cfg} {n : Nat} {s : St α} (h : Reachable cfg n s) {t : Nat} {b : Bool}
    {h1 h2 : List (Ev α)} (hh : s.hist = h1 ++ .lin t .isClosed (.bool b) :: h2) :
    b = true ↔ ∃ t', .lin t' .close .unit ∈ h1 := by
  have he := explains_reach h
  rw [hh] at he
  have he' : Explains cfg.cap ((h1 ++ [.lin t .isClosed (.bool b)]) ++ h2) (s.q, s.closed) := by simpa using he
  obtain ⟨st', hs⟩ := he'.prefix
  obtain ⟨st, hs1, hx⟩ := hs.snoc_inv
  rcases hx with ⟨hx, _⟩ | ⟨_, _, _, hx, ha⟩
  · exact absurd rfl (hx _ _ _)
  · cases hx
    cases ha
    exact ⟨fun hb => hs1.close_mem hb, fun ⟨t', hm⟩ => hs1.closed_of_mem hm⟩

example : true = true ↔ ∃ t', .lin t' .close .unit ∈ demoEnd.hist.take 16 :=
  channel_closed_monotone demo_reach (t := 0) (h2 := demoEnd.hist.drop 17) (by decide)

/-! ### C05: no lost wakeups, no deadlock -/

/-- C05, for any element type. In every reachable state in which no thread can take a step, every call that has not
returned is a `pop` or a `push`. If moving elements does not throw, a blocked pop means that the channel is empty and not
closed; if constructing elements does not throw, a blocked push means that it is full and not closed. Missing for the
full claim: the two conditions, without which it is false (`channel_no_lost_wakeup_refuted`,
`channel_no_lost_wakeup_move_refuted`). -/
theorem channel_blocked_partial {cfg : Cfg} {n : Nat} {s : St α} (h : Reachable cfg n s) (hq : Quiescent cfg s)
    {t : Nat} (ht : t < n) :
    ThreadRun cfg.moveThrow t s.hist .idle ∨
    (ThreadRun cfg.moveThrow t s.hist (.called .pop) ∧
      (cfg.moveThrow = false → inserted s.hist = removed s.hist ∧ ∀ t' r, .lin t' .close r ∉ s.hist)) ∨
    (∃ v, ThreadRun cfg.moveThrow t s.hist (.called (.push v)) ∧
      (cfg.ctorThrow = false → (inserted s.hist).length = (removed s.hist).length + cfg.cap ∧
        ∀ t' r, .lin t' .close r ∉ s.hist)) := by
  have hlt : t < s.pcs.length := by rw [reachable_length h]; exact ht
  have hp : s.pcs[t]? = some s.pcs[t] := List.getElem?_eq_getElem hlt
  obtain ⟨p, hph, hrun⟩ := runInv_reach h t _ hp
  have he := explains_reach h
  have hf := channel_fifo h
  have hcap := channel_capacity h
  generalize s.pcs[t] = pc at hp hph
  have hno : s.closed = false → ∀ t' r, Ev.lin t' .close r ∉ s.hist := by
    intro hcl t' r hmem
    have := he.closed_of_mem hmem
    rw [hcl] at this; cases this
  rcases quiescent_pc (lockInv_reach h) hq hp with rfl | rfl | ⟨v, rfl⟩
  · cases hph; exact .inl hrun
  · cases hph
    refine .inr (.inl ⟨hrun, fun hm => ?_⟩)
    obtain ⟨h1, h2⟩ := quiescent_consumer hm h hq hp
    exact ⟨by rw [hf, h1, List.append_nil], hno h2⟩
  · cases hph
    refine .inr (.inr ⟨v, hrun, fun hc => ?_⟩)
    obtain ⟨h1, h2⟩ := quiescent_producer hc h hq hp
    refine ⟨?_, hno h2⟩
    rw [hf, List.length_append]; omega

/-- With throwing constructors: a pop asleep on an empty channel. -/
example : ThreadRun false 0 emptyWait.hist .idle ∨
    (ThreadRun false 0 emptyWait.hist (.called .pop) ∧ (false = false → inserted emptyWait.hist = removed emptyWait.hist ∧
      ∀ t' r, .lin t' .close r ∉ emptyWait.hist)) ∨
    (∃ v, ThreadRun false 0 emptyWait.hist (.called (.push v)) ∧
      (true = false → (inserted emptyWait.hist).length = (removed emptyWait.hist).length + 2 ∧
        ∀ t' r, .lin t' .close r ∉ emptyWait.hist)) :=
  channel_blocked_partial (cfg := { cap := 2, ctorThrow := true }) emptyWait_reach emptyWait_quiescent (t := 0) (by decide)

/-- C05 for element types that do not throw: in every reachable state in which no thread can take a step, every call that
has not returned is either a `pop` on a channel that is empty and not closed, or a `push` on a channel that is full and
not closed. -/
theorem channel_no_lost_wakeup_partial {cfg : Cfg} (hc : cfg.ctorThrow = false) (hm : cfg.moveThrow = false) {n : Nat}
    {s : St α} (h : Reachable cfg n s) (hq : Quiescent cfg s) {t : Nat} (ht : t < n) :
    ThreadRun false t s.hist .idle ∨
    (ThreadRun false t s.hist (.called .pop) ∧ inserted s.hist = removed s.hist ∧
      ∀ t' r, .lin t' .close r ∉ s.hist) ∨
    (∃ v, ThreadRun false t s.hist (.called (.push v)) ∧
      (inserted s.hist).length = (removed s.hist).length + cfg.cap ∧ ∀ t' r, .lin t' .close r ∉ s.hist) := by
  have h1 := channel_blocked_partial h hq ht
  rw [hm] at h1
  rcases h1 with h1 | ⟨h1, h2⟩ | ⟨v, h1, h2⟩
  · exact .inl h1
  · exact .inr (.inl ⟨h1, h2 rfl⟩)
  · exact .inr (.inr ⟨v, h1, h2 hc⟩)

/-- Thread 2 is blocked in a push because the channel is full. -/
example : ¬ ThreadRun false 2 full.hist .idle → (inserted full.hist).length = (removed full.hist).length + 1 := by
  intro hn
  rcases channel_no_lost_wakeup_partial rfl rfl full_reach full_quiescent (t := 2) (by decide) with h | ⟨_, h, _⟩ | ⟨_, _, h, _⟩
  · exact absurd h hn
  · exact absurd h (by decide)
  · exact h

/-- C05. With positive capacity, pushers and poppers are never both stuck. -/
theorem channel_no_deadlock_partial {cfg : Cfg} (hc : cfg.ctorThrow = false) (hm : cfg.moveThrow = false)
    (hcap : 0 < cfg.cap) {n : Nat} {s : St α} (h : Reachable cfg n s) (hq : Quiescent cfg s) :
    (∀ t < n, ThreadRun false t s.hist .idle ∨ ThreadRun false t s.hist (.called .pop)) ∨
    (∀ t < n, ThreadRun false t s.hist .idle ∨ ∃ v, ThreadRun false t s.hist (.called (.push v))) := by
  by_cases hf : (inserted s.hist).length = (removed s.hist).length + cfg.cap
  · right
    intro t ht
    rcases channel_no_lost_wakeup_partial hc hm h hq ht with h1 | ⟨_, h2, _⟩ | ⟨v, h3, _⟩
    · exact .inl h1
    · rw [h2] at hf; omega
    · exact .inr ⟨v, h3⟩
  · left
    intro t ht
    rcases channel_no_lost_wakeup_partial hc hm h hq ht with h1 | ⟨h2, _⟩ | ⟨v, _, h3, _⟩
    · exact .inl h1
    · exact .inr h2
    · exact absurd h3 hf

example : (∀ t < 4, ThreadRun false t full.hist .idle ∨ ThreadRun false t full.hist (.called .pop)) ∨
    (∀ t < 4, ThreadRun false t full.hist .idle ∨ ∃ v, ThreadRun false t full.hist (.called (.push v))) :=
  channel_no_deadlock_partial rfl rfl (by decide) full_reach full_quiescent

/-- C05. After a close has taken effect nobody stays blocked: when nothing can run any more, every call has returned. -/
theorem channel_close_releases_partial {cfg : Cfg} (hc : cfg.ctorThrow = false) (hm : cfg.moveThrow = false) {n : Nat}
    {s : St α} (h : Reachable cfg n s) (hq : Quiescent cfg s) {t' : Nat} {r : Res α} (hcl : .lin t' .close r ∈ s.hist)
    {t : Nat} (ht : t < n) : ThreadRun false t s.hist .idle := by
  rcases channel_no_lost_wakeup_partial hc hm h hq ht with h1 | ⟨_, _, h2⟩ | ⟨v, _, _, h3⟩
  · exact h1
  · exact absurd hcl (h2 _ _)
  · exact absurd hcl (h3 _ _)

example : ThreadRun false 1 demoEnd.hist .idle :=
  channel_close_releases_partial (t' := 0) (r := .unit) rfl rfl demo_reach demo_quiescent (by decide) (by decide)

/-- C05. There is no livelock: from any reachable state, under every schedule without new calls and without spurious
wakeups, the `n` threads together take at most `n * (4 * n + 10)` further steps, whatever exceptions and stale reads
occur. Together
with the theorems above: under every schedule every call returns or is blocked for a legitimate reason. -/
theorem channel_steps_bounded {cfg : Cfg} {n : Nat} {s s' : St α} (h : Reachable cfg n s) {acts : List (Act α)}
    (hi : ∀ a ∈ acts, (∃ t w, a = .step t w) ∨ (∃ t, a = .throw t) ∨ ∃ t, a = .stale t) (hr : run cfg s acts = some s') :
    acts.length ≤ n * (4 * n + 10) := by
  have h1 := run_bounded (acts := acts) (by
    intro a ha; rcases hi a ha with ⟨t, w, rfl⟩ | ⟨t, rfl⟩ | ⟨t, rfl⟩ <;> rfl) hr
  have h2 := work_le s.pcs.length s.pcs
  rw [reachable_length h] at h1 h2
  omega

/-- All steps of thread 0 in its first push. -/
example : (steps 0 7).length ≤ 2 * (4 * 2 + 10) :=
  channel_steps_bounded (cfg := { cap := 1 }) (s := (run { cap := 1 } (init Nat 2) [.call 0 (.push 5)]).get (by decide))
    (s' := (run { cap := 1 } (init Nat 2) ([.call 0 (.push 5)] ++ steps 0 7)).get (by decide))
    ⟨_, (Option.some_get _).symm⟩ (by intro a ha; exact .inl ⟨0, none, List.eq_of_mem_replicate ha⟩) (by decide)

/-! ### C05 is false for element types that throw -/

/-- C05 without the hypothesis that constructing elements does not throw is false: there is an execution that ends with
no thread able to run, a `push` blocked although the channel is empty and open, and a `pop` blocked with it. -/
theorem channel_no_lost_wakeup_refuted : ∃ s : St Nat, Reachable { cap := 1, ctorThrow := true } 4 s ∧
    Quiescent { cap := 1, ctorThrow := true } s ∧ s.q = [] ∧ s.closed = false ∧ s.pcs[2]? = some (.eSleep 2) ∧
    s.pcs[3]? = some .pSleep := by
  refine ⟨(run { cap := 1, ctorThrow := true } (init Nat 4) lostProducer).get (by decide), ⟨lostProducer, by simp⟩,
    quiescent_of_pcs ?_, by decide, by decide, by decide, by decide⟩
  intro pc hpc
  have : ((run { cap := 1, ctorThrow := true } (init Nat 4) lostProducer).get (by decide)).pcs =
    [.idle, .idle, .eSleep 2, .pSleep] := by decide
  rw [this] at hpc
  simp at hpc
  rcases hpc with rfl | rfl | rfl <;> simp

/-- The schedule of the second witness: capacity 2. Threads 0 and 1 pop and fall asleep. Thread 2 pushes, waking thread
0, whose move out of the queue throws. Nobody wakes thread 1. -/
def lostConsumer : List (Act Nat) :=
  [.call 0 .pop] ++ steps 0 2 ++ [.call 1 .pop] ++ steps 1 2 ++
  [.call 2 (.push 7)] ++ steps 2 5 ++ [.step 2 (some 0)] ++ steps 2 1 ++ steps 0 2 ++ [.throw 0] ++ steps 0 2

/-- C05 without the hypothesis that moving elements does not throw is false: a `pop` stays blocked although the channel
holds a value. -/
theorem channel_no_lost_wakeup_move_refuted : ∃ s : St Nat, Reachable { cap := 2, moveThrow := true } 3 s ∧
    Quiescent { cap := 2, moveThrow := true } s ∧ s.q = [7] ∧ s.pcs[1]? = some .pSleep := by
  refine ⟨(run { cap := 2, moveThrow := true } (init Nat 3) lostConsumer).get (by decide), ⟨lostConsumer, by simp⟩,
    quiescent_of_pcs ?_, by decide, by decide⟩
  intro pc hpc
  have : ((run { cap := 2, moveThrow := true } (init Nat 3) lostConsumer).get (by decide)).pcs =
    [.idle, .pSleep, .idle] := by decide
  rw [this] at hpc
  simp at hpc
  rcases hpc with rfl | rfl | rfl <;> simp

/-- C04 with a throwing move constructor: a `pop` may remove a value and lose it to an exception. -/
theorem channel_pop_loses_value_refuted : ∃ s : St Nat, Reachable { cap := 1, moveThrow := true } 1 s ∧
    inserted s.hist = [5] ∧ removed s.hist = [5] ∧ s.hist.getLast? = some (.ret 0 .threw) := by
  refine ⟨(run { cap := 1, moveThrow := true } (init Nat 1)
    ([.call 0 (.push 5)] ++ steps 0 7 ++ [.call 0 .pop] ++ steps 0 5 ++ [.throw 0, .step 0 none])).get (by decide),
    ⟨_, Option.some_get _ |>.symm⟩, by decide, by decide, by decide⟩

/-- A thread which is not inside a member function can call every one of them. The call is the only change to the history. -/
theorem channel_call_possible {α : Type} {cfg : Cfg} {s : St α} {t : Nat} (ht : s.pcs[t]? = some .idle) (op : Op α) :
    ∃ s', next cfg s (.call t op) = some s' ∧ s'.hist = s.hist ++ [.call t op] := by
  unfold next
  simp only [ht]
  cases op <;> simp [St.log, St.goto]

example : (init Nat 2).pcs[1]? = some .idle := rfl

end Verif.Channel
