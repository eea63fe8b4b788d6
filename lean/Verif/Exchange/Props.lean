import Verif.Exchange.Lemmas

/-!
Properties of `dice::template_library::exchange_channel` (C08, C09): every number of threads, every program of calls,
every schedule, spurious wakeups and stale reads of the flag without the mutex included.
-/
namespace Verif.Exchange

open Verif.Channel (Op Res Ev Act Phase ThreadRun inserted removed inserted_append removed_append)

variable {α : Type}

/-! ### A concrete execution, used to show that the hypotheses below are met -/

/-- Let thread `t` take `k` steps. -/
def steps (t k : Nat) : List (Act Nat) := List.replicate k (.step t none)

/-- Thread 1 sleeps in pop, thread 0 pushes 1, pushes 2 before thread 1 runs, closes, pushes 3 after a stale look at the
flag; thread 1 gets 2, then the end. -/
def demo : List (Act Nat) :=
  [.call 1 .pop] ++ steps 1 2 ++ [.call 0 (.push 1)] ++ steps 0 4 ++ [.step 0 (some 1)] ++ steps 0 1 ++
  [.call 0 (.push 2)] ++ steps 0 6 ++ [.call 0 .close] ++ steps 0 5 ++ [.call 0 (.push 3), .stale 0] ++ steps 0 4 ++
  steps 1 6 ++ [.call 1 .pop] ++ steps 1 5

/-- The state at the end of `demo`. -/
def demoEnd : St Nat := (run {} (init Nat 2) demo).get (by decide)

theorem demo_reach : Reachable {} 2 demoEnd := ⟨demo, (Option.some_get _).symm⟩

theorem demo_hist : demoEnd.hist =
    [.call 1 .pop, .call 0 (.push 1), .lin 0 (.push 1) (.bool true), .ret 0 (.bool true), .call 0 (.push 2),
     .lin 0 (.push 2) (.bool true), .ret 0 (.bool true), .call 0 .close, .lin 0 .close .unit, .ret 0 .unit,
     .call 0 (.push 3), .lin 0 (.push 3) (.bool false), .ret 0 (.bool false),
     .lin 1 .pop (.val (some 2)), .ret 1 (.val (some 2)), .call 1 .pop, .lin 1 .pop (.val none),
     .ret 1 (.val none)] := by decide

/-- The state in the middle of `demo` in which 2 has replaced 1 and nobody has taken it. -/
def demoMid : St Nat := (run {} (init Nat 2) (demo.take 17)).get (by decide)

theorem demoMid_reach : Reachable {} 2 demoMid := ⟨demo.take 17, (Option.some_get _).symm⟩

theorem demoMid_hist : demoMid.hist =
    [.call 1 .pop, .call 0 (.push 1), .lin 0 (.push 1) (.bool true), .ret 0 (.bool true), .call 0 (.push 2),
     .lin 0 (.push 2) (.bool true), .ret 0 (.bool true)] := by decide

/-- Thread 1 asleep in a pop on an empty channel. -/
def waiting : St Nat := (run {} (init Nat 2) (demo.take 3)).get (by decide)

theorem waiting_reach : Reachable {} 2 waiting := ⟨demo.take 3, (Option.some_get _).symm⟩

theorem quiescent_of_pcs {cfg : Cfg} {s : St α} (h : ∀ pc ∈ s.pcs, pc = .idle ∨ pc = .pSleep) :
    Quiescent cfg s := by
  intro t w
  simp only [next]
  cases hp : s.pcs[t]? with
  | none => rfl
  | some pc => rcases h _ (List.mem_of_getElem? hp) with rfl | rfl <;> rfl

theorem waiting_quiescent : Quiescent {} waiting := by
  refine quiescent_of_pcs ?_
  have : waiting.pcs = [.idle, .pSleep] := by decide
  rw [this]; simp

theorem demo_quiescent : Quiescent {} demoEnd := by
  refine quiescent_of_pcs ?_
  have : demoEnd.pcs = [.idle, .idle] := by decide
  rw [this]; simp

/-! ### C08 -/

/-- Linearizability: the calls' effects, in order, are a run of the atomic slot; every call takes effect exactly once
between its invocation and its return and returns the result of that effect. -/
theorem exchange_linearizable {cfg : Cfg} {n : Nat} {s : St α} (h : Reachable cfg n s) :
    (∃ o c, Explains s.hist (o, c)) ∧ ∀ t < n, ∃ p, ThreadRun cfg.moveThrow t s.hist p := by
  refine ⟨⟨_, _, explains_reach h⟩, ?_⟩
  intro t ht
  have hlt : t < s.pcs.length := by rw [reachable_length h]; exact ht
  obtain ⟨p, _, hp⟩ := runInv_reach h t s.pcs[t] (List.getElem?_eq_getElem hlt)
  exact ⟨p, hp⟩

example : ∃ o c, Explains demoEnd.hist (o, c) := (exchange_linearizable demo_reach).1

/-- Every call that returns or ends with an exception took effect at exactly one point in between, on the state left by everything
before, with the result it returns; except that a pop can end with an exception although it took effect by removing a value, if moving
elements throws. -/
theorem exchange_call_outcome {cfg : Cfg} {n : Nat} {s : St α} (h : Reachable cfg n s)
    {t : Nat} (ht : t < n) {op : Op α} {r : Res α} {h1 h2 h3 : List (Ev α)}
    (hh : s.hist = h1 ++ .call t op :: h2 ++ .ret t r :: h3)
    (hw : ∀ e ∈ h2, e.tid = t → ∃ op r, e = .lin t op r) :
    ∃ g1 g2 st st' r', (r = r' ∨ (cfg.moveThrow = true ∧ r = .threw ∧ (op = .pop ∨ op = .tryPop) ∧ ∃ x, r' = .val (some x))) ∧
      h2 = g1 ++ .lin t op r' :: g2 ∧ (∀ e ∈ g1 ++ g2, e.tid ≠ t) ∧
      Explains (h1 ++ .call t op :: g1) st ∧ Atomic st op r' st' ∧
      Explains (h1 ++ .call t op :: g1 ++ [.lin t op r']) st' := by
  obtain ⟨⟨q, c, he⟩, hr⟩ := exchange_linearizable h
  obtain ⟨p, hp⟩ := hr t ht
  rw [hh] at hp he
  have hp2 : ThreadRun cfg.moveThrow t (((h1 ++ .call t op :: h2) ++ [.ret t r]) ++ h3) p := by simpa using hp
  obtain ⟨p2, hp2⟩ := hp2.prefix
  rcases hp2.snoc_inv with ⟨hne, _⟩ | ⟨_, h', _⟩ | ⟨_, _, h', _⟩ | ⟨op', r1, r', h', _, hrun, hres⟩
  · exact absurd rfl hne
  · cases h'
  · cases h'
  · cases h'
    rcases hrun.window hw with ⟨hcon, _⟩ | ⟨g1, g2, r2, rfl, hlin, hno⟩
    · cases hcon
    · cases hlin
      have he2 : Explains ((h1 ++ .call t op :: g1 ++ [.lin t op r']) ++ (g2 ++ .ret t r :: h3)) (q, c) := by
        simpa using he
      obtain ⟨st', he3⟩ := he2.prefix
      obtain ⟨st, he4, hx⟩ := he3.snoc_inv
      rcases hx with ⟨hx, _⟩ | ⟨_, _, _, hx, ha⟩
      · exact absurd rfl (hx _ _ _)
      · cases hx
        refine ⟨g1, g2, st, st', r', ?_, rfl, hno, he4, ha, he3⟩
        rcases hres with rfl | ⟨hl, rfl, x, rfl⟩
        · exact .inl rfl
        · exact .inr ⟨hl, rfl, by cases ha <;> simp, x, rfl⟩

example := exchange_call_outcome (t := 0) (op := .push 1) (r := .bool true) (h1 := [.call 1 .pop]) (h2 := [.lin 0 (.push 1) (.bool true)])
  (h3 := demoEnd.hist.drop 4) demo_reach (by decide) (by decide) (by intro e he _; simp at he; exact ⟨_, _, he⟩)

/-- A completed call, spelled out: it took effect at exactly one point between call and return, with the returned
result, on the slot left by everything before. Calls that end with an exception are included if moving elements does not
throw. -/
theorem exchange_call_effect {cfg : Cfg} {n : Nat} {s : St α} (h : Reachable cfg n s)
    {t : Nat} (ht : t < n) {op : Op α} {r : Res α} {h1 h2 h3 : List (Ev α)}
    (hh : s.hist = h1 ++ .call t op :: h2 ++ .ret t r :: h3)
    (hw : ∀ e ∈ h2, e.tid = t → ∃ op r, e = .lin t op r) (hm : r ≠ .threw ∨ cfg.moveThrow = false) :
    ∃ g1 g2 st st', h2 = g1 ++ .lin t op r :: g2 ∧ (∀ e ∈ g1 ++ g2, e.tid ≠ t) ∧
      Explains (h1 ++ .call t op :: g1) st ∧ Atomic st op r st' ∧
      Explains (h1 ++ .call t op :: g1 ++ [.lin t op r]) st' := by
  obtain ⟨g1, g2, st, st', r', hr, rfl, hno, he, ha, he'⟩ := exchange_call_outcome h ht hh hw
  rcases hr with rfl | ⟨hl, rfl, _⟩
  · exact ⟨g1, g2, st, st', rfl, hno, he, ha, he'⟩
  · rcases hm with hm | hm
    · exact absurd rfl hm
    · rw [hm] at hl; cases hl

/-- The first push of `demo`. -/
example : ∃ g1 g2 st st', ([.lin 0 (.push 1) (.bool true)] : List (Ev Nat)) = g1 ++ .lin 0 (.push 1) (.bool true) :: g2 ∧
    (∀ e ∈ g1 ++ g2, e.tid ≠ 0) ∧ Explains ([.call 1 .pop] ++ .call 0 (.push 1) :: g1) st ∧
    Atomic st (.push 1) (.bool true) st' ∧
    Explains ([.call 1 .pop] ++ .call 0 (.push 1) :: g1 ++ [.lin 0 (.push 1) (.bool true)]) st' :=
  exchange_call_effect (h3 := demoEnd.hist.drop 4) demo_reach (by decide) (by decide) (by
    intro e he _; simp at he; exact ⟨_, _, he⟩) (.inl (by simp))

/-- C08. Every value removed was, at the moment of its removal, the most recently inserted one, and had not been
removed before: between its insertion and its removal there is neither an insertion nor a removal. -/
theorem exchange_pop_most_recent {cfg : Cfg} {n : Nat} {s : St α} (h : Reachable cfg n s) {t : Nat} {op : Op α} {x : α}
    {h1 h2 : List (Ev α)} (hh : s.hist = h1 ++ .lin t op (.val (some x)) :: h2) :
    ∃ t' g1 g2, h1 = g1 ++ .lin t' (.push x) (.bool true) :: g2 ∧ inserted g2 = [] ∧ removed g2 = [] := by
  have he := explains_reach h
  rw [hh] at he
  have he' : Explains ((h1 ++ [.lin t op (.val (some x))]) ++ h2) (s.slot, s.closed) := by simpa using he
  obtain ⟨st', hs⟩ := he'.prefix
  obtain ⟨st, hs1, hx⟩ := hs.snoc_inv
  rcases hx with ⟨hx, _⟩ | ⟨_, _, _, hx, ha⟩
  · exact absurd rfl (hx _ _ _)
  · cases hx
    cases ha <;> exact hs1.slot_origin rfl

example : ∃ t' g1 g2, demoEnd.hist.take 13 = g1 ++ .lin t' (.push 2) (.bool true) :: g2 ∧ inserted g2 = [] ∧
    removed g2 = [] :=
  exchange_pop_most_recent demo_reach (t := 1) (op := .pop) (h2 := demoEnd.hist.drop 14) (by decide)

theorem Explains.sublist {h : List (Ev α)} {st} (he : Explains h st) :
    (removed h ++ st.1.toList).Sublist (inserted h) := by
  induction he with
  | nil => simp [removed, inserted]
  | call _ ih => simpa [inserted_append, removed_append, inserted, removed] using ih
  | ret _ ih => simpa [inserted_append, removed_append, inserted, removed] using ih
  | lin _ ha ih =>
    have drop : ∀ {a b c : List α}, (a ++ b).Sublist c → a.Sublist c :=
      fun h => (List.sublist_append_left _ _).trans h
    cases ha <;> simp [inserted_append, removed_append, inserted, removed] at ih ⊢ <;>
      first | exact ih | exact drop ih | exact (drop ih).append_right _

/-- C08. No value is delivered twice or invented, and values are delivered in the order of insertion: the removed values
together with the one still there are a subsequence of the inserted ones. -/
theorem exchange_at_most_once {cfg : Cfg} {n : Nat} {s : St α} (h : Reachable cfg n s) :
    (removed s.hist ++ s.slot.toList).Sublist (inserted s.hist) :=
  (explains_reach h).sublist

example : (removed demoEnd.hist ++ demoEnd.slot.toList).Sublist (inserted demoEnd.hist) ∧
    removed demoEnd.hist = [2] ∧ inserted demoEnd.hist = [1, 2] :=
  ⟨exchange_at_most_once demo_reach, by decide, by decide⟩

/-- C08. A value is dropped without being delivered only if a later insertion replaced it: if `v` was inserted and
nothing was inserted since, then either it has been removed exactly once since, or it is still there. Missing for the
full claim: element types whose constructor throws, see `exchange_drop_refuted`. -/
theorem exchange_not_dropped_partial {cfg : Cfg} (hc : cfg.ctorThrow = false) {n : Nat} {s : St α}
    (h : Reachable cfg n s) {t : Nat} {v : α} {h1 h2 : List (Ev α)}
    (hh : s.hist = h1 ++ .lin t (.push v) (.bool true) :: h2) (hi : inserted h2 = []) :
    (removed h2 = [v] ∧ s.slot = none) ∨ (removed h2 = [] ∧ s.slot = some v) := by
  have he := explains_reach h
  have hthrow : ∀ t' v', Ev.lin t' (.push v') .threw ∉ s.hist := by
    refine reach_ind (P := fun s => ∀ t' v', Ev.lin t' (.push v') .threw ∉ s.hist) (by simp [init]) ?_ h
    intro s s' hi hs
    cases hs with
    | loc hp hl =>
      intro t op hmem
      rcases List.mem_append.mp hmem with hmem | hmem
      · exact hi t op hmem
      · clear hp
        generalize s.slot = q, s.closed = c, s.owner = o at hl
        cases hl <;> simp_all
    | _ => exact hi
  rw [hh] at he
  have he' : Explains ((h1 ++ [.lin t (.push v) (.bool true)]) ++ h2) (s.slot, s.closed) := by simpa using he
  obtain ⟨st', hs⟩ := he'.prefix
  obtain ⟨st, hs1, hx⟩ := hs.snoc_inv
  rcases hx with ⟨hx, _⟩ | ⟨_, _, _, hx, ha⟩
  · exact absurd rfl (hx _ _ _)
  · cases hx
    cases ha
    have := hs.slot_after he' hi (fun t' v' hm => hthrow t' v' (by rw [hh]; simp [hm]))
    rcases this with h | ⟨x, hx, h⟩
    · exact .inr h
    · cases hx; exact .inl h

example : (removed (demoEnd.hist.drop 6) = [2] ∧ demoEnd.slot = none) ∨
    (removed (demoEnd.hist.drop 6) = [] ∧ demoEnd.slot = some 2) :=
  exchange_not_dropped_partial rfl demo_reach (t := 0) (h1 := demoEnd.hist.take 5) (by decide) (by decide)

/-- C08. Once every push has taken effect and nothing is removed any more, the channel holds the last value inserted
unless it was removed: what is in the channel is always the last value inserted. -/
theorem exchange_holds_last {cfg : Cfg} {n : Nat} {s : St α} (h : Reachable cfg n s) {x : α} (hx : s.slot = some x) :
    (inserted s.hist).getLast? = some x := by
  obtain ⟨t, g1, g2, h1, h2, h3⟩ := (explains_reach h).slot_origin hx
  rw [h1, inserted_append]
  simp [inserted, h2]

example : (inserted demoMid.hist).getLast? = some 2 := exchange_holds_last demoMid_reach (by decide)

/-! ### C09 -/

/-- C09. After `close` took effect nothing is inserted, and pushes that take effect later return false. -/
theorem exchange_closed_rejects {cfg : Cfg} {n : Nat} {s : St α} (h : Reachable cfg n s) {t : Nat} {r : Res α}
    {h1 h2 : List (Ev α)} (hh : s.hist = h1 ++ .lin t .close r :: h2) :
    inserted h2 = [] ∧ (∀ t' v r', .lin t' (.push v) r' ∈ h2 → r' = .bool false) := by
  have he := explains_reach h
  rw [hh] at he
  have he' : Explains ((h1 ++ [.lin t .close r]) ++ h2) (s.slot, s.closed) := by simpa using he
  obtain ⟨⟨q, c⟩, hs⟩ := he'.prefix
  have hc : c = true := hs.closed_of_mem (t := t) (r := r) (by simp)
  subst hc
  exact (hs.after_closed he').2

example : inserted (demoEnd.hist.drop 9) = [] :=
  (exchange_closed_rejects demo_reach (h1 := demoEnd.hist.take 8) (t := 0) (r := .unit) (by decide)).1

/-- C09, in real time: a push called after some close took effect returns false. -/
theorem exchange_push_after_close {cfg : Cfg} {n : Nat} {s : St α}
    (h : Reachable cfg n s) {t t' : Nat} (ht : t < n) {v : α} {r rc : Res α} {h1 h2 h3 : List (Ev α)}
    (hh : s.hist = h1 ++ .call t (.push v) :: h2 ++ .ret t r :: h3)
    (hw : ∀ e ∈ h2, e.tid = t → ∃ op r, e = .lin t op r) (hcl : .lin t' .close rc ∈ h1) : r = .bool false := by
  obtain ⟨g1, g2, st, st', r', hr, rfl, _, he, ha, _⟩ := exchange_call_outcome h ht hh hw
  have hc := he.closed_of_mem (t := t') (r := rc) (by simp [hcl])
  cases ha <;> simp_all

/-- The push of 3 in `demo`, which overlooks the close at first. -/
example : (Res.bool false : Res Nat) = .bool false :=
  exchange_push_after_close (t := 0) (t' := 0) (v := 3) (rc := .unit) demo_reach (by decide)
    (h1 := demoEnd.hist.take 10) (h2 := [.lin 0 (.push 3) (.bool false)]) (h3 := demoEnd.hist.drop 13) (by decide)
    (by intro e he _; simp at he; exact ⟨_, _, he⟩) (by decide)

/-- C09. A close does not drop the value: if the slot holds `x` when a close takes effect, then afterwards `x` is
removed at most once, nothing else is, and it is there until then. -/
theorem exchange_close_keeps_value {cfg : Cfg} {n : Nat} {s : St α} (h : Reachable cfg n s) {t : Nat}
    {h1 h2 : List (Ev α)} (hh : s.hist = h1 ++ .lin t .close .unit :: h2) :
    ∃ o, (∃ c, Explains h1 (o, c)) ∧
      ((removed h2 = [] ∧ s.slot = o) ∨ (∃ x, o = some x ∧ removed h2 = [x] ∧ s.slot = none)) := by
  have hcl := exchange_closed_rejects h hh
  have he := explains_reach h
  rw [hh] at he
  have he' : Explains ((h1 ++ [.lin t .close .unit]) ++ h2) (s.slot, s.closed) := by simpa using he
  obtain ⟨st', hs⟩ := he'.prefix
  obtain ⟨st, hs1, hx⟩ := hs.snoc_inv
  rcases hx with ⟨hx, _⟩ | ⟨_, _, _, hx, ha⟩
  · exact absurd rfl (hx _ _ _)
  · cases hx
    cases ha
    rename_i o c
    refine ⟨o, ⟨c, hs1⟩, ?_⟩
    exact hs.slot_after he' hcl.1 (fun t' v hm => by have := hcl.2 t' v _ hm; cases this)

/-- The close of `demo`, with 2 in the slot. -/
example : ∃ o, (∃ c, Explains (demoEnd.hist.take 8) (o, c)) ∧
    ((removed (demoEnd.hist.drop 9) = [] ∧ demoEnd.slot = o) ∨
      (∃ x, o = some x ∧ removed (demoEnd.hist.drop 9) = [x] ∧ demoEnd.slot = none)) :=
  exchange_close_keeps_value demo_reach (t := 0) (by decide)

/-- C09. A `pop` reports the end only when the channel is closed and its slot empty, and nothing is removed later. -/
theorem exchange_pop_end {cfg : Cfg} {n : Nat} {s : St α} (h : Reachable cfg n s) {t : Nat}
    {h1 h2 : List (Ev α)} (hh : s.hist = h1 ++ .lin t .pop (.val none) :: h2) :
    (∃ t', .lin t' .close .unit ∈ h1) ∧ Explains h1 (none, true) ∧ inserted h2 = [] ∧ removed h2 = [] := by
  have he := explains_reach h
  rw [hh] at he
  have he' : Explains ((h1 ++ [.lin t .pop (.val none)]) ++ h2) (s.slot, s.closed) := by simpa using he
  obtain ⟨st', hs⟩ := he'.prefix
  obtain ⟨st, hs1, hx⟩ := hs.snoc_inv
  rcases hx with ⟨hx, _⟩ | ⟨_, _, _, hx, ha⟩
  · exact absurd rfl (hx _ _ _)
  · cases hx
    cases ha
    obtain ⟨_, hi, hp⟩ := hs.after_closed he'
    have h4 := hs.slot_after he' hi (fun t' v hm => by have := hp t' v _ hm; cases this)
    refine ⟨hs1.close_mem rfl, hs1, hi, ?_⟩
    rcases h4 with h4 | ⟨x, h4, _⟩
    · exact h4.1
    · cases h4

example : Explains (demoEnd.hist.take 16) (none, true) :=
  (exchange_pop_end demo_reach (t := 1) (h2 := demoEnd.hist.drop 17) (by decide)).2.1

/-- C09. When no thread can take a step, every call that has not returned is a `pop` on an empty, open channel. Needs
that moving an element does not throw (constructors may throw); see `exchange_no_lost_wakeup_refuted`. -/
theorem exchange_no_lost_wakeup_partial {cfg : Cfg} (hm : cfg.moveThrow = false) {n : Nat}
    {s : St α} (h : Reachable cfg n s) (hq : Quiescent cfg s) {t : Nat} (ht : t < n) :
    ThreadRun false t s.hist .idle ∨
    (ThreadRun false t s.hist (.called .pop) ∧ Explains s.hist (none, false) ∧ ∀ t' r, .lin t' .close r ∉ s.hist) := by
  have hlt : t < s.pcs.length := by rw [reachable_length h]; exact ht
  have hp : s.pcs[t]? = some s.pcs[t] := List.getElem?_eq_getElem hlt
  obtain ⟨p, hph, hrun⟩ := runInv_reach h t _ hp
  rw [hm] at hph hrun
  have he := explains_reach h
  generalize s.pcs[t] = pc at hp hph
  rcases quiescent_pc (lockInv_reach h) hq hp with rfl | rfl
  · cases hph; exact .inl hrun
  · cases hph
    obtain ⟨h1, h2⟩ := quiescent_consumer hm h hq hp
    refine .inr ⟨hrun, by rw [h1, h2] at he; exact he, ?_⟩
    intro t' r hmem
    have := he.closed_of_mem hmem
    rw [h2] at this; cases this

/-- Thread 1 is blocked in a pop because the channel is empty. -/
example : ¬ ThreadRun false 1 waiting.hist .idle → Explains waiting.hist (none, false) := by
  intro hn
  rcases exchange_no_lost_wakeup_partial rfl waiting_reach waiting_quiescent (t := 1) (by decide) with h | ⟨_, h, _⟩
  · exact absurd h hn
  · exact h

/-- C09. After a close nobody stays blocked. -/
theorem exchange_close_releases_partial {cfg : Cfg} (hm : cfg.moveThrow = false) {n : Nat}
    {s : St α} (h : Reachable cfg n s) (hq : Quiescent cfg s) {t' : Nat} {r : Res α} (hcl : .lin t' .close r ∈ s.hist)
    {t : Nat} (ht : t < n) : ThreadRun false t s.hist .idle := by
  rcases exchange_no_lost_wakeup_partial hm h hq ht with h1 | ⟨_, _, h2⟩
  · exact h1
  · exact absurd hcl (h2 _ _)

example : ThreadRun false 1 demoEnd.hist .idle :=
  exchange_close_releases_partial (t' := 0) (r := .unit) rfl demo_reach demo_quiescent (by decide) (by decide)

/-- C09. No livelock: without new calls and spurious wakeups at most `n * (2 * n + 8)` steps can be taken. -/
theorem exchange_steps_bounded {cfg : Cfg} {n : Nat} {s s' : St α} (h : Reachable cfg n s) {acts : List (Act α)}
    (hi : ∀ a ∈ acts, (∃ t w, a = .step t w) ∨ (∃ t, a = .throw t) ∨ ∃ t, a = .stale t) (hr : run cfg s acts = some s') :
    acts.length ≤ n * (2 * n + 8) := by
  have h1 := run_bounded hi hr
  have h2 := work_le s.pcs.length s.pcs
  rw [reachable_length h] at h1 h2
  omega

example : (steps 0 6).length ≤ 2 * (2 * 2 + 8) :=
  exchange_steps_bounded (cfg := {}) (s := (run {} (init Nat 2) [.call 0 (.push 5)]).get (by decide))
    (s' := (run {} (init Nat 2) ([.call 0 (.push 5)] ++ steps 0 6)).get (by decide))
    ⟨_, (Option.some_get _).symm⟩ (by intro a ha; exact .inl ⟨0, none, List.eq_of_mem_replicate ha⟩) (by decide)

/-- A thread which is not inside a member function can call every one the class has: all but `try_push`. The call is the only change to the history. -/
theorem exchange_call_possible {α : Type} {cfg : Cfg} {s : St α} {t : Nat} (ht : s.pcs[t]? = some .idle) (op : Channel.Op α) :
    (∃ s', next cfg s (.call t op) = some s' ∧ s'.hist = s.hist ++ [.call t op]) ↔ ∀ v, op ≠ .tryPush v := by
  unfold next
  simp only [ht]
  cases op <;> simp [entry, St.log, St.goto]

example : ∃ s', next {} (init Nat 2) (.call 1 .tryPop) = some s' ∧ s'.hist = [.call 1 .tryPop] :=
  (exchange_call_possible (s := init Nat 2) rfl .tryPop).2 (by simp)

/-! ### Refutations for throwing element types -/

/-- C08 for throwing constructors is false: a push of 1 succeeds, a push of 2 throws, and 1 is gone: it was never
delivered and not replaced by a later insertion. -/
theorem exchange_drop_refuted : ∃ s : St Nat, Reachable { ctorThrow := true } 1 s ∧
    inserted s.hist = [1] ∧ removed s.hist = [] ∧ s.slot = none ∧ s.hist.getLast? = some (.ret 0 .threw) := by
  refine ⟨(run { ctorThrow := true } (init Nat 1)
    ([.call 0 (.push 1)] ++ steps 0 6 ++ [.call 0 (.push 2)] ++ steps 0 2 ++ [.throw 0] ++ steps 0 2)).get (by decide),
    ⟨_, Option.some_get _ |>.symm⟩, by decide, by decide, by decide, by decide⟩

/-- Two consumers asleep; a push wakes one of them, whose move throws; the other stays asleep although there is a
value. -/
def lostConsumer : List (Act Nat) :=
  [.call 0 .pop] ++ steps 0 2 ++ [.call 1 .pop] ++ steps 1 2 ++
  [.call 2 (.push 7)] ++ steps 2 4 ++ [.step 2 (some 0)] ++ steps 2 1 ++ steps 0 2 ++ [.throw 0] ++ steps 0 2

/-- C09 for throwing moves is false. -/
theorem exchange_no_lost_wakeup_refuted : ∃ s : St Nat, Reachable { moveThrow := true } 3 s ∧
    Quiescent { moveThrow := true } s ∧ s.slot = some 7 ∧ s.pcs[1]? = some .pSleep := by
  refine ⟨(run { moveThrow := true } (init Nat 3) lostConsumer).get (by decide), ⟨lostConsumer, by simp⟩,
    quiescent_of_pcs ?_, by decide, by decide⟩
  intro pc hpc
  have : ((run { moveThrow := true } (init Nat 3) lostConsumer).get (by decide)).pcs =
    [.idle, .pSleep, .idle] := by decide
  rw [this] at hpc
  simp at hpc
  rcases hpc with rfl | rfl | rfl <;> simp

end Verif.Exchange
