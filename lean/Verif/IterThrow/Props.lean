import Verif.IterThrow.Model

/-!
C102: loops over channels whose elements have throwing moves.
-/
namespace Verif.IterThrow

open Verif.Channel (Ev Op Res Act Phase ThreadRun inserted removed inserted_append removed_append popResults
  popResults_append removedBy removedBy_only someVals pending loop)

variable {α : Type}

/-! ### Lemmas -/

theorem fetches_other {c : Nat} {e : Ev α} (he : e.tid ≠ c) (h : List (Ev α)) (fs : List Bool) :
    fetches c (e :: h) fs = fetches c h fs := by
  cases e with
  | call => rfl
  | lin => rfl
  | ret t r =>
    simp only [Ev.tid] at he
    cases r with
    | val o => cases o <;> simp [fetches, he]
    | threw => simp [fetches, he]
    | _ => rfl

theorem fetches_others {c : Nat} {h : List (Ev α)} (hh : ∀ e ∈ h, e.tid ≠ c) (fs : List Bool) : fetches c h fs = [] := by
  induction h with
  | nil => rfl
  | cons e h ih => rw [fetches_other (hh e (by simp)), ih (fun e he => hh e (by simp [he]))]

/-- Either all calls of `advance()` delivered values, or there is a first one that found the end or threw (specification
of channel.hpp:228-230, exchange_channel.hpp:165-167). -/
def Stop (c : Nat) (h : List (Ev α)) (fs : List Bool) : Prop :=
  (∃ xs : List α, fetches c h fs = xs.map (fun x => .got (some x)) ∧ popResults c h = xs.map some ∧
    .ret c .threw ∉ h) ∨
  (∃ h1 r h2 rest, ∃ xs : List α, h = h1 ++ .ret c r :: h2 ∧ popResults c h1 = xs.map some ∧ .ret c .threw ∉ h1 ∧
    ((r = .val none ∧ fetches c h fs = xs.map (fun x => .got (some x)) ++ .got none :: rest) ∨
      ((r = .threw ∨ ∃ x, r = .val (some x)) ∧
        fetches c h fs = xs.map (fun x => .got (some x)) ++ .threw :: rest)))

theorem first_stop (c : Nat) (h : List (Ev α)) (fs : List Bool) : Stop c h fs := by
  induction h generalizing fs with
  | nil => exact .inl ⟨[], rfl, rfl, by simp⟩
  | cons e h ih =>
    -- an event that adds nothing
    have skip : fetches c (e :: h) fs = fetches c h fs → popResults c [e] = [] → .ret c .threw ≠ e →
        Stop c (e :: h) fs := by
      intro h1 h2 h3
      have happ : ∀ g, popResults c (e :: g) = popResults c g := by
        intro g
        have := popResults_append c [e] g
        rw [h2] at this; simpa using this
      rcases ih fs with ⟨xs, a, b, d⟩ | ⟨g1, r, g2, rest, xs, rfl, b, d, k⟩
      · exact .inl ⟨xs, h1.trans a, (happ h).trans b, by simp [d, h3]⟩
      · refine .inr ⟨e :: g1, r, g2, rest, xs, rfl, (happ g1).trans b, by simp [d, h3], ?_⟩
        rw [h1]; exact k
    by_cases he : e.tid = c
    swap
    · exact skip (fetches_other he h fs) (Verif.Channel.removedBy_other he).2 (fun h' => he (by rw [← h']; rfl))
    cases e with
    | call t op => exact skip rfl rfl (by simp)
    | lin t op r => exact skip rfl rfl (by simp)
    | ret t r =>
      simp only [Ev.tid] at he
      subst he
      cases r with
      | bool b => exact skip rfl rfl (by simp)
      | unit => exact skip rfl rfl (by simp)
      | threw =>
        exact .inr ⟨[], .threw, h, fetches t h fs, [], rfl, rfl, by simp, .inr ⟨.inl rfl, by simp [fetches]⟩⟩
      | val o =>
        cases o with
        | none => exact .inr ⟨[], .val none, h, fetches t h fs, [], rfl, rfl, by simp, .inl ⟨rfl, by simp [fetches]⟩⟩
        | some x =>
          by_cases hf : fs.headD false = true
          · exact .inr ⟨[], .val (some x), h, fetches t h fs.tail, [], rfl, rfl, by simp,
              .inr ⟨.inr ⟨x, rfl⟩, by simp only [fetches, if_true, hf]; rfl⟩⟩
          · have e1 : fetches t (.ret t (.val (some x)) :: h) fs = .got (some x) :: fetches t h fs.tail := by
              simp only [fetches, if_true, hf]; rfl
            have e2 : ∀ g, popResults t (.ret t (.val (some x)) :: g) = some x :: popResults t g := by
              intro g; simp [popResults]
            rcases ih fs.tail with ⟨xs, a, b, d⟩ | ⟨g1, r, g2, rest, xs, rfl, b, d, k⟩
            · exact .inl ⟨x :: xs, by rw [e1, a]; rfl, by rw [e2, b]; rfl, by simp [d]⟩
            · refine .inr ⟨.ret t (.val (some x)) :: g1, r, g2, rest, x :: xs, rfl, by rw [e2, b]; rfl, by simp [d], ?_⟩
              rw [e1]
              rcases k with ⟨k1, k2⟩ | ⟨k1, k2⟩
              · exact .inl ⟨k1, by rw [k2]; rfl⟩
              · exact .inr ⟨k1, by rw [k2]; rfl⟩

theorem iterate_values (b : Bool) (seen xs : List α) (rs : List (Fetch α)) :
    iterate b seen (xs.map (fun x => .got (some x)) ++ rs) = iterate b (seen ++ xs) rs := by
  induction xs generalizing seen with
  | nil => simp
  | cons x xs ih =>
    simp [iterate, Verif.Channel.Iter.advance, Verif.Channel.Iter.atEnd, Verif.Channel.Iter.deref, ih]

theorem iterate_running (b : Bool) (xs : List α) :
    iterate b [] (xs.map (fun x => .got (some x))) = .running xs := by
  have := iterate_values b [] xs []
  simpa [iterate] using this

theorem iterate_ended (b : Bool) (xs : List α) (rest : List (Fetch α)) :
    iterate b [] (xs.map (fun x => .got (some x)) ++ .got none :: rest) = .ended xs := by
  rw [iterate_values]
  simp [iterate, Verif.Channel.Iter.advance, Verif.Channel.Iter.atEnd]

theorem iterate_threw (b : Bool) (xs : List α) (rest : List (Fetch α)) :
    iterate b [] (xs.map (fun x => .got (some x)) ++ .threw :: rest) = if b then .terminated xs else .threw xs := by
  rw [iterate_values]
  simp [iterate]

theorem someVals_map (xs : List α) : someVals (xs.map some) = xs := by
  induction xs with
  | nil => rfl
  | cons x xs ih => simp [someVals] at ih ⊢

theorem pending_length (p : Phase α) : (pending p).length ≤ 1 := by
  cases p with
  | lined op r =>
    cases r with
    | val o => cases o <;> simp [pending]
    | _ => simp [pending]
  | _ => simp [pending]

/-- What a thread has taken when its calls delivered `xs` and the last one ended with an exception or its value was lost
in the assignment. -/
theorem taken_at_stop {l : Bool} {c : Nat} {h1 : List (Ev α)} {r : Res α} {p} {xs : List α}
    (hp : ThreadRun l c (h1 ++ [.ret c r]) p) (hn : .ret c .threw ∉ h1)
    (hx : popResults c h1 = xs.map some) : ∃ lost : List α, lost.length ≤ 1 ∧ removedBy c h1 = xs ++ lost := by
  rcases hp.snoc_inv with ⟨hne, _⟩ | ⟨_, h', _⟩ | ⟨_, _, h', _⟩ | ⟨op', r1, r', h', _, hrun, hres⟩
  · exact absurd rfl hne
  · cases h'
  · cases h'
  · have := (hrun.lossless hn).returned
    rw [hx, someVals_map] at this
    exact ⟨_, pending_length _, this⟩

theorem prefix_run {l : Bool} {c : Nat} {h1 h2 : List (Ev α)} {e : Ev α} {p}
    (hp : ThreadRun l c (h1 ++ e :: h2) p) : ∃ p1, ThreadRun l c (h1 ++ [e]) p1 := by
  have hp' : ThreadRun l c ((h1 ++ [e]) ++ h2) p := by simpa using hp
  exact hp'.prefix

theorem prefix_removed {c : Nat} {h1 h2 : List (Ev α)}
    (hs : ∀ t' op x, .lin t' op (.val (some x)) ∈ h1 ++ h2 → t' = c) :
    removedBy c h1 <+: removed (h1 ++ h2) := by
  rw [removedBy_only (fun t' op x hm => hs t' op x (List.mem_append_left _ hm)), removed_append]
  exact List.prefix_append _ _

theorem removed_others {c : Nat} {h : List (Ev α)} (hh : ∀ e ∈ h, e.tid ≠ c)
    (hs : ∀ t' op x, .lin t' op (.val (some x)) ∈ h → t' = c) : removed h = [] := by
  induction h with
  | nil => rfl
  | cons e h ih =>
    have ih := ih (fun e he => hh e (by simp [he])) (fun t' op x hm => hs t' op x (by simp [hm]))
    cases e with
    | lin t op r =>
      cases r with
      | val o =>
        cases o with
        | none => simpa [removed] using ih
        | some x => exact absurd (hs t op x (by simp)) (hh (.lin t op (.val (some x))) (by simp))
      | _ => simpa [removed] using ih
    | _ => simpa [removed] using ih

/-! ### Executions with exceptions -/

/-- `k` steps of thread `t` (example schedules for channel.hpp:58-212, exchange_channel.hpp:53-149). -/
def steps (t k : Nat) : List (Act Nat) := List.replicate k (.step t none)

/-- Thread 0 pushes 5; thread 1 takes it; thread 0 pushes 6 and 7; thread 1 takes 6 out, and moving it into the result
throws (channel.hpp:193). -/
def chanThrow : List (Act Nat) :=
  [.call 0 (.push 5)] ++ steps 0 7 ++ [.call 1 .pop] ++ steps 1 7 ++ [.call 0 (.push 6)] ++ steps 0 7 ++
  [.call 0 (.push 7)] ++ steps 0 7 ++ [.call 1 .pop] ++ steps 1 5 ++ [.throw 1] ++ steps 1 1

/-- The state at the end of `chanThrow` (example for channel.hpp:179-194). -/
def chanThrowEnd : Verif.Channel.St Nat :=
  (Verif.Channel.run { cap := 2, moveThrow := true } (Verif.Channel.init Nat 2) chanThrow).get (by decide)

theorem chanThrow_reach : Verif.Channel.Reachable { cap := 2, moveThrow := true } 2 chanThrowEnd :=
  ⟨chanThrow, (Option.some_get _).symm⟩

theorem chanThrow_hist : chanThrowEnd.hist =
    [.call 0 (.push 5), .lin 0 (.push 5) (.bool true), .ret 0 (.bool true), .call 1 .pop, .lin 1 .pop (.val (some 5)),
     .ret 1 (.val (some 5)), .call 0 (.push 6), .lin 0 (.push 6) (.bool true), .ret 0 (.bool true), .call 0 (.push 7),
     .lin 0 (.push 7) (.bool true), .ret 0 (.bool true), .call 1 .pop, .lin 1 .pop (.val (some 6)), .ret 1 .threw] := by
  decide

/-- Thread 0 pushes 5; thread 1 takes it; thread 0 pushes 6, which 7 replaces; moving 7 into the result
throws (exchange_channel.hpp:135). -/
def exchThrow : List (Act Nat) :=
  [.call 0 (.push 5)] ++ steps 0 6 ++ [.call 1 .pop] ++ steps 1 6 ++ [.call 0 (.push 6)] ++ steps 0 6 ++
  [.call 0 (.push 7)] ++ steps 0 6 ++ [.call 1 .pop] ++ steps 1 3 ++ [.throw 1] ++ steps 1 2

/-- The state at the end of `exchThrow` (example for exchange_channel.hpp:124-136). -/
def exchThrowEnd : Verif.Exchange.St Nat :=
  (Verif.Exchange.run { moveThrow := true } (Verif.Exchange.init Nat 2) exchThrow).get (by decide)

theorem exchThrow_reach : Verif.Exchange.Reachable { moveThrow := true } 2 exchThrowEnd :=
  ⟨exchThrow, (Option.some_get _).symm⟩

theorem exchThrow_hist : exchThrowEnd.hist =
    [.call 0 (.push 5), .lin 0 (.push 5) (.bool true), .ret 0 (.bool true), .call 1 .pop, .lin 1 .pop (.val (some 5)),
     .ret 1 (.val (some 5)), .call 0 (.push 6), .lin 0 (.push 6) (.bool true), .ret 0 (.bool true), .call 0 (.push 7),
     .lin 0 (.push 7) (.bool true), .ret 0 (.bool true), .call 1 .pop, .lin 1 .pop (.val (some 7)), .ret 1 .threw] := by
  decide

/-! ### C102: loops over a `channel` -/

/-- C102. However the threads are scheduled and whichever moves throw, a loop over a channel of thread `c`, the only one
that takes values out, is in one of three situations. It is running, nothing has thrown, and it has visited the values
inserted first, in order, all but those in the channel and one on the way. It has ended, the channel was closed, and it
has visited all values inserted, in order. Or something has thrown and the program has ended by `std::terminate`; until
then the loop had visited the values inserted first, in order. -/
theorem channel_loop {cfg : Verif.Channel.Cfg} {n : Nat} {s : Verif.Channel.St α}
    (h : Verif.Channel.Reachable cfg n s) {c : Nat} (hc : c < n)
    (hs : ∀ t' op x, .lin t' op (.val (some x)) ∈ s.hist → t' = c) (hops : ∀ op, .call c op ∈ s.hist → op = .pop)
    (faults : List Bool) :
    (∃ seen rest, channelLoop c s.hist faults = .running seen ∧ .threw ∉ fetches c s.hist faults ∧
      inserted s.hist = seen ++ rest ∧ rest.length ≤ cfg.cap + 1) ∨
    (channelLoop c s.hist faults = .ended (inserted s.hist) ∧ ∃ t', .lin t' .close .unit ∈ s.hist) ∨
    (∃ seen, channelLoop c s.hist faults = .terminated seen ∧ .threw ∈ fetches c s.hist faults ∧
      seen <+: inserted s.hist) := by
  obtain ⟨p, hp⟩ := (Verif.Channel.channel_linearizable h).2 c hc
  have hf := Verif.Channel.channel_fifo h
  rcases first_stop c s.hist faults with ⟨xs, h1, h2, h3⟩ | ⟨h1, r, h2, rest, xs, hh, hx, hnt, hk⟩
  · refine .inl ⟨xs, pending p ++ s.q, ?_, ?_, ?_, ?_⟩
    · rw [channelLoop, h1, iterate_running]
    · rw [h1]; simp
    · have := (hp.lossless h3).returned
      rw [removedBy_only hs, h2, someVals_map] at this
      rw [hf, this, List.append_assoc]
    · have a := pending_length p
      have b := (Verif.Channel.channel_capacity h).1
      rw [List.length_append]; omega
  · rw [hh] at hp
    obtain ⟨p1, hp1⟩ := prefix_run hp
    rcases hk with ⟨rfl, hk⟩ | ⟨hr, hk⟩
    · have hp1 := hp1.lossless (by simp [hnt])
      obtain ⟨hv, t', hcl⟩ := Verif.Channel.popResults_end_core h hs hops hh hp1
      rw [hx, someVals_map] at hv
      refine .inr (.inl ⟨?_, t', by rw [hh]; exact List.mem_append_left _ hcl⟩)
      rw [channelLoop, hk, iterate_ended, hv]
    · obtain ⟨lost, _, hl⟩ := taken_at_stop hp1 hnt hx
      refine .inr (.inr ⟨xs, ?_, by rw [hk]; simp, ?_⟩)
      · rw [channelLoop, hk, iterate_threw]; rfl
      · have := prefix_removed (h1 := h1) (h2 := .ret c r :: h2) (c := c) (by rw [← hh]; exact hs)
        rw [← hh, hl] at this
        rw [hf]
        exact ((List.prefix_append _ _).trans this).trans (List.prefix_append _ _)

/-- An exception ends the program after the loop has visited 5. -/
example : channelLoop 1 chanThrowEnd.hist [] = .terminated [5] := by decide

/-- The assignment of the first value throws. -/
example : channelLoop 1 chanThrowEnd.hist [true] = .terminated [] := by decide

example : inserted chanThrowEnd.hist = [5, 6, 7] := by decide

example : ∃ seen, channelLoop 1 chanThrowEnd.hist [] = .terminated seen ∧ seen <+: inserted chanThrowEnd.hist := by
  rcases channel_loop (c := 1) chanThrow_reach (by decide) (by rw [chanThrow_hist]; simp; omega)
    (by rw [chanThrow_hist]; simp) [] with ⟨_, _, h, _⟩ | ⟨h, _⟩ | ⟨seen, h, _, h'⟩
  · cases h
  · cases h
  · exact ⟨seen, h, h'⟩

/-- C102. Whatever the last `advance()` of a loop over a channel did, in particular when it threw, at most one value is
lost: if the loop had visited `seen` before and its thread has done nothing since, the values inserted are those visited,
at most one other, and those still in the channel. -/
theorem channel_loss {cfg : Verif.Channel.Cfg} {n : Nat} {s : Verif.Channel.St α}
    (h : Verif.Channel.Reachable cfg n s) {c : Nat} (hc : c < n)
    (hs : ∀ t' op x, .lin t' op (.val (some x)) ∈ s.hist → t' = c) {faults : List Bool} {seen : List α}
    {h1 h2 : List (Ev α)} {r : Res α} (hh : s.hist = h1 ++ .ret c r :: h2) (hq : ∀ e ∈ h2, e.tid ≠ c)
    (h3 : channelLoop c h1 faults = .running seen) :
    ∃ lost, lost.length ≤ 1 ∧ inserted s.hist = seen ++ lost ++ s.q := by
  obtain ⟨p, hp⟩ := (Verif.Channel.channel_linearizable h).2 c hc
  rw [hh] at hp
  obtain ⟨p1, hp1⟩ := prefix_run hp
  rcases first_stop c h1 faults with ⟨xs, e1, e2, e3⟩ | ⟨_, _, _, rest, xs, _, _, _, ⟨_, hk⟩ | ⟨_, hk⟩⟩
  · rw [channelLoop, e1, iterate_running] at h3
    cases h3
    obtain ⟨lost, hl, he⟩ := taken_at_stop hp1 e3 e2
    refine ⟨lost, hl, ?_⟩
    rw [Verif.Channel.channel_fifo h, ← he]
    congr 1
    rw [removedBy_only (fun t' op x hm => hs t' op x (by rw [hh]; exact List.mem_append_left _ hm))]
    conv => lhs; rw [hh]
    rw [removed_append]
    have : removed (.ret c r :: h2) = removed h2 := by rfl
    rw [this, removed_others hq (fun t' op x hm => hs t' op x (by rw [hh]; simp [hm])), List.append_nil]
  · rw [channelLoop, hk, iterate_ended] at h3; cases h3
  · rw [channelLoop, hk, iterate_threw] at h3; cases h3

/-- In `chanThrow`, 6 is lost and 7 is still in the channel. -/
example : ∃ lost, lost.length ≤ 1 ∧ inserted chanThrowEnd.hist = [5] ++ lost ++ chanThrowEnd.q :=
  channel_loss (h1 := chanThrowEnd.hist.take 14) (h2 := []) (r := .threw) (c := 1) (faults := []) chanThrow_reach
    (by decide) (by rw [chanThrow_hist]; simp; omega) (by decide) (by simp) (by decide)

example : chanThrowEnd.q = [7] := by decide

/-- C102. No exception ever leaves a loop over a channel, and it never dereferences an iterator at the end. -/
theorem channel_never_throws (c : Nat) (h : List (Ev α)) (faults : List Bool) :
    channelLoop c h faults ≠ .ub ∧ ∀ seen, channelLoop c h faults ≠ .threw seen := by
  rcases first_stop c h faults with ⟨xs, h1, _⟩ | ⟨h1, r, h2, rest, xs, _, _, _, ⟨_, hk⟩ | ⟨_, hk⟩⟩
  · rw [channelLoop, h1, iterate_running]; simp
  · rw [channelLoop, hk, iterate_ended]; simp
  · rw [channelLoop, hk, iterate_threw]; simp

/-- C102. "An exception thrown by moving an element reaches the code around the loop" does not hold for `channel`,
although `pop` lets it through: there is an execution in which the `pop` of an iterating thread throws and the program
ends. -/
theorem channel_exception_reaches_caller_refuted :
    ∃ (cfg : Verif.Channel.Cfg) (s : Verif.Channel.St Nat), Verif.Channel.Reachable cfg 2 s ∧
      .ret 1 .threw ∈ s.hist ∧ channelLoop 1 s.hist [] = .terminated [5] :=
  ⟨_, chanThrowEnd, chanThrow_reach, by decide, by decide⟩

/-! ### C102: loops over an `exchange_channel` -/

/-- The pops before one that returned nothing returned everything that was ever taken out. -/
theorem exchange_end {cfg : Verif.Exchange.Cfg} {n : Nat} {s : Verif.Exchange.St α}
    (h : Verif.Exchange.Reachable cfg n s) {c : Nat}
    (hs : ∀ t' op x, .lin t' op (.val (some x)) ∈ s.hist → t' = c) (hops : ∀ op, .call c op ∈ s.hist → op = .pop)
    {h1 h2 : List (Ev α)} (hh : s.hist = h1 ++ .ret c (.val none) :: h2) {p1}
    (hp1 : ThreadRun false c (h1 ++ [.ret c (.val none)]) p1) :
    someVals (popResults c h1) = removed s.hist ∧ ∃ t', .lin t' .close .unit ∈ s.hist := by
  rcases hp1.snoc_inv with ⟨hne, _⟩ | ⟨_, h', _⟩ | ⟨_, _, h', _⟩ | ⟨op', r1, r', h', _, hrun, hres⟩
  · exact absurd rfl hne
  · cases h'
  · cases h'
  · cases h'
    rcases hres with rfl | ⟨hl, _⟩
    swap
    · cases hl
    have hret := hrun.returned
    obtain ⟨hcall, g1, g2, rfl⟩ := Verif.Exchange.lined_origin hrun rfl
    have := hops op' (by rw [hh]; simp at hcall ⊢; tauto)
    subst this
    have hh2 : s.hist = g1 ++ .lin c .pop (.val none) :: (g2 ++ .ret c (.val none) :: h2) := by rw [hh]; simp
    obtain ⟨⟨t', hcl⟩, _, _, hrm⟩ := Verif.Exchange.exchange_pop_end h hh2
    rw [removedBy_only (fun t' op x hm => hs t' op x (by rw [hh]; exact List.mem_append_left _ hm))] at hret
    simp only [pending, List.append_nil] at hret
    refine ⟨?_, t', by rw [hh2]; exact List.mem_append_left _ hcl⟩
    rw [← hret]
    conv => rhs; rw [hh, removed_append]
    rw [removed_append, List.append_eq_nil_iff] at hrm
    rw [hrm.2, List.append_nil]

/-- C102. However the threads are scheduled and whichever moves throw, a loop over an exchange channel of thread `c`, the
only one that takes values out, is in one of three situations. It is running and nothing has thrown. It has ended, the
channel was closed, and it has visited every value that was ever taken out. Or something has thrown: then the exception
has left the loop if the elements' move constructor may throw, and otherwise (a move assignment threw) the program has
ended. In all cases it has visited values inserted, in order of insertion and each insertion at most once. -/
theorem exchange_loop {cfg : Verif.Exchange.Cfg} {n : Nat} {s : Verif.Exchange.St α}
    (h : Verif.Exchange.Reachable cfg n s) {c : Nat} (hc : c < n)
    (hs : ∀ t' op x, .lin t' op (.val (some x)) ∈ s.hist → t' = c) (hops : ∀ op, .call c op ∈ s.hist → op = .pop)
    (faults : List Bool) :
    ∃ seen, seen <+: removed s.hist ∧ seen.Sublist (inserted s.hist) ∧
      ((exchangeLoop cfg.moveThrow c s.hist faults = .running seen ∧ .threw ∉ fetches c s.hist faults) ∨
       (exchangeLoop cfg.moveThrow c s.hist faults = .ended seen ∧ seen = removed s.hist ∧
         ∃ t', .lin t' .close .unit ∈ s.hist) ∨
       (exchangeLoop cfg.moveThrow c s.hist faults = (if cfg.moveThrow then .threw seen else .terminated seen) ∧
         .threw ∈ fetches c s.hist faults)) := by
  obtain ⟨p, hp⟩ := (Verif.Exchange.exchange_linearizable h).2 c hc
  have hf := Verif.Exchange.exchange_at_most_once h
  have sub : ∀ {xs : List α}, xs <+: removed s.hist → xs.Sublist (inserted s.hist) := fun hx =>
    hx.sublist.trans ((List.sublist_append_left _ _).trans hf)
  rcases first_stop c s.hist faults with ⟨xs, h1, h2, h3⟩ | ⟨h1, r, h2, rest, xs, hh, hx, hnt, hk⟩
  · have hr := (hp.lossless h3).returned
    rw [removedBy_only hs, h2, someVals_map] at hr
    have hpre : xs <+: removed s.hist := by rw [hr]; exact List.prefix_append _ _
    refine ⟨xs, hpre, sub hpre, .inl ⟨?_, by rw [h1]; simp⟩⟩
    rw [exchangeLoop, h1, iterate_running]
  · rw [hh] at hp
    obtain ⟨p1, hp1⟩ := prefix_run hp
    rcases hk with ⟨rfl, hk⟩ | ⟨hr, hk⟩
    · have hp1 := hp1.lossless (by simp [hnt])
      obtain ⟨hv, hcl⟩ := exchange_end h hs hops hh hp1
      rw [hx, someVals_map] at hv
      subst hv
      refine ⟨_, List.prefix_refl _, sub (List.prefix_refl _), .inr (.inl ⟨?_, rfl, hcl⟩)⟩
      rw [exchangeLoop, hk, iterate_ended]
    · obtain ⟨lost, _, hl⟩ := taken_at_stop hp1 hnt hx
      have hpre : xs <+: removed s.hist := by
        have := prefix_removed (h1 := h1) (h2 := .ret c r :: h2) (c := c) (by rw [← hh]; exact hs)
        rw [← hh, hl] at this
        exact (List.prefix_append _ _).trans this
      refine ⟨xs, hpre, sub hpre, .inr (.inr ⟨?_, by rw [hk]; simp⟩)⟩
      rw [exchangeLoop, hk, iterate_threw]
      cases cfg.moveThrow <;> rfl

example : exchangeLoop true 1 exchThrowEnd.hist [] = .threw [5] := by decide

/-- A type whose move constructor does not throw but whose move assignment does. -/
example : exchangeLoop false 1 (exchThrowEnd.hist.take 14 ++ [.ret 1 (.val (some 7))]) [false, true] = .terminated [5] := by
  decide

example : ∃ seen, seen <+: removed exchThrowEnd.hist ∧ seen.Sublist (inserted exchThrowEnd.hist) ∧
    exchangeLoop true 1 exchThrowEnd.hist [] = .threw seen := by
  obtain ⟨seen, h1, h2, ⟨h, _⟩ | ⟨h, _⟩ | ⟨h, _⟩⟩ := exchange_loop (c := 1) exchThrow_reach (by decide)
    (by rw [exchThrow_hist]; simp; omega) (by rw [exchThrow_hist]; simp) []
  · cases h
  · cases h
  · exact ⟨seen, h1, h2, h⟩

/-- C102. Whatever the last `advance()` of a loop over an exchange channel did, in particular when it threw: if the loop
had visited `seen` before and its thread has done nothing since, at most one value was taken out besides those visited. -/
theorem exchange_loss {cfg : Verif.Exchange.Cfg} {n : Nat} {s : Verif.Exchange.St α}
    (h : Verif.Exchange.Reachable cfg n s) {c : Nat} (hc : c < n)
    (hs : ∀ t' op x, .lin t' op (.val (some x)) ∈ s.hist → t' = c) {faults : List Bool} {seen : List α}
    {h1 h2 : List (Ev α)} {r : Res α} (hh : s.hist = h1 ++ .ret c r :: h2) (hq : ∀ e ∈ h2, e.tid ≠ c)
    (h3 : exchangeLoop cfg.moveThrow c h1 faults = .running seen) :
    ∃ lost, lost.length ≤ 1 ∧ removed s.hist = seen ++ lost := by
  obtain ⟨p, hp⟩ := (Verif.Exchange.exchange_linearizable h).2 c hc
  rw [hh] at hp
  obtain ⟨p1, hp1⟩ := prefix_run hp
  rcases first_stop c h1 faults with ⟨xs, e1, e2, e3⟩ | ⟨_, _, _, rest, xs, _, _, _, ⟨_, hk⟩ | ⟨_, hk⟩⟩
  · rw [exchangeLoop, e1, iterate_running] at h3
    cases h3
    obtain ⟨lost, hl, he⟩ := taken_at_stop hp1 e3 e2
    refine ⟨lost, hl, ?_⟩
    rw [← he, removedBy_only (fun t' op x hm => hs t' op x (by rw [hh]; exact List.mem_append_left _ hm))]
    conv => lhs; rw [hh]
    rw [removed_append]
    have : removed (.ret c r :: h2) = removed h2 := by rfl
    rw [this, removed_others hq (fun t' op x hm => hs t' op x (by rw [hh]; simp [hm])), List.append_nil]
  · rw [exchangeLoop, hk, iterate_ended] at h3; cases h3
  · rw [exchangeLoop, hk, iterate_threw] at h3; cases h : cfg.moveThrow <;> simp [h] at h3

example : ∃ lost, lost.length ≤ 1 ∧ removed exchThrowEnd.hist = [5] ++ lost :=
  exchange_loss (h1 := exchThrowEnd.hist.take 14) (h2 := []) (r := .threw) (c := 1) (faults := []) exchThrow_reach
    (by decide) (by rw [exchThrow_hist]; simp; omega) (by decide) (by simp) (by decide)

/-- C102. Without exceptions these loops are those of C07 and C63. -/
theorem loops_agree (b : Bool) (c : Nat) (h : List (Ev α)) (hn : .ret c .threw ∉ h) (seen : List α) :
    iterate b seen (fetches c h []) = match loop seen (popResults c h) with
      | .running xs => .running xs
      | .ended xs => .ended xs
      | .ub => .ub := by
  induction h generalizing seen with
  | nil => rfl
  | cons e h ih =>
    have ih := ih (fun hm => hn (by simp [hm]))
    by_cases he : e.tid = c
    swap
    · rw [fetches_other he, show e :: h = [e] ++ h from rfl, popResults_append,
        (Verif.Channel.removedBy_other he).2, List.nil_append]
      exact ih seen
    cases e with
    | call => exact ih seen
    | lin => exact ih seen
    | ret t r =>
      simp only [Ev.tid] at he
      subst he
      cases r with
      | bool => exact ih seen
      | unit => exact ih seen
      | threw => simp at hn
      | val o =>
        cases o with
        | none =>
          simp [fetches, popResults, iterate, loop, Verif.Channel.Iter.advance, Verif.Channel.Iter.atEnd]
        | some x =>
          simp [fetches, popResults, iterate, loop, Verif.Channel.Iter.advance, Verif.Channel.Iter.atEnd,
            Verif.Channel.Iter.deref, ih]

example : iterate true [] (fetches 1 (chanThrowEnd.hist.take 14) []) = .running [5] := by decide

end Verif.IterThrow
