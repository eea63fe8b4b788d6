import Verif.Channel.Props

/-!
Iterating over a channel (C07) and order per producer (C06), for concurrent executions of the model.
-/
namespace Verif.Channel

variable {α : Type}

/-! ### Model of the iterator -/

/-- `channel::iterator` (channel.hpp:214-292): the look-ahead buffer `buf_` (channel.hpp:226). The pointer `chan_` is
left out, the loop below uses a single channel. -/
structure Iter (α : Type) where
  buf : Option α

/-- The constructor (channel.hpp:233-235, called by `begin()` 300-302) and `operator++` (channel.hpp:280-287): both are
`advance` (channel.hpp:228-230), which stores the result `r` of one call to `pop()`. -/
def Iter.advance (r : Option α) : Iter α := ⟨r⟩

/-- `operator==(std::default_sentinel_t)`, channel.hpp:289-291. -/
def Iter.atEnd (it : Iter α) : Bool := it.buf.isNone

/-- `operator*`, channel.hpp:264-270; `none` is undefined behaviour (dereferencing an empty optional). -/
def Iter.deref (it : Iter α) : Option α := it.buf

/-- Result of running a loop for some time: the elements its body saw and whether it has ended. `ub` if it dereferenced
an iterator at the end (channel.hpp:214-292). -/
inductive Loop (α : Type) where
  | running (seen : List α)
  | ended (seen : List α)
  | ub
  deriving DecidableEq, Repr

/-- `for (it = begin(); it != end(); ++it) body(*it);` given the results of the calls to `pop()` that have returned so
far, in order; `seen` are the elements visited before. Results after the loop has ended are not looked at (iterator channel.hpp:214-292, begin and
end channel.hpp:300-306). -/
def loop (seen : List α) : List (Option α) → Loop α
  | [] => .running seen
  | r :: rs =>
    let it := Iter.advance r
    if it.atEnd then .ended seen
    else match it.deref with
      | none => .ub
      | some x => loop (seen ++ [x]) rs

/-! ### Specification -/

/-- What the calls of thread `t` returned, in order (only meaningful for pops) (channel.hpp:179-194; part of the specification). -/
def popResults (t : Nat) : List (Ev α) → List (Option α)
  | [] => []
  | .ret t' (.val r) :: h => if t' = t then r :: popResults t h else popResults t h
  | _ :: h => popResults t h

/-- Values removed by thread `t`, in order (part of the specification of channel.hpp:179-212). -/
def removedBy (t : Nat) : List (Ev α) → List α
  | [] => []
  | .lin t' _ (.val (some x)) :: h => if t' = t then x :: removedBy t h else removedBy t h
  | _ :: h => removedBy t h

/-- Values inserted by thread `t`, in the order of its calls (part of the specification of channel.hpp:84-171). -/
def insertedBy (t : Nat) : List (Ev α) → List α
  | [] => []
  | .lin t' (.push v) (.bool true) :: h => if t' = t then v :: insertedBy t h else insertedBy t h
  | .lin t' (.tryPush v) (.bool true) :: h => if t' = t then v :: insertedBy t h else insertedBy t h
  | _ :: h => insertedBy t h

/-! ### Lemmas -/

theorem popResults_append (t : Nat) (h1 h2 : List (Ev α)) :
    popResults t (h1 ++ h2) = popResults t h1 ++ popResults t h2 := by
  fun_induction popResults t h1 <;> simp_all [popResults]

theorem removedBy_append (t : Nat) (h1 h2 : List (Ev α)) :
    removedBy t (h1 ++ h2) = removedBy t h1 ++ removedBy t h2 := by
  fun_induction removedBy t h1 <;> simp_all [removedBy]

theorem loop_of_somes (seen : List α) (xs : List α) (rs : List (Option α)) :
    loop seen (xs.map some ++ rs) = loop (seen ++ xs) rs := by
  induction xs generalizing seen with
  | nil => simp
  | cons x xs ih => simp [loop, Iter.advance, Iter.atEnd, Iter.deref, ih]

/-- The value a thread has taken out of the channel but not yet returned (channel.hpp:188-193, 206-211). -/
def pending : Phase α → List α
  | .lined _ (.val (some x)) => [x]
  | _ => []

/-- The values among results of `pop` (channel.hpp:179-194). -/
def someVals (rs : List (Option α)) : List α := rs.filterMap id

theorem removedBy_other {t : Nat} {e : Ev α} (h : e.tid ≠ t) : removedBy t [e] = [] ∧ popResults t [e] = [] := by
  cases e with
  | call => exact ⟨rfl, rfl⟩
  | lin t' op r =>
    simp [Ev.tid] at h
    refine ⟨?_, rfl⟩
    cases r with
    | val o => cases o <;> simp [removedBy, h]
    | _ => simp [removedBy]
  | ret t' r =>
    simp [Ev.tid] at h
    refine ⟨rfl, ?_⟩
    cases r <;> simp [popResults, h]

theorem ThreadRun.returned {t : Nat} {h : List (Ev α)} {p} (hr : ThreadRun false t h p) :
    removedBy t h = someVals (popResults t h) ++ pending p := by
  induction hr with
  | nil => rfl
  | other _ hne ih =>
    obtain ⟨a, b⟩ := removedBy_other hne
    rw [removedBy_append, popResults_append, a, b]; simpa using ih
  | call _ ih => rw [removedBy_append, popResults_append, ih]; simp [removedBy, popResults, pending]
  | @lin h op r _ ih =>
    rw [removedBy_append, popResults_append, ih]
    cases r with
    | val o => cases o <;> simp [removedBy, popResults, pending]
    | _ => simp [removedBy, popResults, pending]
  | @ret h op r _ ih =>
    rw [removedBy_append, popResults_append, ih]
    cases r with
    | val o => cases o <;> simp [removedBy, popResults, pending, someVals]
    | _ => simp [removedBy, popResults, pending]
  | retLost hl => cases hl

theorem removedBy_only {t : Nat} {h : List (Ev α)} (hs : ∀ t' op x, .lin t' op (.val (some x)) ∈ h → t' = t) :
    removedBy t h = removed h := by
  induction h with
  | nil => rfl
  | cons e h ih =>
    have ih := ih (fun t' op x hm => hs t' op x (by simp [hm]))
    cases e with
    | lin t' op r =>
      cases r with
      | val o =>
        cases o with
        | none => simp [removedBy, removed, ih]
        | some x =>
          have := hs t' op x (by simp)
          subst this
          simp [removedBy, removed, ih]
      | _ => simp [removedBy, removed, ih]
    | _ => simp [removedBy, removed, ih]

/-! ### C07 -/

/-- The state in the middle of `demo` in which thread 1 waits for a second value (example for channel.hpp:214-292). -/
def demoMid : St Nat := (run { cap := 1 } (init Nat 2) (demo.take 21)).get (by decide)

theorem demoMid_reach : Reachable { cap := 1 } 2 demoMid := ⟨demo.take 21, (Option.some_get _).symm⟩

theorem demoMid_hist : demoMid.hist =
    [.call 1 .pop, .call 0 (.push 5), .lin 0 (.push 5) (.bool true), .ret 0 (.bool true), .lin 1 .pop (.val (some 5)),
     .ret 1 (.val (some 5)), .call 1 .pop] := by decide

/-- C07. Suppose thread `c` is the only one that takes values out and runs `for (auto &x : chan)`: all its calls are
`pop`s. Then at any time, if none of its pops has returned "nothing" yet, the loop is running and has visited exactly the
first values inserted, in order; the values it has not visited are the one it is about to receive and those still in the
channel. -/
theorem channel_iterate_running {cfg : Cfg} (hm : cfg.moveThrow = false) {n : Nat} {s : St α} (h : Reachable cfg n s)
    {c : Nat} (hc : c < n) (hs : ∀ t' op x, .lin t' op (.val (some x)) ∈ s.hist → t' = c)
    (hn : none ∉ popResults c s.hist) :
    ∃ seen rest, loop [] (popResults c s.hist) = .running seen ∧ inserted s.hist = seen ++ rest ∧
      rest.length ≤ cfg.cap + 1 := by
  obtain ⟨p, hp⟩ := (channel_linearizable h).2 c hc
  rw [hm] at hp
  have h1 := hp.returned
  rw [removedBy_only hs] at h1
  have h2 := channel_fifo h
  have h3 := (channel_capacity h).1
  have h4 : popResults c s.hist = (someVals (popResults c s.hist)).map some := by
    generalize popResults c s.hist = l at hn
    induction l with
    | nil => rfl
    | cons a l ih =>
      cases a with
      | none => simp at hn
      | some a => simp [someVals] at hn ⊢; exact ih (by simpa using hn)
  refine ⟨someVals (popResults c s.hist), pending p ++ s.q, ?_, ?_, ?_⟩
  · rw [h4]
    have := loop_of_somes [] (someVals (popResults c s.hist)) []
    simp only [List.append_nil, List.nil_append] at this
    rw [this]
    rw [← h4]; rfl
  · rw [h2, h1, List.append_assoc]
  · have : (pending p).length ≤ 1 := by
      cases p with
      | lined op r =>
        cases r with
        | val o => cases o <;> simp [pending]
        | _ => simp [pending]
      | _ => simp [pending]
    rw [List.length_append]; omega

/-- A state in the middle of `demo`: thread 1 has received 5 and waits for more. -/
example : ∃ seen rest, loop [] (popResults 1 demoMid.hist) = .running seen ∧ inserted demoMid.hist = seen ++ rest ∧
    rest.length ≤ 1 + 1 :=
  channel_iterate_running rfl demoMid_reach (by decide) (by rw [demoMid_hist]; simp +contextual) (by rw [demoMid_hist]; decide)

/-- A thread whose calls have not ended with an exception returns what its calls took. -/
theorem ThreadRun.lossless {l : Bool} {t : Nat} {h : List (Ev α)} {p} (hr : ThreadRun l t h p)
    (hn : .ret t .threw ∉ h) : ThreadRun false t h p := by
  induction hr with
  | nil => exact .nil
  | other _ hne ih => exact .other (ih (fun hm => hn (List.mem_append_left _ hm))) hne
  | call _ ih => exact .call (ih (fun hm => hn (List.mem_append_left _ hm)))
  | lin _ ih => exact .lin (ih (fun hm => hn (List.mem_append_left _ hm)))
  | ret _ ih => exact .ret (ih (fun hm => hn (List.mem_append_left _ hm)))
  | retLost => simp at hn

/-- After a pop returned nothing, the pops that returned before returned everything there ever was. -/
theorem popResults_end_core {cfg : Cfg} {n : Nat} {s : St α} (h : Reachable cfg n s)
    {c : Nat} (hs : ∀ t' op x, .lin t' op (.val (some x)) ∈ s.hist → t' = c)
    (hops : ∀ op, .call c op ∈ s.hist → op = .pop) {h1 h2 : List (Ev α)}
    (hh : s.hist = h1 ++ .ret c (.val none) :: h2) {p1}
    (hp1 : ThreadRun false c (h1 ++ [.ret c (.val none)]) p1) :
    someVals (popResults c h1) = inserted s.hist ∧ (∃ t', .lin t' .close .unit ∈ h1) := by
  rcases hp1.snoc_inv with ⟨hne, _⟩ | ⟨_, h', _⟩ | ⟨_, _, h', _⟩ | ⟨op', r1, r', h', _, hrun, hres⟩
  · exact absurd rfl hne
  · cases h'
  · cases h'
  · cases h'
    rcases hres with rfl | ⟨hl, _⟩
    swap
    · cases hl
    -- the `lin` event of this call
    have key : ∀ {h : List (Ev α)} {q op r}, ThreadRun false c h q → q = .lined op r →
        (.call c op ∈ h) ∧ ∃ g1 g2, h = g1 ++ .lin c op r :: g2 := by
      intro h q op r hr hq
      induction hr with
      | nil => cases hq
      | other _ _ ih =>
        obtain ⟨a, g1, g2, rfl⟩ := ih hq
        exact ⟨List.mem_append_left _ a, g1, g2 ++ [_], by simp; rfl⟩
      | call _ _ => cases hq
      | @lin h op' r' hr ih =>
        cases hq
        refine ⟨?_, h, [], rfl⟩
        have key2 : ∀ {h : List (Ev α)} {q op}, ThreadRun false c h q → q = .called op → .call c op ∈ h := by
          intro h q op hr hq
          induction hr with
          | other _ _ ih => exact List.mem_append_left _ (ih hq)
          | call _ _ => cases hq; simp
          | _ => cases hq
        exact List.mem_append_left _ (key2 hr rfl)
      | ret _ _ => cases hq
      | retLost hl _ => cases hl
    obtain ⟨hcall, g1, g2, rfl⟩ := key hrun rfl
    have := hops op' (by rw [hh]; simp at hcall ⊢; tauto)
    subst this
    have hh2 : s.hist = g1 ++ .lin c .pop (.val none) :: (g2 ++ .ret c (.val none) :: h2) := by rw [hh]; simp
    obtain ⟨⟨t', hcl⟩, he, hi, hrm⟩ := channel_pop_end h hh2
    refine ⟨?_, t', by simp [hcl]⟩
    have hret := hrun.returned
    rw [removedBy_only (fun t' op x hm => hs t' op x (by rw [hh]; exact List.mem_append_left _ hm))] at hret
    simp only [pending, List.append_nil] at hret
    rw [← hret, hh2, inserted_append, removed_append, he]
    have e1 : inserted (.lin c .pop (.val none) :: (g2 ++ .ret c (.val none) :: h2)) = [] := by
      simpa [inserted] using hi
    have e2 : removed (.lin c Op.pop (.val none) :: g2) = [] := by
      rw [removed_append] at hrm
      simp only [List.append_eq_nil_iff] at hrm
      simpa [removed] using hrm.1
    rw [e1, e2]

/-- After a pop returned nothing, the pops that returned before returned everything there ever was. -/
theorem popResults_end {cfg : Cfg} (hm : cfg.moveThrow = false) {n : Nat} {s : St α} (h : Reachable cfg n s)
    {c : Nat} (hc : c < n) (hs : ∀ t' op x, .lin t' op (.val (some x)) ∈ s.hist → t' = c)
    (hops : ∀ op, .call c op ∈ s.hist → op = .pop) {h1 h2 : List (Ev α)}
    (hh : s.hist = h1 ++ .ret c (.val none) :: h2) :
    someVals (popResults c h1) = inserted s.hist ∧ (∃ t', .lin t' .close .unit ∈ h1) := by
  obtain ⟨p, hp⟩ := (channel_linearizable h).2 c hc
  rw [hm, hh] at hp
  have hp' : ThreadRun false c ((h1 ++ [.ret c (.val none)]) ++ h2) p := by simpa using hp
  obtain ⟨p1, hp1⟩ := hp'.prefix
  exact popResults_end_core h hs hops hh hp1

/-- C07. When a pop of the iterating thread has returned "nothing", the loop has ended, the channel was closed, and the
loop has visited exactly the values ever inserted, in order of insertion. -/
theorem channel_iterate_ended {cfg : Cfg} (hm : cfg.moveThrow = false) {n : Nat} {s : St α} (h : Reachable cfg n s)
    {c : Nat} (hc : c < n) (hs : ∀ t' op x, .lin t' op (.val (some x)) ∈ s.hist → t' = c)
    (hops : ∀ op, .call c op ∈ s.hist → op = .pop) (hn : none ∈ popResults c s.hist) :
    loop [] (popResults c s.hist) = .ended (inserted s.hist) ∧ ∃ t', .lin t' .close .unit ∈ s.hist := by
  -- split at the first return of nothing
  have split : ∀ (h : List (Ev α)), none ∈ popResults c h →
      ∃ h1 h2, h = h1 ++ .ret c (.val none) :: h2 ∧ none ∉ popResults c h1 := by
    intro h
    induction h with
    | nil => simp [popResults]
    | cons e h ih =>
      intro hn
      by_cases he : e = .ret c (.val none)
      · exact ⟨[], h, by rw [he]; rfl, by simp [popResults]⟩
      · have a : popResults c (e :: h) = popResults c [e] ++ popResults c h := popResults_append c [e] h
        have b : none ∉ popResults c [e] := by
          intro hb
          apply he
          cases e with
          | ret t' r =>
            cases r <;> simp [popResults] at hb
            obtain ⟨rfl, rfl⟩ := hb; rfl
          | _ => simp [popResults] at hb
        rw [a, List.mem_append] at hn
        obtain ⟨h1, h2, rfl, h3⟩ := ih (hn.resolve_left b)
        refine ⟨e :: h1, h2, rfl, ?_⟩
        rw [show e :: h1 = [e] ++ h1 from rfl, popResults_append, List.mem_append]
        tauto
  obtain ⟨h1, h2, hh, hn1⟩ := split _ hn
  obtain ⟨hv, t', hcl⟩ := popResults_end hm h hc hs hops hh
  refine ⟨?_, t', by rw [hh]; exact List.mem_append_left _ hcl⟩
  have h4 : popResults c h1 = (someVals (popResults c h1)).map some := by
    generalize popResults c h1 = l at hn1
    induction l with
    | nil => rfl
    | cons a l ih =>
      cases a with
      | none => simp at hn1
      | some a => simp [someVals] at hn1 ⊢; exact ih (by simpa using hn1)
  have hl : loop [] (popResults c s.hist) =
      loop [] ((inserted s.hist).map some ++ none :: popResults c h2) := by
    rw [← hv, ← h4, hh, popResults_append]; simp [popResults]
  rw [hl, loop_of_somes]
  simp [loop, Iter.advance, Iter.atEnd]

/-- `demo` is an execution with thread 1 iterating: it ends having visited `[5]`. -/
example : loop [] (popResults 1 demoEnd.hist) = .ended [5] :=
  (channel_iterate_ended rfl demo_reach (by decide) (by rw [demo_hist]; simp +contextual) (by rw [demo_hist]; simp)
    (by rw [demo_hist]; decide)).1

/-- C07. The loop never dereferences an iterator at the end, whatever the pops return. -/
theorem channel_iterate_safe (rs : List (Option α)) (seen : List α) : loop seen rs ≠ .ub := by
  induction rs generalizing seen with
  | nil => simp [loop]
  | cons r rs ih =>
    cases r with
    | none => simp [loop, Iter.advance, Iter.atEnd]
    | some x => simp [loop, Iter.advance, Iter.atEnd, Iter.deref]; exact ih _

example : loop [] [some 1, some 2, none, some 3] = .ended [1, 2] := by decide

/-! ### C06: order per producer -/

theorem insertedBy_filter {t : Nat} {P : α → Bool} {h : List (Ev α)}
    (hP : ∀ t' v r, (.lin t' (.push v) r ∈ h ∨ .lin t' (.tryPush v) r ∈ h) → (P v = true ↔ t' = t)) :
    (inserted h).filter P = insertedBy t h := by
  induction h with
  | nil => rfl
  | cons e h ih =>
    have ih := ih (fun t' v r hm => hP t' v r (by simp; tauto))
    have hc : ∀ t' v, (.lin t' (.push v) (.bool true) = e ∨ .lin t' (.tryPush v) (.bool true) = e) →
        (P v = true ↔ t' = t) := fun t' v hm => hP t' v (.bool true) (by
          rcases hm with h | h <;> simp [h])
    unfold inserted insertedBy
    split
    · contradiction
    · rename_i heq; simp only [List.cons.injEq] at heq; obtain ⟨rfl, rfl⟩ := heq
      have := hc _ _ (.inl rfl)
      by_cases ht : P ‹α› = true <;> simp_all
    · rename_i heq; simp only [List.cons.injEq] at heq; obtain ⟨rfl, rfl⟩ := heq
      have := hc _ _ (.inr rfl)
      by_cases ht : P ‹α› = true <;> simp_all
    · rename_i heq; simp only [List.cons.injEq] at heq; obtain ⟨rfl, rfl⟩ := heq
      split <;> simp_all

/-- C06. If `P` recognises the values pushed by thread `t`, then the values recognised by `P` come out in the order in
which `t` pushed them, whoever pops them. -/
theorem channel_producer_order {cfg : Cfg} {n : Nat} {s : St α} (h : Reachable cfg n s) {t : Nat} {P : α → Bool}
    (hP : ∀ t' v r, (.lin t' (.push v) r ∈ s.hist ∨ .lin t' (.tryPush v) r ∈ s.hist) → (P v = true ↔ t' = t)) :
    (removed s.hist).filter P <+: insertedBy t s.hist := by
  rw [← insertedBy_filter hP, channel_fifo h, List.filter_append]
  exact List.prefix_append _ _

example : (removed demoEnd.hist).filter (· < 9) <+: insertedBy 0 demoEnd.hist :=
  channel_producer_order demo_reach (by rw [demo_hist]; simp; omega)

end Verif.Channel
