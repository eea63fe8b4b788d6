import Verif.Exchange.Props
import Verif.Channel.Iter

/-!
Iterating over an exchange channel (C63). `exchange_channel::iterator` (exchange_channel.hpp:151-234) has the same
members with the same bodies as `channel::iterator` (channel.hpp:214-292), so the model of the loop,
`Verif.Channel.loop`, is shared: the constructor (exchange_channel.hpp:170-173) and `operator++` (220-227) are `advance`
(168-170), `operator==` is 229-231, `operator*` 203-209.
-/
namespace Verif.Exchange

open Verif.Channel (Op Res Ev Act Phase ThreadRun inserted removed inserted_append removed_append loop popResults
  removedBy removedBy_only someVals pending loop_of_somes popResults_append)

variable {α : Type}

/-! ### Lemmas -/

theorem popResults_somes {c : Nat} {h : List (Ev α)} (hn : none ∉ popResults c h) :
    popResults c h = (someVals (popResults c h)).map some := by
  generalize popResults c h = l at hn
  induction l with
  | nil => rfl
  | cons a l ih =>
    cases a with
    | none => simp at hn
    | some a => simp [someVals] at hn ⊢; exact ih (by simpa using hn)

/-- Splitting a history at the first time a thread got nothing. -/
theorem popResults_split {c : Nat} (h : List (Ev α)) (hn : none ∈ popResults c h) :
    ∃ h1 h2, h = h1 ++ .ret c (.val none) :: h2 ∧ none ∉ popResults c h1 := by
  induction h with
  | nil => simp [popResults] at hn
  | cons e h ih =>
    by_cases he : e = .ret c (.val none)
    · exact ⟨[], h, by rw [he]; rfl, by simp [popResults]⟩
    · have a : popResults c (e :: h) = popResults c [e] ++ popResults c h := popResults_append c [e] h
      have b : none ∉ popResults c [e] := by
        intro hb
        apply he
        cases e with
        | ret t' r =>
          cases r <;> simp [popResults] at hb
          obtain ⟨rfl, rfl⟩ := hb; rfl
        | _ => simp [popResults] at hb
      rw [a, List.mem_append] at hn
      obtain ⟨h1, h2, rfl, h3⟩ := ih (hn.resolve_left b)
      refine ⟨e :: h1, h2, rfl, ?_⟩
      rw [show e :: h1 = [e] ++ h1 from rfl, popResults_append, List.mem_append]
      tauto

/-- The effect of a call whose result is about to be returned, and the call itself, are in the history. -/
theorem lined_origin {c : Nat} {h : List (Ev α)} {q : Phase α} {op : Op α} {r : Res α} (hr : ThreadRun false c h q)
    (hq : q = .lined op r) : (.call c op ∈ h) ∧ ∃ g1 g2, h = g1 ++ .lin c op r :: g2 := by
  have key2 : ∀ {h : List (Ev α)} {q op}, ThreadRun false c h q → q = .called op → .call c op ∈ h := by
    intro h q op hr hq
    induction hr with
    | other _ _ ih => exact List.mem_append_left _ (ih hq)
    | call _ _ => cases hq; simp
    | _ => cases hq
  induction hr with
  | nil => cases hq
  | other _ _ ih =>
    obtain ⟨a, g1, g2, rfl⟩ := ih hq
    exact ⟨List.mem_append_left _ a, g1, g2 ++ [_], by simp; rfl⟩
  | call _ _ => cases hq
  | @lin h op' r' hr ih =>
    cases hq
    exact ⟨List.mem_append_left _ (key2 hr rfl), h, [], rfl⟩
  | ret _ _ => cases hq
  | retLost hl _ => cases hl

/-- Without exceptions, the last value removed or still there is the last value inserted. -/
theorem Explains.getLast {h : List (Ev α)} {st} (he : Explains h st) (hn : ∀ t v, Ev.lin t (.push v) .threw ∉ h) :
    (removed h ++ st.1.toList).getLast? = (inserted h).getLast? := by
  induction he with
  | nil => simp [removed, inserted]
  | call _ ih =>
    have := ih (fun t v hm => hn t v (by simp [hm]))
    simpa [inserted_append, removed_append, inserted, removed] using this
  | ret _ ih =>
    have := ih (fun t v hm => hn t v (by simp [hm]))
    simpa [inserted_append, removed_append, inserted, removed] using this
  | lin _ ha ih =>
    have := ih (fun t v hm => hn t v (by simp [hm]))
    cases ha <;> simp [inserted_append, removed_append, inserted, removed] at this hn ⊢ <;>
      first | exact this | (exact absurd rfl ((hn _ _).2 rfl))

theorem no_push_throws {cfg : Cfg} (hc : cfg.ctorThrow = false) {n : Nat} {s : St α} (h : Reachable cfg n s) :
    ∀ t' v', Ev.lin t' (.push v') .threw ∉ s.hist := by
  refine reach_ind (P := fun s => ∀ t' v', Ev.lin t' (.push v') .threw ∉ s.hist) (by simp [init]) ?_ h
  intro s s' hi hs
  cases hs with
  | loc hp hl =>
    intro t op hmem
    rcases List.mem_append.mp hmem with hmem | hmem
    · exact hi t op hmem
    · clear hp
      generalize s.slot = q, s.closed = c, s.owner = o at hl
      cases hl <;> simp_all
  | _ => exact hi

/-! ### C63 -/

/-- C63. Suppose thread `c` is the only one that takes values out and runs `for (auto &x : chan)`. While none of its pops
has returned "nothing", the loop is running, and the values it has visited are among the values inserted, in order of
insertion and each insertion visited at most once. -/
theorem exchange_iterate_running {cfg : Cfg} (hm : cfg.moveThrow = false) {n : Nat} {s : St α} (h : Reachable cfg n s)
    {c : Nat} (hc : c < n) (hs : ∀ t' op x, .lin t' op (.val (some x)) ∈ s.hist → t' = c)
    (hn : none ∉ popResults c s.hist) :
    ∃ seen, loop [] (popResults c s.hist) = .running seen ∧ seen.Sublist (inserted s.hist) := by
  obtain ⟨p, hp⟩ := (exchange_linearizable h).2 c hc
  rw [hm] at hp
  have h1 := hp.returned
  rw [removedBy_only hs] at h1
  have h2 := exchange_at_most_once h
  refine ⟨someVals (popResults c s.hist), ?_, ?_⟩
  · have := loop_of_somes [] (someVals (popResults c s.hist)) []
    simp only [List.append_nil, List.nil_append] at this
    rw [popResults_somes hn, this, ← popResults_somes hn]; rfl
  · rw [h1, List.append_assoc] at h2
    exact (List.sublist_append_left _ _).trans h2

example : ∃ seen, loop [] (popResults 1 demoMid.hist) = .running seen ∧ seen.Sublist (inserted demoMid.hist) :=
  exchange_iterate_running rfl demoMid_reach (by decide) (by rw [demoMid_hist]; simp) (by rw [demoMid_hist]; decide)

/-- C63. When a pop of the iterating thread has returned "nothing", the loop has ended and the channel was closed; the
loop visited values among the inserted ones, in order of insertion and each insertion at most once. -/
theorem exchange_iterate_ended {cfg : Cfg} (hm : cfg.moveThrow = false) {n : Nat} {s : St α} (h : Reachable cfg n s)
    {c : Nat} (hc : c < n) (hs : ∀ t' op x, .lin t' op (.val (some x)) ∈ s.hist → t' = c)
    (hops : ∀ op, .call c op ∈ s.hist → op = .pop) (hn : none ∈ popResults c s.hist) :
    ∃ seen, loop [] (popResults c s.hist) = .ended seen ∧ seen.Sublist (inserted s.hist) ∧ seen = removed s.hist ∧
      ∃ t', .lin t' .close .unit ∈ s.hist := by
  obtain ⟨h1, h2, hh, hn1⟩ := popResults_split _ hn
  obtain ⟨p, hp⟩ := (exchange_linearizable h).2 c hc
  rw [hm, hh] at hp
  have hp' : ThreadRun false c ((h1 ++ [.ret c (.val none)]) ++ h2) p := by simpa using hp
  obtain ⟨p1, hp1⟩ := hp'.prefix
  rcases hp1.snoc_inv with ⟨hne, _⟩ | ⟨_, h', _⟩ | ⟨_, _, h', _⟩ | ⟨op', r1, r', h', _, hrun, hres⟩
  · exact absurd rfl hne
  · cases h'
  · cases h'
  · cases h'
    rcases hres with rfl | ⟨hl, _⟩
    swap
    · cases hl
    have h4 := popResults_somes hn1
    have hret := hrun.returned
    obtain ⟨hcall, g1, g2, rfl⟩ := lined_origin hrun rfl
    have := hops op' (by rw [hh]; simp at hcall ⊢; tauto)
    subst this
    have hh2 : s.hist = g1 ++ .lin c .pop (.val none) :: (g2 ++ .ret c (.val none) :: h2) := by rw [hh]; simp
    obtain ⟨⟨t', hcl⟩, _, _, hrm⟩ := exchange_pop_end h hh2
    rw [removedBy_only (fun t' op x hm => hs t' op x (by rw [hh]; exact List.mem_append_left _ hm))] at hret
    simp only [pending, List.append_nil] at hret
    have hall : removed s.hist = removed (g1 ++ .lin c .pop (.val none) :: g2) := by
      rw [hh, removed_append]
      rw [removed_append, List.append_eq_nil_iff] at hrm
      rw [hrm.2, List.append_nil]
    refine ⟨removed s.hist, ?_, ?_, rfl, t', by rw [hh2]; exact List.mem_append_left _ hcl⟩
    · have hl : popResults c s.hist = (removed s.hist).map some ++ none :: popResults c h2 := by
        rw [hall, hret, ← h4, hh, popResults_append]; simp [popResults]
      rw [hl, loop_of_somes]
      simp [loop, Verif.Channel.Iter.advance, Verif.Channel.Iter.atEnd]
    · exact (List.sublist_append_left _ _).trans (exchange_at_most_once h)

/-- `demo` is an execution with thread 1 iterating. -/
example : loop [] (popResults 1 demoEnd.hist) = .ended [2] := by
  obtain ⟨seen, h, _, hr, _⟩ := exchange_iterate_ended (c := 1) rfl demo_reach (by decide)
    (by rw [demo_hist]; simp +contextual) (by rw [demo_hist]; simp) (by rw [demo_hist]; decide)
  have : removed demoEnd.hist = [2] := by decide
  rw [h, hr, this]

/-- C63. If constructing elements does not throw, a loop that has ended has visited the last value inserted as its last
value: a consumer that skips outdated values always ends up with the newest one. -/
theorem exchange_iterate_newest {cfg : Cfg} (hct : cfg.ctorThrow = false) (hm : cfg.moveThrow = false) {n : Nat}
    {s : St α} (h : Reachable cfg n s)
    {c : Nat} (hc : c < n) (hs : ∀ t' op x, .lin t' op (.val (some x)) ∈ s.hist → t' = c)
    (hops : ∀ op, .call c op ∈ s.hist → op = .pop) (hn : none ∈ popResults c s.hist) :
    ∃ seen, loop [] (popResults c s.hist) = .ended seen ∧ seen.getLast? = (inserted s.hist).getLast? := by
  obtain ⟨seen, h1, _, h2, _⟩ := exchange_iterate_ended hm h hc hs hops hn
  refine ⟨seen, h1, ?_⟩
  subst h2
  have hl := (explains_reach h).getLast (no_push_throws hct h)
  obtain ⟨h1', h2', hh, _⟩ := popResults_split _ hn
  obtain ⟨p, hp⟩ := (exchange_linearizable h).2 c hc
  rw [hm, hh] at hp
  have hp' : ThreadRun false c ((h1' ++ [.ret c (.val none)]) ++ h2') p := by simpa using hp
  obtain ⟨p1, hp1⟩ := hp'.prefix
  rcases hp1.snoc_inv with ⟨hne, _⟩ | ⟨_, h', _⟩ | ⟨_, _, h', _⟩ | ⟨op', r1, r', h', _, hrun, hres⟩
  · exact absurd rfl hne
  · cases h'
  · cases h'
  · cases h'
    rcases hres with rfl | ⟨hl', _⟩
    swap
    · cases hl'
    obtain ⟨hcall, g1, g2, rfl⟩ := lined_origin hrun rfl
    have := hops op' (by rw [hh]; simp at hcall ⊢; tauto)
    subst this
    have hh2 : s.hist = g1 ++ .lin c .pop (.val none) :: (g2 ++ .ret c (.val none) :: h2') := by rw [hh]; simp
    obtain ⟨_, he, hi, hrm⟩ := exchange_pop_end h hh2
    have hl2 := he.getLast (fun t v hm => no_push_throws hct h t v (by rw [hh2]; exact List.mem_append_left _ hm))
    simp only [Option.toList_none, List.append_nil] at hl2
    have e1 : removed s.hist = removed g1 := by
      rw [hh2, removed_append]; simp only [removed, hrm, List.append_nil]
    have e2 : inserted s.hist = inserted g1 := by
      rw [hh2, inserted_append]; simp only [inserted, hi, List.append_nil]
    rw [e1, e2, hl2]

example : ∃ seen, loop [] (popResults 1 demoEnd.hist) = .ended seen ∧ seen.getLast? = (inserted demoEnd.hist).getLast? :=
  exchange_iterate_newest rfl rfl demo_reach (by decide)
    (by rw [demo_hist]; simp +contextual) (by rw [demo_hist]; simp) (by rw [demo_hist]; decide)

end Verif.Exchange
