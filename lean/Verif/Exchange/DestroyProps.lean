import Verif.Channel.DestroyProps
import Verif.Exchange.Destroy

/-! When an exchange channel may be destroyed (C109). -/
namespace Verif.Exchange

open Verif.Channel (Op Res Ev Act isCall inCall closeCalls closeDone endSeen steps lt_of_getElem? getElem?_set' countP_set')

variable {α : Type}

theorem touch_none {pc : PC α} : touch pc = none ↔ Clear pc := by
  cases pc <;> simp [touch, Clear]

/-- The next action from a position only concerns the thread itself: with any other value, flag and owner of the mutex
the same happens to it, and it changes nothing of them and of the other threads (specification of
exchange_channel.hpp:53-149). -/
def Private (pc : PC α) : Prop :=
  ∀ (s : St α) (t : Nat) (w : Option Nat) (q : Option α) (c : Bool) (o : Option Nat),
    (stepAt { s with slot := q, closed := c, owner := o } t w pc =
      (stepAt s t w pc).map (fun s' => { s' with slot := q, closed := c, owner := o })) ∧
    ∀ s', stepAt s t w pc = some s' → s'.slot = s.slot ∧ s'.closed = s.closed ∧ s'.owner = s.owner ∧
      ∀ u, u ≠ t → s'.pcs[u]? = s.pcs[u]?

theorem private_of_clear {pc : PC α} (h : Clear pc) : Private pc := by
  intro s t w q c o
  rcases h with rfl | ⟨op, r, rfl⟩
  · simp [stepAt]
  · refine ⟨rfl, ?_⟩
    rintro s' hs
    simp only [stepAt, St.goto, St.log, Option.some.injEq] at hs
    subst hs
    exact ⟨rfl, rfl, rfl, fun u hu => List.getElem?_set_ne (Ne.symm hu)⟩

/-- **C109**: `Clear` is about what the code does: a thread is clear exactly if it neither holds the mutex nor sleeps and the
next thing it does only concerns itself. -/
theorem exchange_clear_iff {pc : PC α} :
    Clear pc ↔ Private pc ∧ pc.holds = false ∧ pc.asleep = false := by
  constructor
  · intro h
    refine ⟨private_of_clear h, ?_, ?_⟩
    · rcases h with rfl | ⟨_, _, rfl⟩ <;> rfl
    · rcases h with rfl | ⟨_, _, rfl⟩ <;> rfl
  · rintro ⟨hp, hh, ha⟩
    have flag := fun (w : Option Nat) => (hp ⟨none, false, none, [pc], []⟩ 0 w none true none).1
    have lock := fun (w : Option Nat) => (hp ⟨none, false, none, [pc], []⟩ 0 w none false (some 0)).1
    have oth := fun (pc' : PC α) => (hp ⟨none, false, none, [pc, pc'], []⟩ 0 (some 1) none false none).2
    cases pc <;> first
      | exact .inl rfl
      | exact .inr ⟨_, _, rfl⟩
      | (exfalso; simp [PC.holds] at hh; done)
      | (exfalso; simp [PC.asleep] at ha; done)
      | (exfalso; simpa [stepAt, acquire, St.goto, St.log] using lock none)
      | (exfalso; simpa [stepAt, acquire, St.goto, St.log] using flag none)
      | skip
    case sNotify op => exact absurd ((oth .pSleep _ rfl).2.2.2 1 (by decide)) (by simp [St.goto])
    case cNotify => exact absurd ((oth .pSleep _ rfl).2.2.2 1 (by decide)) (by simp [St.goto, wake])

example : Private (PC.done (.push 5) (.bool true)) ∧ ¬ Private (PC.cNotify : PC Nat) := by
  refine ⟨(exchange_clear_iff.mp (.inr ⟨_, _, rfl⟩)).1, fun h => ?_⟩
  have := exchange_clear_iff.mpr ⟨h, rfl, rfl⟩
  simp [Clear] at this

theorem clear_next {cfg : Cfg} {s s' : St α} {a : Act α} (h : ∀ pc ∈ s.pcs, Clear pc) (ha : isCall a = false)
    (hn : next cfg s a = some s') : ∀ pc ∈ s'.pcs, Clear pc := by
  have key : ∀ (t : Nat) (pc' : PC α) (s1 : St α), Clear pc' → s1.pcs = s.pcs.set t pc' → ∀ pc ∈ s1.pcs, Clear pc := by
    intro t pc' s1 hc he pc hpc
    rw [he] at hpc
    rcases List.mem_or_eq_of_mem_set hpc with h1 | rfl
    · exact h _ h1
    · exact hc
  cases a with
  | call t op => simp [isCall] at ha
  | step t w =>
    simp only [next] at hn
    split at hn
    · rename_i pc hp
      rcases h _ (List.mem_of_getElem? hp) with rfl | ⟨op, r, rfl⟩
      · simp [stepAt] at hn
      · simp only [stepAt, Option.some.injEq] at hn; subst hn
        exact key t .idle _ (.inl rfl) rfl
    · cases hn
  | throw t =>
    simp only [next] at hn
    split at hn
    · rename_i pc hp
      rcases h _ (List.mem_of_getElem? hp) with rfl | ⟨op, r, rfl⟩
      · simp [throwAt] at hn
      · simp [throwAt] at hn
    · cases hn
  | spurious t =>
    simp only [next] at hn
    split at hn
    · rename_i hp; rcases h _ (List.mem_of_getElem? hp) with h | ⟨_, _, h⟩ <;> cases h
    · cases hn
  | stale t =>
    simp only [next] at hn
    split at hn
    · rename_i hp; rcases h _ (List.mem_of_getElem? hp) with h | ⟨_, _, h⟩ <;> cases h
    · cases hn

/-- When every thread is clear, an action is undefined in no case and leaves every thread clear. -/
theorem clear_gone {cfg : Cfg} {s : St α} {a : Act α} {l : Life α} (h : ∀ pc ∈ s.pcs, Clear pc)
    (ha : isCall a = false) (hn : nextGone cfg s a = some l) : ∃ s', l = .gone s' ∧ ∀ pc ∈ s'.pcs, Clear pc := by
  have fin : ∀ {x : Option (St α)}, x = next cfg s a → x.map Life.gone = some l →
      ∃ s', l = .gone s' ∧ ∀ pc ∈ s'.pcs, Clear pc := by
    intro x hx hm
    cases x with
    | none => cases hm
    | some s' =>
      simp only [Option.map_some, Option.some.injEq] at hm
      exact ⟨s', hm.symm, clear_next h ha hx.symm⟩
  cases a with
  | call t op => simp [isCall] at ha
  | step t w =>
    simp only [nextGone] at hn
    split at hn
    · rename_i pc hp
      rw [touch_none.mpr (h _ (List.mem_of_getElem? hp))] at hn
      exact fin rfl hn
    · cases hn
  | throw t =>
    simp only [nextGone] at hn
    split at hn
    · rename_i pc hp
      rw [touch_none.mpr (h _ (List.mem_of_getElem? hp))] at hn
      exact fin rfl hn
    · cases hn
  | spurious t =>
    exfalso
    simp only [nextGone, next] at hn
    split at hn
    · rename_i hp; rcases h _ (List.mem_of_getElem? hp) with h | ⟨_, _, h⟩ <;> cases h
    · cases hn
  | stale t =>
    exfalso
    simp only [nextGone, next] at hn
    split at hn
    · rename_i hp; rcases h _ (List.mem_of_getElem? hp) with h | ⟨_, _, h⟩ <;> cases h
    · cases hn

theorem clear_run {cfg : Cfg} : ∀ (acts : List (Act α)) (s : St α), (∀ pc ∈ s.pcs, Clear pc) →
    (∀ a ∈ acts, isCall a = false) → runLife cfg (.gone s) (acts.map .act) ≠ some .ub := by
  intro acts
  induction acts with
  | nil => intro s _ _ h; simp [runLife] at h
  | cons a acts ih =>
    intro s h ha hr
    simp only [List.map_cons, runLife, nextLife, Option.bind_eq_some_iff] at hr
    obtain ⟨l, h1, h2⟩ := hr
    obtain ⟨s', rfl, h3⟩ := clear_gone h (ha a (List.mem_cons_self ..)) h1
    exact ih s' h3 (fun b hb => ha b (List.mem_cons_of_mem _ hb)) h2

/-- Two threads, thread 0 has pushed 5 and closed the channel but is yet to notify, thread 1 has popped 5 and
has seen the end. -/
def endDemo : List (Act Nat) :=
  [.call 0 (.push 5)] ++ steps 0 6 ++ [.call 1 .pop] ++ steps 1 6 ++ [.call 0 .close] ++ steps 0 3 ++
  [.call 1 .pop] ++ steps 1 5

/-- The state after `endDemo`. -/
def endDemoEnd : St Nat := (run {} (init Nat 2) endDemo).get (by decide +kernel)

theorem endDemo_reach : Reachable {} 2 endDemoEnd := ⟨endDemo, (Option.some_get _).symm⟩

theorem endDemo_state : endDemoEnd.pcs = [.cNotify, .idle] ∧ endDemoEnd.owner = none ∧ endDemoEnd.hist =
    [.call 0 (.push 5), .lin 0 (.push 5) (.bool true), .ret 0 (.bool true), .call 1 .pop, .lin 1 .pop (.val (some 5)),
     .ret 1 (.val (some 5)), .call 0 .close, .lin 0 .close .unit, .call 1 .pop, .lin 1 .pop (.val none),
     .ret 1 (.val none)] := by decide +kernel

/-- **C109**: exactly when the channel may be destroyed. A thread that is in no call may destroy the channel if and only if
every thread is in no call or has nothing left to do in its call but to hand over the result. In particular a thread that
is asleep, that waits for the mutex or that is about to notify makes it undefined. -/
theorem exchange_destroy_iff {cfg : Cfg} {n : Nat} {s : St α} (h : Reachable cfg n s) {t : Nat}
    (ht : s.pcs[t]? = some .idle) : MayDestroy cfg s t ↔ ∀ pc ∈ s.pcs, Clear pc := by
  have hl := lockInv_reach h
  constructor
  · intro hm pc hpc
    by_cases hc : Clear pc
    · exact hc
    · exfalso
      obtain ⟨u, hu⟩ := List.getElem?_of_mem hpc
      by_cases hd : (s.owner.isSome || s.pcs.any PC.asleep) = true
      · refine hm [] (by simp) ?_
        simp [runLife, nextLife, ht, destroyed, hd]
      · refine hm [.step u none] (by simp [isCall]) ?_
        have he : destroyed s = .gone s := by simp only [destroyed, if_neg hd]
        have htc : (touch pc).isSome = true := by
          cases e : touch pc with
          | none => exact absurd (touch_none.mp e) hc
          | some _ => rfl
        simp [runLife, nextLife, ht, he, nextGone, hu, htc]
  · intro hc acts ha hr
    have ho : s.owner = none := by
      cases ho : s.owner with
      | none => rfl
      | some u =>
        obtain ⟨pc, hp⟩ : ∃ pc, s.pcs[u]? = some pc := ⟨_, List.getElem?_eq_getElem (hl.2 u ho)⟩
        have := (hl.1 u pc hp).mpr ho
        rcases hc _ (List.mem_of_getElem? hp) with rfl | ⟨_, _, rfl⟩ <;> simp [PC.holds] at this
    have hs : s.pcs.any PC.asleep = false := by
      rw [List.any_eq_false]
      intro pc hp
      rcases hc _ hp with rfl | ⟨_, _, rfl⟩ <;> simp [PC.asleep]
    simp only [runLife, nextLife, ht, Option.bind_some, destroyed, ho, hs] at hr
    exact clear_run acts s hc ha hr

example : ¬ MayDestroy {} endDemoEnd 1 := by
  rw [exchange_destroy_iff endDemo_reach (by rw [endDemo_state.1]; rfl), endDemo_state.1]
  simp [Clear]

theorem loc_inCall {cfg : Cfg} {t : Nat} {q c o} {pc : PC α} {q' c' o' pc' es} {h : List (Ev α)}
    (hl : Loc cfg t q c o pc q' c' o' pc' es) (hi : pc = .idle ↔ inCall t h = false) :
    (pc' = .idle ↔ inCall t (h ++ es) = false) ∧ ∀ u, u ≠ t → inCall u (h ++ es) = inCall u h := by
  cases hl <;> simp [inCall, List.foldl_append] at hi ⊢ <;> try exact hi
  case call op e0 =>
    refine ⟨by cases op <;> simp [entry] at e0 <;> subst e0 <;> simp, fun u hu => ?_⟩
    have : ¬ t = u := fun e => hu e.symm
    simp [this]
  case done => intro u hu _ e; exact absurd e.symm hu

theorem inCall_step {cfg : Cfg} {s s' : St α} (hi : ∀ (t : Nat) pc, s.pcs[t]? = some pc → (pc = .idle ↔ inCall t s.hist = false))
    (h : Step cfg s s') : ∀ (t : Nat) pc, s'.pcs[t]? = some pc → (pc = .idle ↔ inCall t s'.hist = false) := by
  have set : ∀ {pcs : List (PC α)} {t : Nat} {pc pc' : PC α}, pcs[t]? = some pc →
      (∀ (t : Nat) pc, pcs[t]? = some pc → (pc = .idle ↔ inCall t s.hist = false)) → (pc' = .idle ↔ pc = .idle) →
      ∀ (u : Nat) p, (pcs.set t pc')[u]? = some p → (p = .idle ↔ inCall u s.hist = false) := by
    intro pcs t pc pc' ht hi he u p hp
    rcases getElem?_set' ht hp with ⟨rfl, rfl⟩ | ⟨_, hp⟩
    · rw [he]; exact hi _ _ ht
    · exact hi u p hp
  have map : ∀ {f : PC α → PC α}, (∀ p, f p = .idle ↔ p = .idle) →
      ∀ (u : Nat) p, (s.pcs.map f)[u]? = some p → (p = .idle ↔ inCall u s.hist = false) := by
    intro f hf u p hp
    rw [List.getElem?_map] at hp
    cases hq : s.pcs[u]? with
    | none => simp [hq] at hp
    | some p' => simp [hq] at hp; subst hp; rw [hf]; exact hi u p' hq
  cases h with
  | loc hp hl =>
    intro u p hu
    have hh := loc_inCall hl (hi _ _ hp)
    rcases getElem?_set' hp hu with ⟨rfl, rfl⟩ | ⟨hne, hu⟩
    · exact hh.1
    · dsimp only; rw [hh.2 u hne]; exact hi u p hu
  | one0 hp hn => exact set hp hi (by simp)
  | one1 hp hs =>
    rename_i t op i
    refine set (pc := .sNotify op) ?_ (set (pc' := .pLock) hs hi (by simp)) (by simp)
    rw [List.getElem?_set_ne]; exact hp
    rintro rfl; rw [hp] at hs; cases hs
  | all hp =>
    refine set (pc := .cNotify) ?_ (map (fun p => by cases p <;> simp [wake])) (by simp)
    rw [List.getElem?_map, hp]; rfl

theorem inCall_reach {cfg : Cfg} {n : Nat} {s : St α} (h : Reachable cfg n s) :
    ∀ (t : Nat) pc, s.pcs[t]? = some pc → (pc = .idle ↔ inCall t s.hist = false) := by
  refine reach_ind (P := fun s => ∀ (t : Nat) pc, s.pcs[t]? = some pc → (pc = .idle ↔ inCall t s.hist = false)) ?_
    (fun _ _ hi hs => inCall_step hi hs) h
  intro t pc hp
  simp only [init, List.getElem?_replicate] at hp ⊢
  split at hp <;> simp at hp
  subst hp; simp [inCall]

/-- **C109**: when every call has returned the channel may be destroyed, whatever the calls were and whatever is still in
the slot; joining the other threads first is enough. -/
theorem exchange_destroy_returned {cfg : Cfg} {n : Nat} {s : St α} (h : Reachable cfg n s)
    (hr : ∀ u, u < n → inCall u s.hist = false) {t : Nat} (ht : t < n) :
    MayDestroy cfg s t ∧ ∃ l, runLife cfg (.alive s) [.destroy t] = some l := by
  have hlen := reachable_length h
  have hall : ∀ (u : Nat) pc, s.pcs[u]? = some pc → pc = .idle := fun u pc hp =>
    (inCall_reach h u pc hp).mpr (hr u (by have := lt_of_getElem? hp; omega))
  have hidle : s.pcs[t]? = some .idle := by
    have e := List.getElem?_eq_getElem (l := s.pcs) (i := t) (by omega)
    rw [e, hall t _ e]
  refine ⟨(exchange_destroy_iff h hidle).mpr (fun pc hp => ?_), destroyed s, by simp [runLife, nextLife, hidle]⟩
  obtain ⟨u, hu⟩ := List.getElem?_of_mem hp
  exact .inl (hall u pc hu)

example : ∀ u, u < 2 → inCall u demoEnd.hist = false := by
  rw [demo_hist]; intro u hu; match u with | 0 => decide | 1 => decide | n + 2 => omega

/-- Thread 0 has pushed 5 but is yet to notify, thread 1 has popped it. -/
def gotDemo : List (Act Nat) := [.call 0 (.push 5)] ++ steps 0 4 ++ [.call 1 .pop] ++ steps 1 6

/-- The state after `gotDemo`. -/
def gotEnd : St Nat := (run {} (init Nat 2) gotDemo).get (by decide +kernel)

/-- Thread 1 fell asleep in `pop`, thread 0 has closed the channel and returned. -/
def shutDemo : List (Act Nat) := [.call 1 .pop] ++ steps 1 2 ++ [.call 0 .close] ++ steps 0 5

/-- The state after `shutDemo`. -/
def shutEnd : St Nat := (run {} (init Nat 2) shutDemo).get (by decide +kernel)

/-- **C109** (refuted claims): none of the following is enough to destroy the channel, although it is tempting to let the
reader own it: the reader's loop has ended (`pop` gave nothing, so the channel is closed and empty); the reader has got the
only element that is ever pushed; the closing thread has returned from `close`. -/
theorem exchange_destroy_refuted :
    (∃ s : St Nat, Reachable {} 2 s ∧ s.pcs[1]? = some .idle ∧ .ret 1 (.val none) ∈ s.hist ∧
      s.closed = true ∧ s.slot = none ∧ ¬ MayDestroy {} s 1) ∧
    (∃ s : St Nat, Reachable {} 2 s ∧ s.pcs[1]? = some .idle ∧ .ret 1 (.val (some 5)) ∈ s.hist ∧
      ¬ MayDestroy {} s 1) ∧
    (∃ s : St Nat, Reachable {} 2 s ∧ s.pcs[0]? = some .idle ∧ .ret 0 .unit ∈ s.hist ∧
      s.closed = true ∧ ¬ MayDestroy {} s 0) := by
  have go : ∀ (acts : List (Act Nat)) (s : St Nat) (t : Nat), run {} (init Nat 2) acts = some s →
      s.pcs[t]? = some .idle → (∃ pc ∈ s.pcs, touch pc ≠ none) → ¬ MayDestroy {} s t := by
    intro acts s t hr ht ⟨pc, hp, hc⟩ hm
    exact hc (touch_none.mpr ((exchange_destroy_iff ⟨acts, hr⟩ ht).mp hm pc hp))
  refine ⟨⟨endDemoEnd, endDemo_reach, by decide +kernel, by decide +kernel, by decide +kernel, by decide +kernel,
    go endDemo _ 1 (Option.some_get _).symm (by decide +kernel) (by decide +kernel)⟩,
    ⟨gotEnd, ⟨_, (Option.some_get _).symm⟩, by decide +kernel, by decide +kernel,
      go gotDemo _ 1 (Option.some_get _).symm (by decide +kernel) (by decide +kernel)⟩,
    ⟨shutEnd, ⟨_, (Option.some_get _).symm⟩, by decide +kernel, by decide +kernel, by decide +kernel,
      go shutDemo _ 0 (Option.some_get _).symm (by decide +kernel) (by decide +kernel)⟩⟩

/-- In `close`, the flag is not set yet (exchange_channel.hpp:59-60). -/
def beforeSet : PC α → Bool
  | .cLock | .cSet => true
  | _ => false

/-- About to set the flag (exchange_channel.hpp:60). -/
def atSet : PC α → Bool
  | .cSet => true
  | _ => false

/-- What is known of the calls of `close` (exchange_channel.hpp:53-63). -/
structure EndInv (s : St α) : Prop where
  calls : closeCalls s.hist = closeDone s.hist + s.pcs.countP beforeSet
  open_ : s.closed = false ↔ closeDone s.hist = 0
  seen : endSeen s.hist = true → s.closed = true
  first : ∀ u : Nat, s.pcs[u]? = some PC.cUnlock → closeDone s.hist = 1 → endSeen s.hist = false

theorem loc_end {cfg : Cfg} {t : Nat} {q c o} {pc : PC α} {q' c' o' pc' es} {h : List (Ev α)}
    (hl : Loc cfg t q c o pc q' c' o' pc' es) :
    closeCalls (h ++ es) + closeDone h + (if beforeSet pc then 1 else 0) =
      closeCalls h + closeDone (h ++ es) + (if beforeSet pc' then 1 else 0) ∧
    (closeDone (h ++ es) = closeDone h + (if atSet pc then 1 else 0)) ∧
    (c' = true ↔ c = true ∨ atSet pc = true) ∧ (pc' = .cUnlock → atSet pc = true) ∧
    (endSeen (h ++ es) = endSeen h ∨ pc = .pBody ∧ q = none) := by
  cases hl <;> simp [closeCalls, closeDone, endSeen, List.countP_append, beforeSet, atSet] <;> try omega
  case call op e0 => cases op <;> simp [entry] at e0 <;> subst e0 <;> simp <;> omega

theorem endInv_step {cfg : Cfg} {s s' : St α} (hl : LockInv s) (hb : BodyInv s) (hi : EndInv s)
    (h : Step cfg s s') : EndInv s' := by
  obtain ⟨i1, i2, i3, i4⟩ := hi
  have set : ∀ {pcs : List (PC α)} {t : Nat} {pc pc' : PC α}, pcs[t]? = some pc → EndInv { s with pcs := pcs } →
      beforeSet pc = false → beforeSet pc' = false → pc' ≠ .cUnlock → EndInv { s with pcs := pcs.set t pc' } := by
    rintro pcs t pc pc' ht ⟨j1, j2, j3, j4⟩ hb1 hb2 hb3
    have hc := countP_set' (p := beforeSet) (x := pc') ht
    simp only [hb1, hb2] at hc
    refine ⟨?_, j2, j3, ?_⟩
    · dsimp only at j1 ⊢; simp at hc; omega
    · intro u hu
      rcases getElem?_set' ht hu with ⟨rfl, e⟩ | ⟨_, hu⟩
      · exact absurd e.symm hb3
      · exact j4 u hu
  have map : ∀ {f : PC α → PC α}, (∀ p, beforeSet (f p) = beforeSet p) → (∀ p, f p = .cUnlock → p = .cUnlock) →
      EndInv { s with pcs := s.pcs.map f } := by
    intro f hf hg
    refine ⟨?_, i2, i3, ?_⟩
    · dsimp only
      rw [List.countP_map, i1]
      congr 2
      funext p; exact (hf p).symm
    · intro u hu
      dsimp only at hu
      rw [List.getElem?_map] at hu
      cases hq : s.pcs[u]? with
      | none => simp [hq] at hu
      | some p =>
        simp [hq] at hu
        rw [hg p hu] at hq
        exact i4 u hq
  have self : EndInv { s with pcs := s.pcs } := ⟨i1, i2, i3, i4⟩
  cases h with
  | loc hp hloc =>
    rename_i t pc q' c' o' pc' es
    obtain ⟨l1, l2, l3, l5, l6⟩ := loc_end (h := s.hist) hloc
    have hc := countP_set' (p := beforeSet) (x := pc') hp
    refine ⟨?_, ?_, ?_, ?_⟩
    · dsimp only; omega
    · dsimp only
      rw [l2]
      have h1 : c' = false ↔ s.closed = false ∧ atSet pc = false := by
        cases c' <;> cases h : s.closed <;> cases h' : atSet pc <;> simp [h, h'] at l3 ⊢
      rw [h1, i2]
      cases atSet pc <;> simp
    · intro e
      dsimp only at e ⊢
      rcases l6 with l6 | ⟨rfl, hq⟩
      · rw [l6] at e; exact l3.mpr (.inl (i3 e))
      · have := hb _ hp
        rcases this with h | h
        · exact absurd hq h
        · exact l3.mpr (.inl h)
    · intro u hu hd
      dsimp only at hu hd ⊢
      rw [l2] at hd
      rcases getElem?_set' hp hu with ⟨rfl, e⟩ | ⟨hne, hu⟩
      · have ha := l5 e.symm
        have hz : closeDone s.hist = 0 := by simp [ha] at hd; exact hd
        rcases l6 with l6 | ⟨rfl, _⟩
        · rw [l6]
          cases he : endSeen s.hist with
          | false => rfl
          | true => have := i3 he; rw [i2.mpr hz] at this; cases this
        · cases ha
      · have hnot : pc.holds = false := by
          cases hh : pc.holds with
          | false => rfl
          | true => exact absurd (holds_unique hl hu hp rfl hh) hne
        have ha : atSet pc = false := by
          cases pc <;> simp [atSet, PC.holds] at hnot ⊢
        simp only [ha] at hd
        rcases l6 with l6 | ⟨rfl, _⟩
        · rw [l6]; exact i4 u hu (by simpa using hd)
        · simp [PC.holds] at hnot
  | one0 hp hn => exact set hp self rfl rfl (by simp)
  | one1 hp hs =>
    rename_i t op i
    refine set (pc := .sNotify op) ?_ (set (pc' := .pLock) hs self rfl rfl (by simp)) rfl rfl (by simp)
    rw [List.getElem?_set_ne]; exact hp
    rintro rfl; rw [hp] at hs; cases hs
  | all hp =>
    refine set (pc := .cNotify) ?_ (map (fun p => by cases p <;> simp [wake, beforeSet])
      (fun p => by cases p <;> simp [wake])) rfl rfl (by simp)
    rw [List.getElem?_map, hp]; rfl

theorem endInv_reach {cfg : Cfg} {n : Nat} {s : St α} (h : Reachable cfg n s) : EndInv s := by
  refine (reach_ind (P := fun s => (LockInv s ∧ BodyInv s) ∧ EndInv s)
    ⟨⟨lockInv_init n, fun i hp => by
      simp only [init, List.getElem?_replicate] at hp; split at hp <;> simp at hp⟩, ⟨?_, ?_, ?_, ?_⟩⟩
    (fun _ _ hp hs => ⟨⟨lockInv_step hp.1.1 hs, bodyInv_step hp.1.1 hp.1.2 hs⟩, endInv_step hp.1.1 hp.1.2 hp.2 hs⟩) h).2
  · simp [init, closeCalls, closeDone, List.countP_replicate, beforeSet]
  · simp [init, closeDone]
  · simp [init, endSeen]
  · intro u hu
    simp only [init, List.getElem?_replicate] at hu
    split at hu <;> simp at hu

/-- **C109**: what can be left when the reader has seen the end. If `close` was called once and some `pop` has given
nothing, then no thread is in `close` but to notify: the call that closed the channel has set the flag and given back the
mutex, all it may still use is the condition variable. -/
theorem exchange_end_window {cfg : Cfg} {n : Nat} {s : St α} (h : Reachable cfg n s) (h1 : closeCalls s.hist = 1)
    {t : Nat} (he : .lin t .pop (.val none) ∈ s.hist) {u : Nat} {pc : PC α} (hu : s.pcs[u]? = some pc) :
    pc ≠ .cLock ∧ pc ≠ .cSet ∧ pc ≠ .cUnlock := by
  obtain ⟨i1, i2, i3, i4⟩ := endInv_reach h
  have hseen : endSeen s.hist = true := List.any_eq_true.mpr ⟨_, he, rfl⟩
  have hd : closeDone s.hist ≠ 0 := fun e => by rw [i2.mpr e] at i3; cases i3 hseen
  have hz : s.pcs.countP beforeSet = 0 := by omega
  have hb : beforeSet pc = false := by
    cases e : beforeSet pc with
    | false => rfl
    | true => exact absurd hz (by have := List.countP_pos_iff.mpr ⟨pc, List.mem_of_getElem? hu, e⟩; omega)
  refine ⟨?_, ?_, ?_⟩
  · rintro rfl; cases hb
  · rintro rfl; cases hb
  · rintro rfl; rw [i4 u hu (by omega)] at hseen; cases hseen

example : closeCalls endDemoEnd.hist = 1 ∧ .lin 1 .pop (.val none) ∈ endDemoEnd.hist := by
  rw [endDemo_state.2.2]; decide

theorem runLife_append {cfg : Cfg} : ∀ {as : List (LAct α)} {l l' : Life α} {bs : List (LAct α)}, runLife cfg l as = some l' →
    runLife cfg l (as ++ bs) = runLife cfg l' bs
  | [], l, l', bs, h => by simp only [runLife, Option.some.injEq] at h; subst h; rfl
  | a :: as, l, l', bs, h => by
    simp only [runLife, List.cons_append, Option.bind_eq_some_iff] at h ⊢
    obtain ⟨m, hm, h⟩ := h
    rw [hm, Option.bind_some]
    exact runLife_append h

/-- Once the channel is destroyed, every further call on it is undefined (there is no `try_push`), and so is destroying it again,
whatever has happened before. -/
theorem exchange_gone {cfg : Cfg} {s s' : St α} {acts : List (LAct α)} (h : runLife cfg (.alive s) acts = some (.gone s')) :
    (∀ u, runLife cfg (.alive s) (acts ++ [.destroy u]) = some .ub) ∧
    ∀ u op, (∀ v, op ≠ .tryPush v) → s'.pcs[u]? = some .idle → runLife cfg (.alive s) (acts ++ [.act (.call u op)]) = some .ub := by
  refine ⟨fun u => ?_, fun u op ho hu => ?_⟩
  · rw [runLife_append h]; rfl
  · rw [runLife_append h]
    cases op <;> simp [runLife, nextLife, nextGone, next, hu, entry] at ho ⊢

example : runLife {} (.alive (init Nat 2)) [.destroy 0] = some (.gone (init Nat 2)) ∧ (init Nat 2).pcs[1]? = some .idle := ⟨rfl, rfl⟩

end Verif.Exchange
