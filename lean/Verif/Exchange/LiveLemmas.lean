import Verif.Exchange.LiveModel

/-! Lemmas for `LiveProps.lean`. -/
namespace Verif.Exchange

open Verif.Channel (Op Res Ev Act lt_of_getElem? getElem?_set' countP_set' le_ind eventually_const)

variable {α : Type} {cfg : Cfg} {n : Nat}

theorem countP_pos_of {p : PC α → Bool} {l : List (PC α)} {i : Nat} {pc : PC α} (h : l[i]? = some pc)
    (hp : p pc = true) : 0 < l.countP p := by
  rw [List.countP_pos_iff]
  exact ⟨pc, List.mem_of_getElem? h, hp⟩

theorem asleep_after {l : List (PC α)} : (l.map wake).countP PC.asleep = 0 := by
  rw [List.countP_eq_zero]
  intro a ha
  obtain ⟨b, _, rfl⟩ := List.mem_map.mp ha
  cases b <;> simp [wake, PC.asleep]

/-! ### After a close nobody sleeps unattended, whatever the element operations throw -/

/-- Whoever sleeps on a closed channel will be woken by a close (about exchange_channel.hpp:53-63, 126). -/
def WakeC (s : St α) : Prop := s.closed = true → 0 < s.pcs.countP PC.asleep → 0 < s.pcs.countP isCl

theorem wakeC_step {s s' : St α} (hi : WakeC s) (h : Step cfg s s') : WakeC s' := by
  cases h with
  | loc hp hl =>
    rename_i t pc q' c' o' pc' es
    have a := countP_set' (p := PC.asleep) (x := pc') hp
    have d := countP_set' (p := isCl) (x := pc') hp
    unfold WakeC at hi ⊢
    dsimp only
    generalize (s.pcs.set t pc').countP PC.asleep = A at *
    generalize (s.pcs.set t pc').countP isCl = D at *
    generalize s.pcs.countP PC.asleep = A' at *
    generalize s.pcs.countP isCl = D' at *
    generalize s.slot = q0, s.closed = c0, s.owner = o0 at hl hi
    clear hp
    cases hl
    case call op he => cases op <;> simp [entry] at he <;> subst he <;> simp [PC.asleep, isCl] at a d <;> grind
    all_goals simp [PC.asleep, isCl] at a d
    all_goals grind
  | @one0 t op hp hn =>
    have a := countP_set' (p := PC.asleep) (x := .done op (.bool true)) hp
    have d := countP_set' (p := isCl) (x := .done op (.bool true)) hp
    simp [PC.asleep, isCl] at a d
    intro hc; have := hi hc; dsimp only at *; rw [a, d]; exact this
  | @one1 t op i hp hs =>
    have hne : i ≠ t := by rintro rfl; rw [hp] at hs; cases hs
    have hp' : (s.pcs.set i .pLock)[t]? = some (.sNotify op) := by rw [List.getElem?_set_ne hne]; exact hp
    have a := countP_set' (p := PC.asleep) (x := .done op (.bool true)) hp'
    have d := countP_set' (p := isCl) (x := .done op (.bool true)) hp'
    have a' := countP_set' (p := PC.asleep) (x := .pLock) hs
    have d' := countP_set' (p := isCl) (x := .pLock) hs
    simp [PC.asleep, isCl] at a d a' d'
    intro hc h0; dsimp only at *; rw [d, d']; exact hi hc (by omega)
  | @all t hp =>
    have hp' : (s.pcs.map wake)[t]? = some .cNotify := by rw [List.getElem?_map, hp]; rfl
    have a := countP_set' (p := PC.asleep) (x := .done .close .unit) hp'
    rw [asleep_after] at a
    change _ + 0 = 0 + 0 at a
    intro _ h0; dsimp only at h0; omega

theorem wakeC_reach {s : St α} (h : Reachable cfg n s) : WakeC s :=
  reach_ind (P := WakeC) (by intro hc; simp [init] at hc) (fun _ _ hp hs => wakeC_step hp hs) h

/-! ### Positions -/

/-- Inside a member function and not asleep (exchange_channel.hpp:53-149). -/
def PC.active : PC α → Bool
  | .idle => false
  | .pSleep => false
  | _ => true

theorem ready_of {s : St α} {t : Nat} {pc : PC α} (hp : s.pcs[t]? = some pc) (ha : pc.active = true)
    (h : s.owner = none ∨ pc.holds = true) : Ready cfg s t := by
  have : ∃ w s', stepAt s t w pc = some s' := by
    cases pc
    case sNotify op =>
      obtain ⟨w, s', hs⟩ := notifyOne_enabled s
      exact ⟨w, _, by simp only [stepAt, hs, Option.map_some]; rfl⟩
    all_goals (first | (simp [PC.active] at ha; done) | skip)
    all_goals simp [PC.holds] at h
    all_goals
      refine ⟨none, ?_⟩
      simp only [stepAt, acquire]
      first
        | (rw [h]; exact ⟨_, rfl⟩)
        | (repeat split) <;> exact ⟨_, rfl⟩
  obtain ⟨w, s', hs⟩ := this
  exact ⟨w, s', by simp [next, hp, hs]⟩

/-- An action of a thread takes it closer to the end of its call. -/
theorem by_rank {s s' : St α} {a : Act α} {t : Nat} (h : next cfg s a = some s') (hb : a.By t) :
    ∃ pc pc', s.pcs[t]? = some pc ∧ s'.pcs[t]? = some pc' ∧ rank n pc' < rank n pc := by
  cases a with
  | call => exact hb.elim
  | spurious => exact hb.elim
  | stale u =>
    obtain rfl : u = t := hb
    simp only [next] at h
    split at h
    · rename_i v hp
      injection h with h; subst h
      exact ⟨_, _, hp, by simp [St.goto, List.getElem?_set_self (lt_of_getElem? hp)]; rfl, by simp [rank]⟩
    · simp at h
  | throw u =>
    obtain rfl : u = t := hb
    simp only [next] at h
    split at h
    · rename_i pc hp
      refine ⟨pc, ?_⟩
      have hlt := lt_of_getElem? hp
      cases pc <;> simp only [throwAt] at h
      all_goals
        repeat (split at h)
        all_goals first
          | (simp at h; done)
          | (injection h with h; subst h
             exact ⟨_, hp, by simp [St.goto, St.log, List.getElem?_set_self hlt]; rfl, by simp [rank]⟩)
    · simp at h
  | step u w =>
    obtain rfl : u = t := hb
    simp only [next] at h
    split at h
    · rename_i pc hp
      refine ⟨pc, ?_⟩
      have hlt := lt_of_getElem? hp
      have one : ∀ {s1}, notifyOne s w = some s1 → s1.pcs.length = s.pcs.length := by
        intro s1 h1
        unfold notifyOne at h1
        split at h1
        · split at h1 <;> simp at h1
          subst h1; rfl
        · split at h1
          · injection h1 with h1; subst h1; simp [St.goto]
          · simp at h1
      cases pc
      case sNotify op =>
        simp only [stepAt, Option.map_eq_some_iff] at h
        obtain ⟨s1, h1, rfl⟩ := h
        exact ⟨_, hp, by simp only [St.goto]; rw [List.getElem?_set_self (by rw [one h1]; exact hlt)], by simp [rank]⟩
      case cNotify =>
        simp only [stepAt] at h
        injection h with h; subst h
        exact ⟨_, hp, by simp only [St.goto]; rw [List.getElem?_set_self (by simpa using hlt)],
          by simp [rank]⟩
      all_goals
        simp only [stepAt, acquire, release] at h
        repeat (split at h)
        all_goals first
          | (simp at h; done)
          | (injection h with h; subst h
             exact ⟨_, hp, by simp [St.goto, St.log, List.getElem?_set_self hlt]; rfl, by simp [rank]⟩)
    · simp at h

theorem Loc.rank_lt {t : Nat} {q c o} {pc : PC α} {q' c' o' pc' es} (h : Loc cfg t q c o pc q' c' o' pc' es)
    (ha : pc.active = true) : rank n pc' < rank n pc := by
  cases h <;> simp [PC.active] at ha <;> simp [rank]

theorem Loc.owner_kept {t u : Nat} {q c o} {pc : PC α} {q' c' o' pc' es} (h : Loc cfg t q c o pc q' c' o' pc' es)
    (ho : o = some u) : o' = none ∨ o' = some u := by
  cases h <;> simp_all

/-- One transition, seen from thread `u`: it stays, it is woken, or it takes a transition of its own. -/
theorem step_thread {s s' : St α} (h : Step cfg s s') {u : Nat} {pc : PC α} (hp : s.pcs[u]? = some pc) :
    s'.pcs[u]? = some pc ∨ (pc = .pSleep ∧ s'.pcs[u]? = some .pLock) ∨
    (∃ q' c' o' pc' es, Loc cfg u s.slot s.closed s.owner pc q' c' o' pc' es ∧
      s' = ⟨q', c', o', s.pcs.set u pc', s.hist ++ es⟩ ∧ s'.pcs[u]? = some pc') ∨
    (∃ op, pc = .sNotify op ∧ s'.pcs[u]? = some (.done op (.bool true)) ∧
      ((∀ p ∈ s.pcs, p ≠ .pSleep) ∨ s'.pcs.countP PC.asleep < s.pcs.countP PC.asleep)) ∨
    (pc = .cNotify ∧ s'.pcs[u]? = some (.done .close .unit) ∧ s'.pcs.countP PC.asleep = 0) := by
  have hlt := lt_of_getElem? hp
  cases h with
  | loc hp' hl =>
    rename_i t p q' c' o' p' es
    by_cases htu : t = u
    · subst htu
      rw [hp] at hp'; injection hp' with hp'; subst hp'
      exact .inr (.inr (.inl ⟨_, _, _, _, _, hl, rfl, List.getElem?_set_self hlt⟩))
    · exact .inl (by dsimp only; rw [List.getElem?_set_ne htu]; exact hp)
  | one0 hp' hn =>
    rename_i t op
    by_cases htu : t = u
    · subst htu
      rw [hp] at hp'; injection hp' with hp'; subst hp'
      exact .inr (.inr (.inr (.inl ⟨_, rfl, List.getElem?_set_self hlt, .inl hn⟩)))
    · exact .inl (by dsimp only; rw [List.getElem?_set_ne htu]; exact hp)
  | one1 hp' hs =>
    rename_i t op j
    have hne : j ≠ t := by rintro rfl; rw [hp'] at hs; cases hs
    by_cases htu : t = u
    · subst htu
      rw [hp] at hp'; injection hp' with hp'; subst hp'
      refine .inr (.inr (.inr (.inl ⟨_, rfl, List.getElem?_set_self (by simpa using hlt), .inr ?_⟩)))
      have a := countP_set' (p := PC.asleep) (l := s.pcs.set j .pLock) (t := t) (z := .sNotify op)
        (x := .done op (.bool true)) (by rw [List.getElem?_set_ne hne]; exact hp)
      have b := countP_set' (p := PC.asleep) (x := .pLock) hs
      simp [PC.asleep] at a b
      dsimp only; omega
    · by_cases hju : j = u
      · subst hju
        rw [hp] at hs; injection hs with hs; subst hs
        refine .inr (.inl ⟨rfl, ?_⟩)
        dsimp only
        rw [List.getElem?_set_ne htu, List.getElem?_set_self hlt]
      · exact .inl (by dsimp only; rw [List.getElem?_set_ne htu, List.getElem?_set_ne hju]; exact hp)
  | all hp' =>
    rename_i t
    by_cases htu : t = u
    · subst htu
      rw [hp] at hp'; injection hp' with hp'; subst hp'
      refine .inr (.inr (.inr (.inr ⟨rfl, List.getElem?_set_self (by simpa using hlt), ?_⟩)))
      have a := countP_set' (p := PC.asleep) (l := s.pcs.map wake) (t := t) (z := .cNotify)
        (x := .done .close .unit) (by rw [List.getElem?_map, hp]; rfl)
      rw [asleep_after] at a
      change _ + 0 = 0 + 0 at a
      dsimp only; omega
    · dsimp only
      rw [List.getElem?_set_ne htu, List.getElem?_map, hp]
      cases pc <;> simp [wake]

/-- What one transition does to a thread that is inside a member function and awake. -/
theorem step_active {s s' : St α} (h : Step cfg s s') {u : Nat} {pc : PC α} (hp : s.pcs[u]? = some pc)
    (ha : pc.active = true) : ∃ pc', s'.pcs[u]? = some pc' ∧ (pc' = pc ∨ rank n pc' < rank n pc) := by
  rcases step_thread h hp with h1 | ⟨rfl, h1⟩ | ⟨q', c', o', pc', es, hl, rfl, h1⟩ | ⟨op, rfl, h1, _⟩ | ⟨rfl, h1, _⟩
  · exact ⟨_, h1, .inl rfl⟩
  · simp [PC.active] at ha
  · exact ⟨_, h1, .inr (hl.rank_lt ha)⟩
  · exact ⟨_, h1, .inr (by simp [rank])⟩
  · exact ⟨_, h1, .inr (by simp [rank])⟩

/-- May still go to sleep in the current call (exchange_channel.hpp:125-126). -/
def PC.waits : PC α → Bool
  | .pLock | .pCheck | .pSleep => true
  | _ => false

/-- Has stored a value and not yet notified a consumer (exchange_channel.hpp:92-94). -/
def isNt : PC α → Bool | .sUnlock _ | .sNotify _ => true | _ => false
/-- A consumer about to test the slot or to take the value (exchange_channel.hpp:125-135). -/
def isPop : PC α → Bool | .pLock | .pCheck | .pBody => true | _ => false
/-- In a call of `pop` or `try_pop` and has not taken a value yet (exchange_channel.hpp:124-135, 142-148). -/
def isCons : PC α → Bool | .pLock | .pCheck | .pSleep | .pBody | .qLock | .qBody => true | _ => false
/-- Not inside any member function (about exchange_channel.hpp:53-149). -/
def isIdle : PC α → Bool | .idle => true | _ => false

/-- A thread that comes out of a member function has returned. -/
theorem step_returns {s s' : St α} (h : Step cfg s s') {u : Nat} {pc : PC α} (hp : s.pcs[u]? = some pc)
    (hi : pc ≠ .idle) (hp' : s'.pcs[u]? = some .idle) : ∃ r, s'.hist = s.hist ++ [.ret u r] := by
  rcases step_thread h hp with h1 | ⟨_, h1⟩ | ⟨q', c', o', pc', es, hl, rfl, h1⟩ | ⟨op, _, h1, _⟩ | ⟨_, h1, _⟩
  all_goals rw [hp'] at h1; injection h1 with h1
  · exact absurd h1.symm hi
  all_goals first | (cases h1; done) | skip
  subst h1
  generalize hg : (PC.idle : PC α) = g at hl
  generalize s.slot = q0, s.closed = c0, s.owner = o0 at hl
  cases hl <;> first | (cases hg; done) | skip
  case call op he => subst hg; cases op <;> simp [entry] at he
  case done op r => exact ⟨r, rfl⟩

/-- A call puts the thread at the first position of the member function. -/
theorem step_calls {s s' : St α} (h : Step cfg s s') {t : Nat} {op : Op α} (hc : s'.hist = s.hist ++ [.call t op]) :
    ∃ pc, entry op = some pc ∧ s'.pcs[t]? = some pc := by
  cases h with
  | loc hp hl =>
    rename_i u p q' c' o' p' es
    dsimp only at hc ⊢
    have hes := List.append_cancel_left hc
    generalize s.slot = q0, s.closed = c0, s.owner = o0 at hl
    cases hl <;> simp at hes
    rename_i he
    obtain ⟨rfl, rfl⟩ := hes
    exact ⟨_, he, List.getElem?_set_self (lt_of_getElem? hp)⟩
  | _ => simp at hc

theorem step_waits_no {s s' : St α} (h : Step cfg s s') {u : Nat} {pc : PC α} (hp : s.pcs[u]? = some pc)
    (hi : pc ≠ .idle) (hm : pc.waits = false) : ∃ pc', s'.pcs[u]? = some pc' ∧ pc'.waits = false := by
  rcases step_thread h hp with h1 | ⟨rfl, h1⟩ | ⟨q', c', o', pc', es, hl, rfl, h1⟩ | ⟨op, _, h1, _⟩ | ⟨_, h1, _⟩
  · exact ⟨_, h1, hm⟩
  · simp [PC.waits] at hm
  · refine ⟨_, h1, ?_⟩
    generalize s.slot = q0, s.closed = c0, s.owner = o0 at hl
    cases hl <;> first | rfl | (simp [PC.waits] at hm; done) | exact absurd rfl hi
  all_goals exact ⟨_, h1, rfl⟩

theorem step_waits {s s' : St α} (h : Step cfg s s') {u : Nat} {pc : PC α} (hp : s.pcs[u]? = some pc)
    (hm : pc.waits = true) : s'.pcs[u]? = some .pBody ∨ ∃ pc', s'.pcs[u]? = some pc' ∧ pc'.waits = true ∧
      (pc' = .pSleep → pc = .pSleep ∨ s.slot = none ∧ s.closed = false) := by
  rcases step_thread h hp with h1 | ⟨rfl, h1⟩ | ⟨q', c', o', pc', es, hl, rfl, h1⟩ | ⟨op, rfl, h1, _⟩ | ⟨rfl, h1, _⟩
  · exact .inr ⟨_, h1, hm, .inl⟩
  · exact .inr ⟨_, h1, rfl, by simp⟩
  · generalize hq : s.slot = q at *
    generalize hc : s.closed = c at *
    generalize s.owner = o0 at hl
    cases hl <;> first | (simp [PC.waits] at hm; done) | skip
    · exact .inr ⟨_, h1, rfl, by simp⟩
    · exact .inl h1
    · rename_i hx
      refine .inr ⟨_, h1, rfl, fun _ => .inr ?_⟩
      cases q' <;> cases c' <;> simp_all
    · exact .inr ⟨_, h1, rfl, by simp⟩
  all_goals simp [PC.waits] at hm

theorem step_asleep {s s' : St α} (h : Step cfg s s') (hq : s.slot ≠ none ∨ s.closed = true) :
    s'.pcs.countP PC.asleep ≤ s.pcs.countP PC.asleep := by
  cases h with
  | loc hp hl =>
    rename_i t pc q' c' o' pc' es
    have a := countP_set' (p := PC.asleep) (x := pc') hp
    dsimp only
    suffices PC.asleep pc' = true → PC.asleep pc = true by
      cases h1 : PC.asleep pc' <;> cases h2 : PC.asleep pc <;> simp_all <;> omega
    intro h1
    generalize s.slot = q at *
    generalize s.closed = c at *
    generalize s.owner = o0 at hl
    cases hl <;> first | (simp [PC.asleep] at h1; done) | skip
    case call op he => cases op <;> simp [entry] at he <;> subst he <;> simp [PC.asleep] at h1
    case pCheckSl hx => exact absurd hq hx
  | one0 hp hn =>
    rename_i t op
    have a := countP_set' (p := PC.asleep) (x := .done op (.bool true)) hp
    simp [PC.asleep] at a; dsimp only; omega
  | one1 hp hs =>
    rename_i t op j
    have hne : j ≠ t := by rintro rfl; rw [hp] at hs; cases hs
    have a := countP_set' (p := PC.asleep) (l := s.pcs.set j .pLock) (t := t) (z := .sNotify op)
      (x := .done op (.bool true)) (by rw [List.getElem?_set_ne hne]; exact hp)
    have b := countP_set' (p := PC.asleep) (x := .pLock) hs
    simp [PC.asleep] at a b; dsimp only; omega
  | all hp =>
    rename_i t
    have a := countP_set' (p := PC.asleep) (l := s.pcs.map wake) (t := t) (z := .cNotify)
        (x := .done .close .unit) (by rw [List.getElem?_map, hp]; rfl)
    rw [asleep_after] at a
    change _ + 0 = 0 + 0 at a
    dsimp only; omega

theorem step_nt {s s' : St α} (h : Step cfg s s') {u : Nat} {pc pc' : PC α} (hp : s.pcs[u]? = some pc)
    (hm : isNt pc = true) (hp' : s'.pcs[u]? = some pc') (hm' : isNt pc' = false) :
    (∀ p ∈ s.pcs, p ≠ .pSleep) ∨ s'.pcs.countP PC.asleep < s.pcs.countP PC.asleep := by
  rcases step_thread h hp with h1 | ⟨rfl, h1⟩ | ⟨q', c', o', pc', es, hl, rfl, h1⟩ | ⟨op, rfl, h1, h2⟩ | ⟨rfl, h1, _⟩
  · rw [hp'] at h1; injection h1 with h1; subst h1; rw [hm] at hm'; cases hm'
  · simp [isNt] at hm
  · rw [hp'] at h1; injection h1 with h1; subst h1
    generalize s.slot = q0, s.closed = c0, s.owner = o0 at hl
    cases hl <;> first | (simp [isNt] at hm; done) | (simp [isNt] at hm'; done)
  · exact h2
  · simp [isNt] at hm

theorem step_cl {s s' : St α} (h : Step cfg s s') {u : Nat} {pc pc' : PC α} (hp : s.pcs[u]? = some pc)
    (hm : isCl pc = true) (hp' : s'.pcs[u]? = some pc') (hm' : isCl pc' = false) : s'.pcs.countP PC.asleep = 0 := by
  rcases step_thread h hp with h1 | ⟨rfl, h1⟩ | ⟨q', c', o', pc', es, hl, rfl, h1⟩ | ⟨op, rfl, h1, _⟩ | ⟨rfl, h1, h2⟩
  · rw [hp'] at h1; injection h1 with h1; subst h1; rw [hm] at hm'; cases hm'
  · simp [isCl] at hm
  · rw [hp'] at h1; injection h1 with h1; subst h1
    generalize s.slot = q0, s.closed = c0, s.owner = o0 at hl
    cases hl <;> first | (simp [isCl] at hm; done) | (simp [isCl] at hm'; done)
  · simp [isCl] at hm
  · exact h2

theorem step_isPop {s s' : St α} (hm : cfg.moveThrow = false) (h : Step cfg s s') {u : Nat} {pc pc' : PC α}
    (hp : s.pcs[u]? = some pc) (hi : isPop pc = true) (hp' : s'.pcs[u]? = some pc') (hi' : isPop pc' = false)
    (hq : s.slot ≠ none) : s'.slot = none := by
  rcases step_thread h hp with h1 | ⟨rfl, h1⟩ | ⟨q', c', o', pc', es, hl, rfl, h1⟩ | ⟨op, rfl, h1, _⟩ | ⟨rfl, h1, _⟩
  · rw [hp'] at h1; injection h1 with h1; subst h1; rw [hi] at hi'; cases hi'
  · simp [isPop] at hi
  · rw [hp'] at h1; injection h1 with h1; subst h1
    dsimp only
    generalize s.slot = q at *
    generalize s.closed = c at *
    generalize s.owner = o0 at hl
    cases hl <;> first | (simp [isPop] at hi; done) | (simp [isPop] at hi'; done) | skip
    case pCheckSl hx => exact absurd (.inl hq) hx
    case pBodyN => rfl
    case pBodyS => rfl
    case pBodyT hx => rw [hm] at hx; cases hx
  all_goals simp [isPop] at hi

theorem step_closed {s s' : St α} (h : Step cfg s s') (hc : s.closed = true) : s'.closed = true := by
  cases h with
  | loc hp hl =>
    dsimp only
    generalize s.closed = c at *
    generalize s.slot = q0, s.owner = o0 at hl
    cases hl <;> first | exact hc | rfl
  | _ => exact hc

theorem step_cons {s s' : St α} (h : Step cfg s s') {u : Nat} {pc pc' : PC α} (hp : s.pcs[u]? = some pc)
    (hp' : s'.pcs[u]? = some pc') (hc : isCons pc' = true) :
    isCons pc = true ∨ ∃ op, (op = .pop ∨ op = .tryPop) ∧ s'.hist = s.hist ++ [.call u op] := by
  rcases step_thread h hp with h1 | ⟨rfl, h1⟩ | ⟨q', c', o', pc', es, hl, rfl, h1⟩ | ⟨op, rfl, h1, _⟩ | ⟨rfl, h1, _⟩
  all_goals rw [hp'] at h1; injection h1 with h1; subst h1
  · exact .inl hc
  · exact .inl rfl
  · generalize s.slot = q0, s.closed = c0, s.owner = o0 at hl
    cases hl <;> first | exact .inl rfl | (simp [isCons] at hc; done) | skip
    case call op he =>
      refine .inr ⟨op, ?_, rfl⟩
      cases op <;> simp [entry] at he <;> subst he <;> simp [isCons] at hc ⊢
  all_goals simp [isCons] at hc

theorem step_removes {s s' : St α} (hct : cfg.ctorThrow = false) (h : Step cfg s s') (hq : s.slot ≠ none)
    (hq' : s'.slot = none) : ∃ u : Nat, s.pcs[u]? = some .pBody ∨ s.pcs[u]? = some .qBody := by
  cases h with
  | loc hp hl =>
    rename_i t pc q' c' o' pc' es
    dsimp only at hq'
    generalize s.slot = q0, s.closed = c0, s.owner = o0 at hl hq
    cases hl <;> first
      | exact ⟨t, .inl hp⟩
      | exact ⟨t, .inr hp⟩
      | exact absurd hq' hq
      | (cases hq'; done)
      | (rename_i hx; rw [hct] at hx; cases hx)
  | _ => exact absurd hq' hq

theorem step_idle {s s' : St α} (h : Step cfg s s') :
    s'.pcs.countP isIdle ≤ s.pcs.countP isIdle ∨ ∃ t r, s'.hist = s.hist ++ [.ret t r] := by
  cases h with
  | loc hp hl =>
    rename_i t pc q' c' o' pc' es
    have a := countP_set' (p := isIdle) (x := pc') hp
    dsimp only
    generalize s.slot = q0, s.closed = c0, s.owner = o0 at hl
    cases hl
    case done op r => exact .inr ⟨t, r, rfl⟩
    case call op he => cases op <;> simp [entry] at he <;> subst he <;> simp [isIdle] at a <;> left <;> omega
    all_goals (simp [isIdle] at a; left; omega)
  | one0 hp hn =>
    rename_i t op
    have a := countP_set' (p := isIdle) (x := .done op (.bool true)) hp
    simp [isIdle] at a; left; dsimp only; omega
  | one1 hp hs =>
    rename_i t op j
    have hne : j ≠ t := by rintro rfl; rw [hp] at hs; cases hs
    have a := countP_set' (p := isIdle) (l := s.pcs.set j .pLock) (t := t) (z := .sNotify op)
      (x := .done op (.bool true)) (by rw [List.getElem?_set_ne hne]; exact hp)
    have b := countP_set' (p := isIdle) (x := .pLock) hs
    simp [isIdle] at a b; left; dsimp only; omega
  | all hp =>
    rename_i t
    have a := countP_set' (p := isIdle) (l := s.pcs.map wake) (t := t) (z := .cNotify)
        (x := .done .close .unit) (by rw [List.getElem?_map, hp]; rfl)
    have hmap : (s.pcs.map wake).countP isIdle = s.pcs.countP isIdle := by
      rw [List.countP_map]; congr 1; funext x; cases x <;> rfl
    rw [hmap] at a
    simp [isIdle] at a; left; dsimp only; omega

/-- Work left, counting a thread outside the channel as one that may still make a call (measure for
exchange_channel.hpp:53-149). -/
def potential (n : Nat) (s : St α) : Nat := work n s.pcs + (2 * n + 9) * s.pcs.countP isIdle

theorem next_potential {s s' : St α} {a : Act α} (h : next cfg s a = some s') (ha : ∀ t, a ≠ .spurious t)
    (hr : ¬ ∃ t r, s'.hist = s.hist ++ [.ret t r]) : potential s.pcs.length s' < potential s.pcs.length s := by
  have hidle := (step_idle (next_step h)).resolve_right hr
  unfold potential
  have hmul := Nat.mul_le_mul_left (2 * s.pcs.length + 9) hidle
  cases a with
  | spurious t => exact absurd rfl (ha t)
  | stale t => have := (work_stale h).1; omega
  | step t w =>
    simp only [next] at h
    split at h
    · rename_i hp; have := (work_step hp h).1; omega
    · simp at h
  | throw t =>
    simp only [next] at h
    split at h
    · rename_i hp; have := (work_throw hp h).1; omega
    · simp at h
  | call t op =>
    simp only [next] at h
    split at h
    · rename_i hp
      simp only [Option.map_eq_some_iff] at h
      obtain ⟨pc, he, rfl⟩ := h
      simp only [St.goto, St.log]
      have a := work_set (n := s.pcs.length) (pc' := pc) hp
      have b := countP_set' (p := isIdle) (x := pc) hp
      have c : rank s.pcs.length pc ≤ 2 * s.pcs.length + 8 := by
        cases op <;> simp [entry] at he <;> subst he <;> simp only [rank] <;> omega
      have d : isIdle pc = false := by cases op <;> simp [entry] at he <;> subst he <;> rfl
      rw [d] at b
      have e : isIdle (PC.idle : PC α) = true := rfl
      rw [e] at b
      have f : rank s.pcs.length (PC.idle : PC α) = 0 := rfl
      rw [f] at a
      simp only [if_true, Bool.false_eq_true, if_false] at b
      rw [show s.pcs.countP isIdle = (s.pcs.set t pc).countP isIdle + 1 by omega, Nat.mul_add]
      omega
    · simp at h

end Verif.Exchange
