import Verif.Channel.LiveLemmas

/-! What one transition does, for `LiveProps.lean`. -/
namespace Verif.Channel

variable {α : Type} {cfg : Cfg} {n : Nat}

/-- May still go to sleep in the current call (channel.hpp:86-92, 180-181). -/
def PC.maySleep : PC α → Bool
  | .eFast _ | .eLock _ | .eCheck _ | .eSleep _ | .pLock | .pCheck | .pSleep => true
  | _ => false

/-- Waiting in `pop` for a value (channel.hpp:180-181). -/
def PC.waitE : PC α → Bool
  | .pLock | .pCheck | .pSleep => true
  | _ => false

/-- Waiting in `push` for room (channel.hpp:86-92). -/
def PC.waitF : PC α → Bool
  | .eFast _ | .eLock _ | .eCheck _ | .eSleep _ => true
  | _ => false

/-- Has inserted a value and not yet notified a consumer (channel.hpp:101-103, 127-129). -/
def isNtE : PC α → Bool | .sUnlock _ | .sNotify _ => true | _ => false
/-- Has removed a value and not yet notified a producer (channel.hpp:191-192, 209-210). -/
def isNtF : PC α → Bool | .rUnlock _ _ | .rNotify _ _ => true | _ => false
/-- A consumer about to test the queue or to take a value (channel.hpp:180-189). -/
def isPop : PC α → Bool | .pLock | .pCheck | .pBody => true | _ => false
/-- A producer about to test the queue or to insert a value (channel.hpp:91-100). -/
def isPush : PC α → Bool | .eLock _ | .eCheck _ | .eBody _ => true | _ => false

/-- One transition, seen from thread `u`: it stays, it is woken, or it takes a transition of its own. -/
theorem step_thread {s s' : St α} (h : Step cfg s s') {u : Nat} {pc : PC α} (hp : s.pcs[u]? = some pc) :
    s'.pcs[u]? = some pc ∨ (pc = .pSleep ∧ s'.pcs[u]? = some .pLock) ∨
    (∃ v, pc = .eSleep v ∧ s'.pcs[u]? = some (.eLock v)) ∨
    (∃ q' c' o' pc' es, Loc cfg u s.q s.closed s.owner pc q' c' o' pc' es ∧
      s' = ⟨q', c', o', s.pcs.set u pc', s.hist ++ es⟩ ∧ s'.pcs[u]? = some pc') ∨
    (∃ op, pc = .sNotify op ∧ s'.pcs[u]? = some (.done op (.bool true)) ∧
      ((∀ p ∈ s.pcs, p ≠ .pSleep) ∨ s'.pcs.countP isSlE < s.pcs.countP isSlE)) ∨
    (∃ op x, pc = .rNotify op x ∧ s'.pcs[u]? = some (.rRet op x) ∧
      ((∀ p ∈ s.pcs, ∀ v, p ≠ .eSleep v) ∨ s'.pcs.countP isSlF < s.pcs.countP isSlF)) ∨
    (pc = .cNotifyE ∧ s'.pcs[u]? = some .cNotifyF ∧ s'.pcs.countP isSlE = 0) ∨
    (pc = .cNotifyF ∧ s'.pcs[u]? = some (.done .close .unit) ∧ s'.pcs.countP isSlF = 0) := by
  have hlt := lt_of_getElem? hp
  cases h with
  | loc hp' hl =>
    rename_i t p q' c' o' p' es
    by_cases htu : t = u
    · subst htu
      rw [hp] at hp'; injection hp' with hp'; subst hp'
      exact .inr (.inr (.inr (.inl ⟨_, _, _, _, _, hl, rfl, List.getElem?_set_self hlt⟩)))
    · exact .inl (by dsimp only; rw [List.getElem?_set_ne htu]; exact hp)
  | oneE0 hp' hn =>
    rename_i t op
    by_cases htu : t = u
    · subst htu
      rw [hp] at hp'; injection hp' with hp'; subst hp'
      exact .inr (.inr (.inr (.inr (.inl ⟨_, rfl, List.getElem?_set_self hlt, .inl hn⟩))))
    · exact .inl (by dsimp only; rw [List.getElem?_set_ne htu]; exact hp)
  | oneF0 hp' hn =>
    rename_i t op x
    by_cases htu : t = u
    · subst htu
      rw [hp] at hp'; injection hp' with hp'; subst hp'
      exact .inr (.inr (.inr (.inr (.inr (.inl ⟨_, _, rfl, List.getElem?_set_self hlt, .inl hn⟩)))))
    · exact .inl (by dsimp only; rw [List.getElem?_set_ne htu]; exact hp)
  | oneE1 hp' hs =>
    rename_i t op j
    have hne : j ≠ t := by rintro rfl; rw [hp'] at hs; cases hs
    by_cases htu : t = u
    · subst htu
      have hp2 := hp'
      rw [hp] at hp'; injection hp' with hp'; subst hp'
      refine .inr (.inr (.inr (.inr (.inl ⟨_, rfl, List.getElem?_set_self (by simpa using hlt), .inr ?_⟩))))
      have a := countP_set' (p := isSlE) (l := s.pcs.set j .pLock) (t := t) (z := .sNotify op)
        (x := .done op (.bool true)) (by rw [List.getElem?_set_ne hne]; exact hp)
      have b := countP_set' (p := isSlE) (x := .pLock) hs
      simp [isSlE] at a b
      dsimp only; omega
    · by_cases hju : j = u
      · subst hju
        rw [hp] at hs; injection hs with hs; subst hs
        refine .inr (.inl ⟨rfl, ?_⟩)
        dsimp only
        rw [List.getElem?_set_ne htu, List.getElem?_set_self hlt]
      · exact .inl (by dsimp only; rw [List.getElem?_set_ne htu, List.getElem?_set_ne hju]; exact hp)
  | oneF1 hp' hs =>
    rename_i t op x j v
    have hne : j ≠ t := by rintro rfl; rw [hp'] at hs; cases hs
    by_cases htu : t = u
    · subst htu
      rw [hp] at hp'; injection hp' with hp'; subst hp'
      refine .inr (.inr (.inr (.inr (.inr (.inl ⟨_, _, rfl, List.getElem?_set_self (by simpa using hlt), .inr ?_⟩)))))
      have a := countP_set' (p := isSlF) (l := s.pcs.set j (.eLock v)) (t := t) (z := .rNotify op x)
        (x := .rRet op x) (by rw [List.getElem?_set_ne hne]; exact hp)
      have b := countP_set' (p := isSlF) (x := .eLock v) hs
      simp [isSlF] at a b
      dsimp only; omega
    · by_cases hju : j = u
      · subst hju
        rw [hp] at hs; injection hs with hs; subst hs
        refine .inr (.inr (.inl ⟨v, rfl, ?_⟩))
        dsimp only
        rw [List.getElem?_set_ne htu, List.getElem?_set_self hlt]
      · exact .inl (by dsimp only; rw [List.getElem?_set_ne htu, List.getElem?_set_ne hju]; exact hp)
  | allE hp' =>
    rename_i t
    by_cases htu : t = u
    · subst htu
      rw [hp] at hp'; injection hp' with hp'; subst hp'
      refine .inr (.inr (.inr (.inr (.inr (.inr (.inl ⟨rfl, List.getElem?_set_self (by simpa using hlt), ?_⟩))))))
      have a := countP_set' (p := isSlE) (l := s.pcs.map (fun p => (wakeE p).getD p)) (t := t) (z := .cNotifyE)
        (x := .cNotifyF) (by rw [List.getElem?_map, hp]; rfl)
      rw [no_slE_after] at a
      have a0 : isSlE (PC.cNotifyF : PC α) = false := rfl
      have a1 : isSlE (PC.cNotifyE : PC α) = false := rfl
      rw [a0, a1] at a
      simpa using a
    · dsimp only
      rw [List.getElem?_set_ne htu, List.getElem?_map, hp]
      cases pc <;> simp [wakeE]
  | allF hp' =>
    rename_i t
    by_cases htu : t = u
    · subst htu
      rw [hp] at hp'; injection hp' with hp'; subst hp'
      refine .inr (.inr (.inr (.inr (.inr (.inr (.inr ⟨rfl, List.getElem?_set_self (by simpa using hlt), ?_⟩))))))
      have a := countP_set' (p := isSlF) (l := s.pcs.map (fun p => (wakeF p).getD p)) (t := t) (z := .cNotifyF)
        (x := .done .close .unit) (by rw [List.getElem?_map, hp]; rfl)
      rw [no_slF_after] at a
      have a0 : isSlF (PC.done .close .unit : PC α) = false := rfl
      have a1 : isSlF (PC.cNotifyF : PC α) = false := rfl
      rw [a0, a1] at a
      simpa using a
    · dsimp only
      rw [List.getElem?_set_ne htu, List.getElem?_map, hp]
      cases pc <;> simp [wakeF]

/-- A thread that comes out of a member function has returned. -/
theorem step_returns {s s' : St α} (h : Step cfg s s') {u : Nat} {pc : PC α} (hp : s.pcs[u]? = some pc)
    (hi : pc ≠ .idle) (hp' : s'.pcs[u]? = some .idle) : ∃ r, s'.hist = s.hist ++ [.ret u r] := by
  rcases step_thread h hp with h1 | ⟨_, h1⟩ | ⟨v, _, h1⟩ | ⟨q', c', o', pc', es, hl, rfl, h1⟩ | ⟨op, _, h1, _⟩ |
    ⟨op, x, _, h1, _⟩ | ⟨_, h1, _⟩ | ⟨_, h1, _⟩
  all_goals rw [hp'] at h1; injection h1 with h1
  · exact absurd h1.symm hi
  all_goals first | (cases h1; done) | skip
  subst h1
  generalize hg : (PC.idle : PC α) = g at hl
  generalize s.q = q0, s.closed = c0, s.owner = o0 at hl
  cases hl <;> first | (cases hg; done) | skip
  case call op => cases op <;> cases hg
  case done op r => exact ⟨r, rfl⟩

/-- A call puts the thread at the first position of the member function. -/
theorem step_calls {s s' : St α} (h : Step cfg s s') {t : Nat} {op : Op α} (hc : s'.hist = s.hist ++ [.call t op]) :
    s'.pcs[t]? = some (entry op) := by
  cases h with
  | loc hp hl =>
    rename_i u p q' c' o' p' es
    dsimp only at hc ⊢
    have hes := List.append_cancel_left hc
    generalize s.q = q0, s.closed = c0, s.owner = o0 at hl
    cases hl <;> simp at hes
    obtain ⟨rfl, rfl⟩ := hes
    exact List.getElem?_set_self (lt_of_getElem? hp)
  | _ => simp at hc

theorem step_maySleep {s s' : St α} (h : Step cfg s s') {u : Nat} {pc : PC α} (hp : s.pcs[u]? = some pc)
    (hi : pc ≠ .idle) (hm : pc.maySleep = false) : ∃ pc', s'.pcs[u]? = some pc' ∧ pc'.maySleep = false := by
  rcases step_thread h hp with h1 | ⟨rfl, h1⟩ | ⟨v, rfl, h1⟩ | ⟨q', c', o', pc', es, hl, rfl, h1⟩ | ⟨op, _, h1, _⟩ |
    ⟨op, x, _, h1, _⟩ | ⟨_, h1, _⟩ | ⟨_, h1, _⟩
  · exact ⟨_, h1, hm⟩
  · simp [PC.maySleep] at hm
  · simp [PC.maySleep] at hm
  · refine ⟨_, h1, ?_⟩
    generalize s.q = q0, s.closed = c0, s.owner = o0 at hl
    cases hl <;> first | rfl | (simp [PC.maySleep] at hm; done) | exact absurd rfl hi
  all_goals exact ⟨_, h1, rfl⟩

theorem step_waitE {s s' : St α} (h : Step cfg s s') {u : Nat} {pc : PC α} (hp : s.pcs[u]? = some pc)
    (hm : pc.waitE = true) : s'.pcs[u]? = some .pBody ∨ ∃ pc', s'.pcs[u]? = some pc' ∧ pc'.waitE = true ∧
      (pc' = .pSleep → pc = .pSleep ∨ s.q = [] ∧ s.closed = false) := by
  rcases step_thread h hp with h1 | ⟨rfl, h1⟩ | ⟨v, rfl, h1⟩ | ⟨q', c', o', pc', es, hl, rfl, h1⟩ | ⟨op, rfl, h1, _⟩ |
    ⟨op, x, rfl, h1, _⟩ | ⟨rfl, h1, _⟩ | ⟨rfl, h1, _⟩
  · exact .inr ⟨_, h1, hm, .inl⟩
  · exact .inr ⟨_, h1, rfl, by simp⟩
  · simp [PC.waitE] at hm
  · generalize hq : s.q = q at *
    generalize hc : s.closed = c at *
    generalize s.owner = o0 at hl
    cases hl <;> first | (simp [PC.waitE] at hm; done) | skip
    · exact .inr ⟨_, h1, rfl, by simp⟩
    · exact .inl h1
    · rename_i hx
      refine .inr ⟨_, h1, rfl, fun _ => .inr ?_⟩
      cases q' <;> cases c' <;> simp_all
    · exact .inr ⟨_, h1, rfl, by simp⟩
  all_goals simp [PC.waitE] at hm

theorem step_waitF {s s' : St α} (h : Step cfg s s') {u : Nat} {pc : PC α} (hp : s.pcs[u]? = some pc)
    (hm : pc.waitF = true) : (∃ v, s'.pcs[u]? = some (.eBody v)) ∨
      (∃ op r, s'.pcs[u]? = some (.done op r)) ∨ ∃ pc', s'.pcs[u]? = some pc' ∧ pc'.waitF = true ∧
      (∀ v, pc' = .eSleep v → (∃ v, pc = .eSleep v) ∨ cfg.cap ≤ s.q.length ∧ s.closed = false) := by
  rcases step_thread h hp with h1 | ⟨rfl, h1⟩ | ⟨v, rfl, h1⟩ | ⟨q', c', o', pc', es, hl, rfl, h1⟩ | ⟨op, rfl, h1, _⟩ |
    ⟨op, x, rfl, h1, _⟩ | ⟨rfl, h1, _⟩ | ⟨rfl, h1, _⟩
  · exact .inr (.inr ⟨_, h1, hm, fun v hv => .inl ⟨v, hv⟩⟩)
  · simp [PC.waitF] at hm
  · exact .inr (.inr ⟨_, h1, rfl, by simp⟩)
  · generalize hq : s.q = q at *
    generalize hc : s.closed = c at *
    generalize s.owner = o0 at hl
    cases hl <;> first | (simp [PC.waitF] at hm; done) | skip
    · exact .inr (.inl ⟨_, _, h1⟩)
    · exact .inr (.inr ⟨_, h1, rfl, by simp⟩)
    · exact .inr (.inr ⟨_, h1, rfl, by simp⟩)
    · exact .inl ⟨_, h1⟩
    · rename_i hx
      refine .inr (.inr ⟨_, h1, rfl, fun _ _ => .inr ?_⟩)
      cases c' <;> simp_all
    · exact .inr (.inr ⟨_, h1, rfl, by simp⟩)
  all_goals simp [PC.waitF] at hm

theorem step_slE {s s' : St α} (h : Step cfg s s') (hq : s.q ≠ [] ∨ s.closed = true) :
    s'.pcs.countP isSlE ≤ s.pcs.countP isSlE := by
  cases h with
  | loc hp hl =>
    rename_i t pc q' c' o' pc' es
    have a := countP_set' (p := isSlE) (x := pc') hp
    dsimp only
    suffices isSlE pc' = true → isSlE pc = true by
      cases h1 : isSlE pc' <;> cases h2 : isSlE pc <;> simp_all <;> omega
    intro h1
    generalize s.q = q at *
    generalize s.closed = c at *
    generalize s.owner = o0 at hl
    cases hl <;> first | (simp [isSlE] at h1; done) | skip
    case call op => cases op <;> simp [entry, isSlE] at h1
    case pCheckSl hx => exact absurd hq hx
  | oneE0 hp hn =>
    rename_i t op
    have a := countP_set' (p := isSlE) (x := .done op (.bool true)) hp
    simp [isSlE] at a; dsimp only; omega
  | oneF0 hp hn =>
    rename_i t op x
    have a := countP_set' (p := isSlE) (x := .rRet op x) hp
    simp [isSlE] at a; dsimp only; omega
  | oneE1 hp hs =>
    rename_i t op j
    have hne : j ≠ t := by rintro rfl; rw [hp] at hs; cases hs
    have a := countP_set' (p := isSlE) (l := s.pcs.set j .pLock) (t := t) (z := .sNotify op)
      (x := .done op (.bool true)) (by rw [List.getElem?_set_ne hne]; exact hp)
    have b := countP_set' (p := isSlE) (x := .pLock) hs
    simp [isSlE] at a b; dsimp only; omega
  | oneF1 hp hs =>
    rename_i t op x j v
    have hne : j ≠ t := by rintro rfl; rw [hp] at hs; cases hs
    have a := countP_set' (p := isSlE) (l := s.pcs.set j (.eLock v)) (t := t) (z := .rNotify op x)
      (x := .rRet op x) (by rw [List.getElem?_set_ne hne]; exact hp)
    have b := countP_set' (p := isSlE) (x := .eLock v) hs
    simp [isSlE] at a b; dsimp only; omega
  | allE hp =>
    rename_i t
    have a := countP_set' (p := isSlE) (l := s.pcs.map (fun p => (wakeE p).getD p)) (t := t) (z := .cNotifyE)
        (x := .cNotifyF) (by rw [List.getElem?_map, hp]; rfl)
    rw [no_slE_after] at a
    have a0 : isSlE (PC.cNotifyF : PC α) = false := rfl
    have a1 : isSlE (PC.cNotifyE : PC α) = false := rfl
    rw [a0, a1] at a
    dsimp only; rw [show List.countP isSlE _ = 0 by simpa using a]; omega
  | allF hp =>
    rename_i t
    have a := countP_set' (p := isSlE) (l := s.pcs.map (fun p => (wakeF p).getD p)) (t := t) (z := .cNotifyF)
        (x := .done .close .unit) (by rw [List.getElem?_map, hp]; rfl)
    rw [countP_map_wakeF (by intro x; cases x <;> rfl)] at a
    simp [isSlE] at a; dsimp only; omega

theorem step_slF {s s' : St α} (h : Step cfg s s') (hq : s.q.length < cfg.cap ∨ s.closed = true) :
    s'.pcs.countP isSlF ≤ s.pcs.countP isSlF := by
  cases h with
  | loc hp hl =>
    rename_i t pc q' c' o' pc' es
    have a := countP_set' (p := isSlF) (x := pc') hp
    dsimp only
    suffices isSlF pc' = true → isSlF pc = true by
      cases h1 : isSlF pc' <;> cases h2 : isSlF pc <;> simp_all <;> omega
    intro h1
    generalize s.q = q at *
    generalize s.closed = c at *
    generalize s.owner = o0 at hl
    cases hl <;> first | (simp [isSlF] at h1; done) | skip
    case call op => cases op <;> simp [entry, isSlF] at h1
    case eCheckSl hx => exact absurd hq hx
  | oneE0 hp hn =>
    rename_i t op
    have a := countP_set' (p := isSlF) (x := .done op (.bool true)) hp
    simp [isSlF] at a; dsimp only; omega
  | oneF0 hp hn =>
    rename_i t op x
    have a := countP_set' (p := isSlF) (x := .rRet op x) hp
    simp [isSlF] at a; dsimp only; omega
  | oneE1 hp hs =>
    rename_i t op j
    have hne : j ≠ t := by rintro rfl; rw [hp] at hs; cases hs
    have a := countP_set' (p := isSlF) (l := s.pcs.set j .pLock) (t := t) (z := .sNotify op)
      (x := .done op (.bool true)) (by rw [List.getElem?_set_ne hne]; exact hp)
    have b := countP_set' (p := isSlF) (x := .pLock) hs
    simp [isSlF] at a b; dsimp only; omega
  | oneF1 hp hs =>
    rename_i t op x j v
    have hne : j ≠ t := by rintro rfl; rw [hp] at hs; cases hs
    have a := countP_set' (p := isSlF) (l := s.pcs.set j (.eLock v)) (t := t) (z := .rNotify op x)
      (x := .rRet op x) (by rw [List.getElem?_set_ne hne]; exact hp)
    have b := countP_set' (p := isSlF) (x := .eLock v) hs
    simp [isSlF] at a b; dsimp only; omega
  | allF hp =>
    rename_i t
    have a := countP_set' (p := isSlF) (l := s.pcs.map (fun p => (wakeF p).getD p)) (t := t) (z := .cNotifyF)
        (x := .done .close .unit) (by rw [List.getElem?_map, hp]; rfl)
    rw [no_slF_after] at a
    have a0 : isSlF (PC.cNotifyF : PC α) = false := rfl
    have a1 : isSlF (PC.done .close .unit : PC α) = false := rfl
    rw [a0, a1] at a
    dsimp only; rw [show List.countP isSlF _ = 0 by simpa using a]; omega
  | allE hp =>
    rename_i t
    have a := countP_set' (p := isSlF) (l := s.pcs.map (fun p => (wakeE p).getD p)) (t := t) (z := .cNotifyE)
        (x := .cNotifyF) (by rw [List.getElem?_map, hp]; rfl)
    rw [countP_map_wakeE (by intro x; cases x <;> rfl)] at a
    simp [isSlF] at a; dsimp only; omega

theorem step_ntE {s s' : St α} (h : Step cfg s s') {u : Nat} {pc pc' : PC α} (hp : s.pcs[u]? = some pc)
    (hm : isNtE pc = true) (hp' : s'.pcs[u]? = some pc') (hm' : isNtE pc' = false) :
    (∀ p ∈ s.pcs, p ≠ .pSleep) ∨ s'.pcs.countP isSlE < s.pcs.countP isSlE := by
  rcases step_thread h hp with h1 | ⟨rfl, h1⟩ | ⟨v, rfl, h1⟩ | ⟨q', c', o', pc', es, hl, rfl, h1⟩ | ⟨op, rfl, h1, h2⟩ |
    ⟨op, x, rfl, h1, _⟩ | ⟨rfl, h1, _⟩ | ⟨rfl, h1, _⟩
  · rw [hp'] at h1; injection h1 with h1; subst h1; rw [hm] at hm'; cases hm'
  · simp [isNtE] at hm
  · simp [isNtE] at hm
  · rw [hp'] at h1; injection h1 with h1; subst h1
    generalize s.q = q0, s.closed = c0, s.owner = o0 at hl
    cases hl <;> first | (simp [isNtE] at hm; done) | (simp [isNtE] at hm'; done)
  · exact h2
  all_goals simp [isNtE] at hm

theorem step_ntF {s s' : St α} (h : Step cfg s s') {u : Nat} {pc pc' : PC α} (hp : s.pcs[u]? = some pc)
    (hm : isNtF pc = true) (hp' : s'.pcs[u]? = some pc') (hm' : isNtF pc' = false) :
    (∀ p ∈ s.pcs, ∀ v, p ≠ .eSleep v) ∨ s'.pcs.countP isSlF < s.pcs.countP isSlF := by
  rcases step_thread h hp with h1 | ⟨rfl, h1⟩ | ⟨v, rfl, h1⟩ | ⟨q', c', o', pc', es, hl, rfl, h1⟩ | ⟨op, rfl, h1, _⟩ |
    ⟨op, x, rfl, h1, h2⟩ | ⟨rfl, h1, _⟩ | ⟨rfl, h1, _⟩
  · rw [hp'] at h1; injection h1 with h1; subst h1; rw [hm] at hm'; cases hm'
  · simp [isNtF] at hm
  · simp [isNtF] at hm
  · rw [hp'] at h1; injection h1 with h1; subst h1
    generalize s.q = q0, s.closed = c0, s.owner = o0 at hl
    cases hl <;> first | (simp [isNtF] at hm; done) | (simp [isNtF] at hm'; done)
  · simp [isNtF] at hm
  · exact h2
  all_goals simp [isNtF] at hm

theorem step_clE {s s' : St α} (h : Step cfg s s') {u : Nat} {pc pc' : PC α} (hp : s.pcs[u]? = some pc)
    (hm : isClE pc = true) (hp' : s'.pcs[u]? = some pc') (hm' : isClE pc' = false) : s'.pcs.countP isSlE = 0 := by
  rcases step_thread h hp with h1 | ⟨rfl, h1⟩ | ⟨v, rfl, h1⟩ | ⟨q', c', o', pc', es, hl, rfl, h1⟩ | ⟨op, rfl, h1, _⟩ |
    ⟨op, x, rfl, h1, _⟩ | ⟨rfl, h1, h2⟩ | ⟨rfl, h1, _⟩
  · rw [hp'] at h1; injection h1 with h1; subst h1; rw [hm] at hm'; cases hm'
  · simp [isClE] at hm
  · simp [isClE] at hm
  · rw [hp'] at h1; injection h1 with h1; subst h1
    generalize s.q = q0, s.closed = c0, s.owner = o0 at hl
    cases hl <;> first | (simp [isClE] at hm; done) | (simp [isClE] at hm'; done)
  · simp [isClE] at hm
  · simp [isClE] at hm
  · exact h2
  · simp [isClE] at hm

theorem step_clF {s s' : St α} (h : Step cfg s s') {u : Nat} {pc pc' : PC α} (hp : s.pcs[u]? = some pc)
    (hm : isClF pc = true) (hp' : s'.pcs[u]? = some pc') (hm' : isClF pc' = false) : s'.pcs.countP isSlF = 0 := by
  rcases step_thread h hp with h1 | ⟨rfl, h1⟩ | ⟨v, rfl, h1⟩ | ⟨q', c', o', pc', es, hl, rfl, h1⟩ | ⟨op, rfl, h1, _⟩ |
    ⟨op, x, rfl, h1, _⟩ | ⟨rfl, h1, _⟩ | ⟨rfl, h1, h2⟩
  · rw [hp'] at h1; injection h1 with h1; subst h1; rw [hm] at hm'; cases hm'
  · simp [isClF] at hm
  · simp [isClF] at hm
  · rw [hp'] at h1; injection h1 with h1; subst h1
    generalize s.q = q0, s.closed = c0, s.owner = o0 at hl
    cases hl <;> first | (simp [isClF] at hm; done) | (simp [isClF] at hm'; done)
  · simp [isClF] at hm
  · simp [isClF] at hm
  · rw [hp'] at h1; injection h1 with h1; subst h1; simp [isClF] at hm'
  · exact h2

/-- The queue grows and shrinks only by insertions and removals, after which a notification is due. -/
theorem step_queue {s s' : St α} (h : Step cfg s s') : s'.q.length = s.q.length ∨
    (s'.q.length = s.q.length + 1 ∧ ∃ (u : Nat) (pc : PC α), s'.pcs[u]? = some pc ∧ isNtE pc = true) ∨
    (s.q.length = s'.q.length + 1 ∧ ∃ (u : Nat) (pc : PC α), s'.pcs[u]? = some pc ∧ isNtF pc = true) := by
  cases h with
  | loc hp hl =>
    rename_i t pc q' c' o' pc' es
    have hs : (s.pcs.set t pc')[t]? = some pc' := List.getElem?_set_self (lt_of_getElem? hp)
    dsimp only
    generalize s.q = q at *
    generalize s.closed = c at *
    generalize s.owner = o0 at hl
    cases hl <;> first
      | exact .inl rfl
      | exact .inr (.inl ⟨by simp, _, _, hs, rfl⟩)
      | exact .inr (.inr ⟨by simp, _, _, hs, rfl⟩)
  | _ => exact .inl rfl

theorem step_isPop {s s' : St α} (hm : cfg.moveThrow = false) (h : Step cfg s s') {u : Nat} {pc pc' : PC α}
    (hp : s.pcs[u]? = some pc) (hi : isPop pc = true) (hp' : s'.pcs[u]? = some pc') (hi' : isPop pc' = false)
    (hq : s.q ≠ []) : s.q.length = s'.q.length + 1 := by
  rcases step_thread h hp with h1 | ⟨rfl, h1⟩ | ⟨v, rfl, h1⟩ | ⟨q', c', o', pc', es, hl, rfl, h1⟩ | ⟨op, rfl, h1, _⟩ |
    ⟨op, x, rfl, h1, _⟩ | ⟨rfl, h1, _⟩ | ⟨rfl, h1, _⟩
  · rw [hp'] at h1; injection h1 with h1; subst h1; rw [hi] at hi'; cases hi'
  · simp [isPop] at hi
  · simp [isPop] at hi
  · rw [hp'] at h1; injection h1 with h1; subst h1
    dsimp only
    generalize s.q = q at *
    generalize s.closed = c at *
    generalize s.owner = o0 at hl
    cases hl <;> first | (simp [isPop] at hi; done) | (simp [isPop] at hi'; done) | skip
    case pCheckSl hx => exact absurd (.inl hq) hx
    case pBodyN => exact absurd rfl hq
    case pBodyS => simp
    case pBodyT hx => rw [hm] at hx; cases hx
  all_goals simp [isPop] at hi

theorem step_isPush {s s' : St α} (hm : cfg.ctorThrow = false) (h : Step cfg s s') {u : Nat} {pc pc' : PC α}
    (hp : s.pcs[u]? = some pc) (hi : isPush pc = true) (hp' : s'.pcs[u]? = some pc') (hi' : isPush pc' = false)
    (hq : s.q.length < cfg.cap) (hc : s.closed = false) : s'.q.length = s.q.length + 1 := by
  rcases step_thread h hp with h1 | ⟨rfl, h1⟩ | ⟨v, rfl, h1⟩ | ⟨q', c', o', pc', es, hl, rfl, h1⟩ | ⟨op, rfl, h1, _⟩ |
    ⟨op, x, rfl, h1, _⟩ | ⟨rfl, h1, _⟩ | ⟨rfl, h1, _⟩
  · rw [hp'] at h1; injection h1 with h1; subst h1; rw [hi] at hi'; cases hi'
  · simp [isPush] at hi
  · simp [isPush] at hi
  · rw [hp'] at h1; injection h1 with h1; subst h1
    dsimp only
    generalize s.q = q at *
    generalize s.closed = c at *
    generalize s.owner = o0 at hl
    cases hl <;> first | (simp [isPush] at hi; done) | (simp [isPush] at hi'; done) | skip
    case eCheckSl hx => exact absurd (.inl hq) hx
    case eBodyC => cases hc
    case eBodyO => simp
    case eBodyT hx => rw [hm] at hx; cases hx
  all_goals simp [isPush] at hi

theorem step_closed {s s' : St α} (h : Step cfg s s') (hc : s.closed = true) : s'.closed = true := by
  cases h with
  | loc hp hl =>
    dsimp only
    generalize s.closed = c at *
    generalize s.q = q0, s.owner = o0 at hl
    cases hl <;> first | exact hc | rfl
  | _ => exact hc

/-! ### Who consumes and who produces -/

/-- In a call of `pop` or `try_pop` and has not taken a value yet (channel.hpp:179-189, 200-207). -/
def isCons : PC α → Bool | .pLock | .pCheck | .pSleep | .pBody | .qLock | .qBody => true | _ => false
/-- In a call of `push` or `try_push` and has not inserted yet (channel.hpp:85-100, 114-126). -/
def isProd : PC α → Bool
  | .eFast _ | .eLock _ | .eCheck _ | .eSleep _ | .eBody _ | .tFast _ | .tLock _ | .tBody _ => true
  | _ => false
/-- Not inside any member function (about channel.hpp:58-212). -/
def isIdle : PC α → Bool | .idle => true | _ => false

theorem step_cons {s s' : St α} (h : Step cfg s s') {u : Nat} {pc pc' : PC α} (hp : s.pcs[u]? = some pc)
    (hp' : s'.pcs[u]? = some pc') (hc : isCons pc' = true) :
    isCons pc = true ∨ ∃ op, (op = .pop ∨ op = .tryPop) ∧ s'.hist = s.hist ++ [.call u op] := by
  rcases step_thread h hp with h1 | ⟨rfl, h1⟩ | ⟨v, rfl, h1⟩ | ⟨q', c', o', pc', es, hl, rfl, h1⟩ | ⟨op, rfl, h1, _⟩ |
    ⟨op, x, rfl, h1, _⟩ | ⟨rfl, h1, _⟩ | ⟨rfl, h1, _⟩
  all_goals rw [hp'] at h1; injection h1 with h1; subst h1
  · exact .inl hc
  · exact .inl rfl
  · simp [isCons] at hc
  · generalize s.q = q0, s.closed = c0, s.owner = o0 at hl
    cases hl <;> first | exact .inl rfl | (simp [isCons] at hc; done) | skip
    case call op =>
      refine .inr ⟨op, ?_, rfl⟩
      cases op <;> simp [entry, isCons] at hc ⊢
  all_goals simp [isCons] at hc

theorem step_prod {s s' : St α} (h : Step cfg s s') {u : Nat} {pc pc' : PC α} (hp : s.pcs[u]? = some pc)
    (hp' : s'.pcs[u]? = some pc') (hc : isProd pc' = true) :
    isProd pc = true ∨ ∃ op, (∃ v, op = .push v ∨ op = .tryPush v) ∧ s'.hist = s.hist ++ [.call u op] := by
  rcases step_thread h hp with h1 | ⟨rfl, h1⟩ | ⟨v, rfl, h1⟩ | ⟨q', c', o', pc', es, hl, rfl, h1⟩ | ⟨op, rfl, h1, _⟩ |
    ⟨op, x, rfl, h1, _⟩ | ⟨rfl, h1, _⟩ | ⟨rfl, h1, _⟩
  all_goals rw [hp'] at h1; injection h1 with h1; subst h1
  · exact .inl hc
  · simp [isProd] at hc
  · exact .inl rfl
  · generalize s.q = q0, s.closed = c0, s.owner = o0 at hl
    cases hl <;> first | exact .inl rfl | (simp [isProd] at hc; done) | skip
    case call op =>
      refine .inr ⟨op, ?_, rfl⟩
      cases op <;> simp [entry, isProd] at hc ⊢
  all_goals simp [isProd] at hc

theorem step_removes {s s' : St α} (h : Step cfg s s') (hq : s'.q.length < s.q.length) :
    ∃ u : Nat, s.pcs[u]? = some .pBody ∨ s.pcs[u]? = some .qBody := by
  cases h with
  | loc hp hl =>
    rename_i t pc q' c' o' pc' es
    dsimp only at hq
    generalize s.q = q0, s.closed = c0, s.owner = o0 at hl hq
    cases hl <;> first | exact ⟨t, .inl hp⟩ | exact ⟨t, .inr hp⟩ | (simp at hq; done) | (simp at hq; omega)
  | _ => simp at hq

theorem step_inserts {s s' : St α} (h : Step cfg s s') (hq : s.q.length < s'.q.length) :
    ∃ (u : Nat) (v : α), s.pcs[u]? = some (.eBody v) ∨ s.pcs[u]? = some (.tBody v) := by
  cases h with
  | loc hp hl =>
    rename_i t pc q' c' o' pc' es
    dsimp only at hq
    generalize s.q = q0, s.closed = c0, s.owner = o0 at hl hq
    cases hl <;> first | exact ⟨t, _, .inl hp⟩ | exact ⟨t, _, .inr hp⟩ | (simp at hq; done) | (simp at hq; omega)
  | _ => simp at hq

theorem step_idle {s s' : St α} (h : Step cfg s s') :
    s'.pcs.countP isIdle ≤ s.pcs.countP isIdle ∨ ∃ t r, s'.hist = s.hist ++ [.ret t r] := by
  cases h with
  | loc hp hl =>
    rename_i t pc q' c' o' pc' es
    have a := countP_set' (p := isIdle) (x := pc') hp
    dsimp only
    generalize s.q = q0, s.closed = c0, s.owner = o0 at hl
    cases hl
    case done op r => exact .inr ⟨t, r, rfl⟩
    case call op => cases op <;> simp [isIdle, entry] at a <;> left <;> simp only [entry] <;> omega
    all_goals (simp [isIdle] at a; left; omega)
  | oneE0 hp hn =>
    rename_i t op
    have a := countP_set' (p := isIdle) (x := .done op (.bool true)) hp
    simp [isIdle] at a; left; dsimp only; omega
  | oneF0 hp hn =>
    rename_i t op x
    have a := countP_set' (p := isIdle) (x := .rRet op x) hp
    simp [isIdle] at a; left; dsimp only; omega
  | oneE1 hp hs =>
    rename_i t op j
    have hne : j ≠ t := by rintro rfl; rw [hp] at hs; cases hs
    have a := countP_set' (p := isIdle) (l := s.pcs.set j .pLock) (t := t) (z := .sNotify op)
      (x := .done op (.bool true)) (by rw [List.getElem?_set_ne hne]; exact hp)
    have b := countP_set' (p := isIdle) (x := .pLock) hs
    simp [isIdle] at a b; left; dsimp only; omega
  | oneF1 hp hs =>
    rename_i t op x j v
    have hne : j ≠ t := by rintro rfl; rw [hp] at hs; cases hs
    have a := countP_set' (p := isIdle) (l := s.pcs.set j (.eLock v)) (t := t) (z := .rNotify op x)
      (x := .rRet op x) (by rw [List.getElem?_set_ne hne]; exact hp)
    have b := countP_set' (p := isIdle) (x := .eLock v) hs
    simp [isIdle] at a b; left; dsimp only; omega
  | allE hp =>
    rename_i t
    have a := countP_set' (p := isIdle) (l := s.pcs.map (fun p => (wakeE p).getD p)) (t := t) (z := .cNotifyE)
        (x := .cNotifyF) (by rw [List.getElem?_map, hp]; rfl)
    rw [countP_map_wakeE (by intro x; cases x <;> rfl)] at a
    simp [isIdle] at a; left; dsimp only; omega
  | allF hp =>
    rename_i t
    have a := countP_set' (p := isIdle) (l := s.pcs.map (fun p => (wakeF p).getD p)) (t := t) (z := .cNotifyF)
        (x := .done .close .unit) (by rw [List.getElem?_map, hp]; rfl)
    rw [countP_map_wakeF (by intro x; cases x <;> rfl)] at a
    simp [isIdle] at a; left; dsimp only; omega

/-- Work left, counting a thread outside the channel as one that may still make a call (measure for channel.hpp:58-212). -/
def potential (n : Nat) (s : St α) : Nat := work n s.pcs + (4 * n + 11) * s.pcs.countP isIdle

theorem next_potential {s s' : St α} {a : Act α} (h : next cfg s a = some s') (ha : ∀ t, a ≠ .spurious t)
    (hr : ¬ ∃ t r, s'.hist = s.hist ++ [.ret t r]) : potential s.pcs.length s' < potential s.pcs.length s := by
  have hidle := (step_idle (next_step h)).resolve_right hr
  unfold potential
  have hmul := Nat.mul_le_mul_left (4 * s.pcs.length + 11) hidle
  cases a with
  | spurious t => exact absurd rfl (ha t)
  | stale t => have := (work_stale h).1; omega
  | step t w =>
    simp only [next] at h
    split at h
    · rename_i hp; have := (work_step hp h).1; omega
    · simp at h
  | throw t =>
    simp only [next] at h
    split at h
    · rename_i hp; have := (work_throw hp h).1; omega
    · simp at h
  | call t op =>
    simp only [next] at h
    split at h <;> simp at h
    rename_i hp
    subst h
    simp only [St.goto, St.log]
    have a := work_set (n := s.pcs.length) (pc' := entry op) hp
    have b := countP_set' (p := isIdle) (x := entry op) hp
    have c : rank s.pcs.length (entry op) ≤ 4 * s.pcs.length + 10 := by cases op <;> simp only [entry, rank] <;> omega
    have d : isIdle (entry op) = false := by cases op <;> rfl
    rw [d] at b
    have e : isIdle (PC.idle : PC α) = true := rfl
    rw [e] at b
    have f : rank s.pcs.length (PC.idle : PC α) = 0 := rfl
    rw [f] at a
    simp only [if_true, Bool.false_eq_true, if_false] at b
    rw [show s.pcs.countP isIdle = (s.pcs.set t (entry op)).countP isIdle + 1 by omega, Nat.mul_add]
    omega

end Verif.Channel
