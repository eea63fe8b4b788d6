import Verif.Channel.Step

/-! Invariants of the channel model. -/
namespace Verif.Channel

variable {α : Type}

/-! ### Mutex ownership -/

/-- A thread is at a lock-holding position iff it owns the mutex. -/
def LockInv (s : St α) : Prop :=
  (∀ i pc, s.pcs[i]? = some pc → (pc.holds = true ↔ s.owner = some i)) ∧
  (∀ i, s.owner = some i → i < s.pcs.length)

theorem Loc.lock {cfg : Cfg} {t : Nat} {q c o} {pc : PC α} {q' c' o' pc' es}
    (h : Loc cfg t q c o pc q' c' o' pc' es) :
    (o' = o ∧ pc'.holds = pc.holds) ∨ (o = none ∧ o' = some t ∧ pc'.holds = true) ∨
    (pc.holds = true ∧ o' = none ∧ pc'.holds = false) := by
  cases h <;> simp [PC.holds]
  case call op => cases op <;> simp [entry]

theorem lt_of_getElem? {β : Type} {l : List β} {i : Nat} {x : β} (h : l[i]? = some x) : i < l.length := by
  obtain ⟨h, _⟩ := List.getElem?_eq_some_iff.mp h; exact h

theorem getElem?_set' {β : Type} {l : List β} {t i : Nat} {x y z : β} (ht : l[t]? = some z)
    (h : (l.set t x)[i]? = some y) : (i = t ∧ y = x) ∨ (i ≠ t ∧ l[i]? = some y) := by
  have := lt_of_getElem? ht
  rw [List.getElem?_set] at h
  by_cases hi : t = i
  · subst hi; simp [this] at h; exact .inl ⟨rfl, h.symm⟩
  · simp [hi] at h; exact .inr ⟨fun h => hi h.symm, h⟩

theorem lockInv_set {q c o h q' c' o' h'} {pcs : List (PC α)} {t : Nat} {pc pc' : PC α}
    (hi : LockInv ⟨q, c, o, pcs, h⟩) (ht : pcs[t]? = some pc)
    (hl : (o' = o ∧ pc'.holds = pc.holds) ∨ (o = none ∧ o' = some t ∧ pc'.holds = true) ∨
      (pc.holds = true ∧ o' = none ∧ pc'.holds = false)) :
    LockInv ⟨q', c', o', pcs.set t pc', h'⟩ := by
  obtain ⟨h1, h2⟩ := hi
  have hlt := lt_of_getElem? ht
  constructor
  · intro i p hp
    dsimp only at hp h1 ⊢
    have ht' := h1 t pc ht
    rcases getElem?_set' ht hp with ⟨rfl, rfl⟩ | ⟨hne, hp⟩
    · rcases hl with ⟨rfl, he⟩ | ⟨_, rfl, he⟩ | ⟨_, rfl, he⟩
      · rw [he]; exact ht'
      · simp [he]
      · simp [he]
    · have := h1 i p hp
      rcases hl with ⟨rfl, he⟩ | ⟨rfl, rfl, he⟩ | ⟨hh, rfl, he⟩
      · exact this
      · rw [this]; simp; omega
      · rw [this, ht'.mp hh]; simp; omega
  · intro i ho
    dsimp only at ho h2 ⊢
    rw [List.length_set]
    rcases hl with ⟨rfl, _⟩ | ⟨_, rfl, _⟩ | ⟨_, rfl, _⟩
    · exact h2 i ho
    · simp at ho; omega
    · simp at ho

theorem lockInv_map {q c o h} {pcs : List (PC α)} {f : PC α → PC α} (hf : ∀ p, (f p).holds = p.holds)
    (hi : LockInv ⟨q, c, o, pcs, h⟩) : LockInv ⟨q, c, o, pcs.map f, h⟩ := by
  obtain ⟨h1, h2⟩ := hi
  constructor
  · intro i p hp
    dsimp only at hp h1 ⊢
    rw [List.getElem?_map] at hp
    cases hq : pcs[i]? with
    | none => simp [hq] at hp
    | some p' => simp [hq] at hp; subst hp; rw [hf]; exact h1 i p' hq
  · intro i ho
    have := h2 i ho
    simpa using this

theorem wakeE_holds (p : PC α) : ((wakeE p).getD p).holds = p.holds := by cases p <;> rfl
theorem wakeF_holds (p : PC α) : ((wakeF p).getD p).holds = p.holds := by cases p <;> rfl

theorem lockInv_step {cfg : Cfg} {s s' : St α} (hi : LockInv s) (h : Step cfg s s') : LockInv s' := by
  cases h with
  | loc hp hl => exact lockInv_set hi hp hl.lock
  | oneE0 hp hn => exact lockInv_set hi hp (.inl ⟨rfl, rfl⟩)
  | oneE1 hp hs =>
    rename_i t op i
    have h1 := lockInv_set (q' := s.q) (c' := s.closed) (h' := s.hist) (pc' := .pLock) hi hs (.inl ⟨rfl, rfl⟩)
    refine lockInv_set (pc := .sNotify op) h1 ?_ (.inl ⟨rfl, rfl⟩)
    rw [List.getElem?_set_ne]; exact hp
    rintro rfl; rw [hp] at hs; cases hs
  | oneF0 hp hn => exact lockInv_set hi hp (.inl ⟨rfl, rfl⟩)
  | oneF1 hp hs =>
    rename_i t op x i v
    have h1 := lockInv_set (q' := s.q) (c' := s.closed) (h' := s.hist) (pc' := .eLock v) hi hs (.inl ⟨rfl, rfl⟩)
    refine lockInv_set (pc := .rNotify op x) h1 ?_ (.inl ⟨rfl, rfl⟩)
    rw [List.getElem?_set_ne]; exact hp
    rintro rfl; rw [hp] at hs; cases hs
  | allE hp =>
    have h1 := lockInv_map wakeE_holds hi
    refine lockInv_set (pc := .cNotifyE) h1 ?_ (.inl ⟨rfl, rfl⟩)
    rw [List.getElem?_map, hp]; rfl
  | allF hp =>
    have h1 := lockInv_map wakeF_holds hi
    refine lockInv_set (pc := .cNotifyF) h1 ?_ (.inl ⟨rfl, rfl⟩)
    rw [List.getElem?_map, hp]; rfl

theorem lockInv_init (n : Nat) : LockInv (init α n) := by
  constructor
  · intro i pc hp
    simp only [init] at hp ⊢
    rw [List.getElem?_replicate] at hp
    split at hp <;> simp at hp
    subst hp; simp [PC.holds]
  · intro i ho; simp [init] at ho

theorem lockInv_reach {cfg : Cfg} {n : Nat} {s : St α} (h : Reachable cfg n s) : LockInv s :=
  reach_ind (lockInv_init n) (fun _ _ => lockInv_step) h

/-- Two threads are never both at lock-holding positions. -/
theorem holds_unique {s : St α} (hi : LockInv s) {i j : Nat} {p p' : PC α} (h1 : s.pcs[i]? = some p)
    (h2 : s.pcs[j]? = some p') (hp : p.holds = true) (hp' : p'.holds = true) : i = j := by
  have a := (hi.1 i p h1).mp hp
  have b := (hi.1 j p' h2).mp hp'
  rw [a] at b; injection b

/-! ### What a thread that passed a wait predicate knows -/

/-- Facts established by the wait predicates stay true while the mutex is held. -/
def bodyOk (cfg : Cfg) (q : List α) (c : Bool) : PC α → Prop
  | .eBody _ => q.length < cfg.cap ∨ c = true
  | .pBody => q ≠ [] ∨ c = true
  | _ => True

def BodyInv (cfg : Cfg) (s : St α) : Prop := ∀ (i : Nat) pc, s.pcs[i]? = some pc → bodyOk cfg s.q s.closed pc

theorem bodyOk_of_not_holds {cfg : Cfg} {q : List α} {c} {p : PC α} (h : p.holds = false) : bodyOk cfg q c p := by
  cases p <;> simp [PC.holds] at h <;> trivial

theorem Loc.body {cfg : Cfg} {t : Nat} {q c o} {pc : PC α} {q' c' o' pc' es}
    (h : Loc cfg t q c o pc q' c' o' pc' es) :
    bodyOk cfg q' c' pc' ∧ (pc.holds = true ∨ (q' = q ∧ c' = c)) := by
  cases h <;> simp_all [PC.holds, bodyOk]
  case call op => cases op <;> simp [entry, bodyOk]

theorem bodyInv_step {cfg : Cfg} {s s' : St α} (hl : LockInv s) (hi : BodyInv cfg s) (h : Step cfg s s') :
    BodyInv cfg s' := by
  have hsame : ∀ {pcs' : List (PC α)},
      (∀ (i : Nat) (pc : PC α), pcs'[i]? = some pc → pc.holds = false ∨ s.pcs[i]? = some pc) →
      BodyInv cfg ⟨s.q, s.closed, s.owner, pcs', s.hist⟩ := by
    intro pcs' h i pc hp
    rcases h i pc hp with h1 | h1
    · exact bodyOk_of_not_holds h1
    · exact hi i pc h1
  have hset2 : ∀ {i t : Nat} {a b : PC α}, i < s.pcs.length → t < s.pcs.length → a.holds = false → b.holds = false →
      BodyInv cfg ⟨s.q, s.closed, s.owner, (s.pcs.set i a).set t b, s.hist⟩ := by
    intro i t a b hlt hlt2 ha hb
    apply hsame
    intro j pc hp
    rw [List.getElem?_set] at hp
    split at hp
    · simp at hp; obtain ⟨_, rfl⟩ := hp; exact .inl hb
    · rw [List.getElem?_set] at hp
      split at hp
      · simp at hp; obtain ⟨_, rfl⟩ := hp; exact .inl ha
      · exact .inr hp
  have hmap : ∀ {f : PC α → PC α} {t : Nat} {b : PC α}, (∀ p, f p = p ∨ (f p).holds = false) → b.holds = false →
      BodyInv cfg ⟨s.q, s.closed, s.owner, (s.pcs.map f).set t b, s.hist⟩ := by
    intro f t b hf hb
    apply hsame
    intro j pc hp
    rw [List.getElem?_set] at hp
    split at hp
    · simp at hp; obtain ⟨_, rfl⟩ := hp; exact .inl hb
    · rw [List.getElem?_map] at hp
      cases hq : s.pcs[j]? with
      | none => simp [hq] at hp
      | some p =>
        simp [hq] at hp; subst hp
        rcases hf p with h | h
        · rw [h]; exact .inr rfl
        · exact .inl h
  cases h with
  | loc hp hL =>
    rename_i t pc q' c' o' pc' es
    intro i p hi'
    dsimp only at hi' ⊢
    rcases getElem?_set' hp hi' with ⟨rfl, rfl⟩ | ⟨hne, hi''⟩
    · exact hL.body.1
    · rcases hL.body.2 with hh | ⟨rfl, rfl⟩
      · have : p.holds = false := by
          cases hc : p.holds
          · rfl
          · exact absurd (holds_unique hl hi'' hp hc hh) hne
        exact bodyOk_of_not_holds this
      · exact hi i p hi''
  | oneE0 hp hn =>
    apply hsame
    intro j pc h
    rcases getElem?_set' hp h with ⟨rfl, rfl⟩ | ⟨_, h⟩
    · exact .inl rfl
    · exact .inr h
  | oneE1 hp hs => exact hset2 (lt_of_getElem? hs) (lt_of_getElem? hp) rfl rfl
  | oneF0 hp hn =>
    apply hsame
    intro j pc h
    rcases getElem?_set' hp h with ⟨rfl, rfl⟩ | ⟨_, h⟩
    · exact .inl rfl
    · exact .inr h
  | oneF1 hp hs => exact hset2 (lt_of_getElem? hs) (lt_of_getElem? hp) rfl rfl
  | allE hp => exact hmap (fun p => by cases p <;> simp [wakeE, PC.holds]) rfl
  | allF hp => exact hmap (fun p => by cases p <;> simp [wakeF, PC.holds]) rfl

theorem bodyInv_init (cfg : Cfg) (n : Nat) : BodyInv cfg (init α n) := by
  intro i pc hp
  simp only [init] at hp
  rw [List.getElem?_replicate] at hp
  split at hp <;> simp at hp
  subst hp; trivial

theorem lockBody_reach {cfg : Cfg} {n : Nat} {s : St α} (h : Reachable cfg n s) : LockInv s ∧ BodyInv cfg s :=
  reach_ind (P := fun s => LockInv s ∧ BodyInv cfg s) ⟨lockInv_init n, bodyInv_init cfg n⟩
    (fun _ _ hp hs => ⟨lockInv_step hp.1 hs, bodyInv_step hp.1 hp.2 hs⟩) h

/-! ### The history is explained by the atomic queue -/

theorem Explains.events {cap : Nat} {h : List (Ev α)} {s s' : List α × Bool} {es : List (Ev α)}
    (he : Explains cap h s) (hes : (es = [] ∧ s' = s) ∨ (∃ t op, es = [.call t op] ∧ s' = s) ∨
      (∃ t r, es = [.ret t r] ∧ s' = s) ∨ (∃ t op r, es = [.lin t op r] ∧ Atomic cap s op r s')) :
    Explains cap (h ++ es) s' := by
  rcases hes with ⟨rfl, rfl⟩ | ⟨t, op, rfl, rfl⟩ | ⟨t, r, rfl, rfl⟩ | ⟨t, op, r, rfl, ha⟩
  · simpa using he
  · exact he.call
  · exact he.ret
  · exact he.lin ha

theorem Loc.explain {cfg : Cfg} {t : Nat} {q c o} {pc : PC α} {q' c' o' pc' es}
    (h : Loc cfg t q c o pc q' c' o' pc' es) (hb : bodyOk cfg q c pc) :
    (es = [] ∧ (q', c') = (q, c)) ∨ (∃ t op, es = [.call t op] ∧ (q', c') = (q, c)) ∨
      (∃ t r, es = [.ret t r] ∧ (q', c') = (q, c)) ∨
      (∃ t op r, es = [.lin t op r] ∧ Atomic cfg.cap (q, c) op r (q', c')) := by
  cases h
  case eFastC => exact .inr (.inr (.inr ⟨_, _, _, rfl, .pushClosed⟩))
  case eBodyC => exact .inr (.inr (.inr ⟨_, _, _, rfl, .pushClosed⟩))
  case eBodyO =>
    simp [bodyOk] at hb
    exact .inr (.inr (.inr ⟨_, _, _, rfl, .pushOk hb⟩))
  case eBodyT => exact .inr (.inr (.inr ⟨_, _, _, rfl, .pushThrew⟩))
  case tFastC => exact .inr (.inr (.inr ⟨_, _, _, rfl, .tryPushClosed⟩))
  case tBodyF v hc =>
    refine .inr (.inr (.inr ⟨_, _, _, rfl, ?_⟩))
    cases c
    · exact .tryPushFull (by simpa using hc)
    · exact .tryPushClosed
  case tBodyO v hc => exact .inr (.inr (.inr ⟨_, _, _, rfl, .tryPushOk hc⟩))
  case tBodyT => exact .inr (.inr (.inr ⟨_, _, _, rfl, .tryPushThrew⟩))
  case pBodyN =>
    simp [bodyOk] at hb; subst hb
    exact .inr (.inr (.inr ⟨_, _, _, rfl, .popClosed⟩))
  case pBodyS => exact .inr (.inr (.inr ⟨_, _, _, rfl, .popOk⟩))
  case pBodyT => exact .inr (.inr (.inr ⟨_, _, _, rfl, .popThrew⟩))
  case qBodyN => exact .inr (.inr (.inr ⟨_, _, _, rfl, .tryPopEmpty⟩))
  case qBodyS => exact .inr (.inr (.inr ⟨_, _, _, rfl, .tryPopOk⟩))
  case qBodyT => exact .inr (.inr (.inr ⟨_, _, _, rfl, .tryPopThrew⟩))
  case cSet => exact .inr (.inr (.inr ⟨_, _, _, rfl, .close⟩))
  case kRead => exact .inr (.inr (.inr ⟨_, _, _, rfl, .isClosed⟩))
  all_goals simp

theorem explains_step {cfg : Cfg} {s s' : St α} (hb : BodyInv cfg s) (he : Explains cfg.cap s.hist (s.q, s.closed))
    (h : Step cfg s s') : Explains cfg.cap s'.hist (s'.q, s'.closed) := by
  cases h with
  | loc hp hl => exact he.events (hl.explain (hb _ _ hp))
  | _ => exact he

theorem explains_reach {cfg : Cfg} {n : Nat} {s : St α} (h : Reachable cfg n s) :
    Explains cfg.cap s.hist (s.q, s.closed) :=
  (reach_ind (P := fun s => (LockInv s ∧ BodyInv cfg s) ∧ Explains cfg.cap s.hist (s.q, s.closed))
    ⟨⟨lockInv_init n, bodyInv_init cfg n⟩, .nil⟩
    (fun _ _ hp hs => ⟨⟨lockInv_step hp.1.1 hs, bodyInv_step hp.1.1 hp.1.2 hs⟩, explains_step hp.1.2 hp.2 hs⟩) h).2

/-! ### Every call takes effect exactly once, between its call and its return -/

/-- What the position of a thread says about its current operation. -/
inductive PhaseOf (lossy : Bool) : PC α → Phase α → Prop where
  | idle : PhaseOf lossy .idle .idle
  | eFast {v} : PhaseOf lossy (.eFast v) (.called (.push v))
  | eLock {v} : PhaseOf lossy (.eLock v) (.called (.push v))
  | eCheck {v} : PhaseOf lossy (.eCheck v) (.called (.push v))
  | eSleep {v} : PhaseOf lossy (.eSleep v) (.called (.push v))
  | eBody {v} : PhaseOf lossy (.eBody v) (.called (.push v))
  | tFast {v} : PhaseOf lossy (.tFast v) (.called (.tryPush v))
  | tLock {v} : PhaseOf lossy (.tLock v) (.called (.tryPush v))
  | tBody {v} : PhaseOf lossy (.tBody v) (.called (.tryPush v))
  | sUnlock {op} : PhaseOf lossy (.sUnlock op) (.lined op (.bool true))
  | sNotify {op} : PhaseOf lossy (.sNotify op) (.lined op (.bool true))
  | pLock : PhaseOf lossy .pLock (.called .pop)
  | pCheck : PhaseOf lossy .pCheck (.called .pop)
  | pSleep : PhaseOf lossy .pSleep (.called .pop)
  | pBody : PhaseOf lossy .pBody (.called .pop)
  | qLock : PhaseOf lossy .qLock (.called .tryPop)
  | qBody : PhaseOf lossy .qBody (.called .tryPop)
  | rUnlock {op x} : PhaseOf lossy (.rUnlock op x) (.lined op (.val (some x)))
  | rNotify {op x} : PhaseOf lossy (.rNotify op x) (.lined op (.val (some x)))
  | rRet {op x} : PhaseOf lossy (.rRet op x) (.lined op (.val (some x)))
  | relRet {op r} : PhaseOf lossy (.relRet op r) (.lined op r)
  | cLock : PhaseOf lossy .cLock (.called .close)
  | cSet : PhaseOf lossy .cSet (.called .close)
  | cUnlock : PhaseOf lossy .cUnlock (.lined .close .unit)
  | cNotifyE : PhaseOf lossy .cNotifyE (.lined .close .unit)
  | cNotifyF : PhaseOf lossy .cNotifyF (.lined .close .unit)
  | kRead : PhaseOf lossy .kRead (.called .isClosed)
  | done {op r} : PhaseOf lossy (.done op r) (.lined op r)
  | doneLost {op x} : lossy = true → PhaseOf lossy (.done op .threw) (.lined op (.val (some x)))

def RunInv (cfg : Cfg) (s : St α) : Prop :=
  ∀ (i : Nat) pc, s.pcs[i]? = some pc → ∃ p, PhaseOf cfg.moveThrow pc p ∧ ThreadRun cfg.moveThrow i s.hist p

theorem Loc.events {cfg : Cfg} {t : Nat} {q c o} {pc : PC α} {q' c' o' pc' es}
    (h : Loc cfg t q c o pc q' c' o' pc' es) : es = [] ∨ ∃ e, es = [e] ∧ e.tid = t := by
  cases h <;> simp [Ev.tid]

theorem Loc.run {cfg : Cfg} {t : Nat} {q c o} {pc : PC α} {q' c' o' pc' es h p}
    (hl : Loc cfg t q c o pc q' c' o' pc' es) (hp : PhaseOf cfg.moveThrow pc p)
    (hr : ThreadRun cfg.moveThrow t h p) :
    ∃ p', PhaseOf cfg.moveThrow pc' p' ∧ ThreadRun cfg.moveThrow t (h ++ es) p' := by
  cases hl <;> (try rw [List.append_nil])
  case call op =>
    cases hp
    refine ⟨.called op, ?_, .call hr⟩
    cases op <;> constructor
  case done op r =>
    cases hp
    case done => exact ⟨_, .idle, .ret hr⟩
    case doneLost hl => exact ⟨_, .idle, .retLost hl hr⟩
  case rRetT hm => cases hp; exact ⟨_, .doneLost hm, hr⟩
  case eFastC => cases hp; exact ⟨_, .done, .lin hr⟩
  case eBodyC => cases hp; exact ⟨_, .relRet, .lin hr⟩
  case eBodyO => cases hp; exact ⟨_, .sUnlock, .lin hr⟩
  case eBodyT => cases hp; exact ⟨_, .relRet, .lin hr⟩
  case tFastC => cases hp; exact ⟨_, .done, .lin hr⟩
  case tBodyF => cases hp; exact ⟨_, .relRet, .lin hr⟩
  case tBodyO => cases hp; exact ⟨_, .sUnlock, .lin hr⟩
  case tBodyT => cases hp; exact ⟨_, .relRet, .lin hr⟩
  case pBodyN => cases hp; exact ⟨_, .relRet, .lin hr⟩
  case pBodyS => cases hp; exact ⟨_, .rUnlock, .lin hr⟩
  case pBodyT => cases hp; exact ⟨_, .relRet, .lin hr⟩
  case qBodyN => cases hp; exact ⟨_, .relRet, .lin hr⟩
  case qBodyS => cases hp; exact ⟨_, .rUnlock, .lin hr⟩
  case qBodyT => cases hp; exact ⟨_, .relRet, .lin hr⟩
  case cSet => cases hp; exact ⟨_, .cUnlock, .lin hr⟩
  case kRead => cases hp; exact ⟨_, .done, .lin hr⟩
  case relRet => cases hp; exact ⟨_, .done, hr⟩
  all_goals (cases hp; exact ⟨_, by constructor, hr⟩)

theorem runInv_pcs {cfg : Cfg} {s : St α} {pcs' : List (PC α)} (hi : RunInv cfg s)
    (h : ∀ (i : Nat) (pc' : PC α), pcs'[i]? = some pc' → ∃ pc, s.pcs[i]? = some pc ∧
      ∀ p, PhaseOf cfg.moveThrow pc p → PhaseOf cfg.moveThrow pc' p) :
    RunInv cfg ⟨s.q, s.closed, s.owner, pcs', s.hist⟩ := by
  intro i pc' hp
  obtain ⟨pc, h1, h2⟩ := h i pc' hp
  obtain ⟨p, h3, h4⟩ := hi i pc h1
  exact ⟨p, h2 p h3, h4⟩

theorem runInv_step {cfg : Cfg} {s s' : St α} (hi : RunInv cfg s) (h : Step cfg s s') : RunInv cfg s' := by
  cases h with
  | loc hp hl =>
    rename_i t pc q' c' o' pc' es
    intro i p hip
    dsimp only at hip ⊢
    rcases getElem?_set' hp hip with ⟨rfl, rfl⟩ | ⟨hne, hip⟩
    · obtain ⟨ph, h1, h2⟩ := hi _ _ hp
      exact hl.run h1 h2
    · obtain ⟨ph, h1, h2⟩ := hi _ _ hip
      refine ⟨ph, h1, ?_⟩
      rcases hl.events with rfl | ⟨e, rfl, ht⟩
      · simpa using h2
      · exact .other h2 (by omega)
  | oneE0 hp hn =>
    refine runInv_pcs hi ?_
    intro i pc' h
    rcases getElem?_set' hp h with ⟨rfl, rfl⟩ | ⟨hne, h⟩
    · exact ⟨_, hp, fun p hp => by cases hp; constructor⟩
    · exact ⟨_, h, fun p hp => hp⟩
  | oneF0 hp hn =>
    refine runInv_pcs hi ?_
    intro i pc' h
    rcases getElem?_set' hp h with ⟨rfl, rfl⟩ | ⟨hne, h⟩
    · exact ⟨_, hp, fun p hp => by cases hp; constructor⟩
    · exact ⟨_, h, fun p hp => hp⟩
  | oneE1 hp hs =>
    rename_i t op j
    have hne : j ≠ t := by rintro rfl; rw [hp] at hs; cases hs
    refine runInv_pcs hi ?_
    intro i pc' h
    rcases getElem?_set' (z := .sNotify op) (by rw [List.getElem?_set_ne hne]; exact hp) h with ⟨rfl, rfl⟩ | ⟨_, h⟩
    · exact ⟨_, hp, fun p hp => by cases hp; constructor⟩
    · rcases getElem?_set' hs h with ⟨rfl, rfl⟩ | ⟨_, h⟩
      · exact ⟨_, hs, fun p hp => by cases hp; constructor⟩
      · exact ⟨_, h, fun p hp => hp⟩
  | oneF1 hp hs =>
    rename_i t op x j v
    have hne : j ≠ t := by rintro rfl; rw [hp] at hs; cases hs
    refine runInv_pcs hi ?_
    intro i pc' h
    rcases getElem?_set' (z := .rNotify op x) (by rw [List.getElem?_set_ne hne]; exact hp) h with ⟨rfl, rfl⟩ | ⟨_, h⟩
    · exact ⟨_, hp, fun p hp => by cases hp; constructor⟩
    · rcases getElem?_set' hs h with ⟨rfl, rfl⟩ | ⟨_, h⟩
      · exact ⟨_, hs, fun p hp => by cases hp; constructor⟩
      · exact ⟨_, h, fun p hp => hp⟩
  | allE hp =>
    refine runInv_pcs hi ?_
    intro i pc' h
    rcases getElem?_set' (z := .cNotifyE) (by rw [List.getElem?_map, hp]; rfl) h with ⟨rfl, rfl⟩ | ⟨_, h⟩
    · exact ⟨_, hp, fun p hp => by cases hp; constructor⟩
    · rw [List.getElem?_map] at h
      cases hq : s.pcs[i]? with
      | none => simp [hq] at h
      | some p =>
        simp [hq] at h; subst h
        refine ⟨p, rfl, ?_⟩
        intro ph hph
        cases hph <;> simp [wakeE] <;> first | (apply PhaseOf.doneLost; assumption) | constructor
  | allF hp =>
    refine runInv_pcs hi ?_
    intro i pc' h
    rcases getElem?_set' (z := .cNotifyF) (by rw [List.getElem?_map, hp]; rfl) h with ⟨rfl, rfl⟩ | ⟨_, h⟩
    · exact ⟨_, hp, fun p hp => by cases hp; constructor⟩
    · rw [List.getElem?_map] at h
      cases hq : s.pcs[i]? with
      | none => simp [hq] at h
      | some p =>
        simp [hq] at h; subst h
        refine ⟨p, rfl, ?_⟩
        intro ph hph
        cases hph <;> simp [wakeF] <;> first | (apply PhaseOf.doneLost; assumption) | constructor

theorem runInv_init (cfg : Cfg) (n : Nat) : RunInv cfg (init α n) := by
  intro i pc hp
  simp only [init] at hp ⊢
  rw [List.getElem?_replicate] at hp
  split at hp <;> simp at hp
  subst hp; exact ⟨_, .idle, .nil⟩

theorem runInv_reach {cfg : Cfg} {n : Nat} {s : St α} (h : Reachable cfg n s) : RunInv cfg s :=
  reach_ind (runInv_init cfg n) (fun _ _ => runInv_step) h

end Verif.Channel
