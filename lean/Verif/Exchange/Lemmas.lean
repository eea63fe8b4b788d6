import Verif.Exchange.Model
import Verif.Channel.Progress

/-! Invariants of the exchange channel model. -/
namespace Verif.Exchange

open Verif.Channel (Op Res Ev Act Phase ThreadRun lt_of_getElem? getElem?_set' countP_set' snoc_inj inserted removed
  inserted_append removed_append)

variable {α : Type}

/-! ### Relational view of the transitions -/

/-- Transitions that only change one thread's position. -/
inductive Loc (cfg : Cfg) (t : Nat) : Option α → Bool → Option Nat → PC α →
    Option α → Bool → Option Nat → PC α → List (Ev α) → Prop where
  | call {q c o op pc} : entry op = some pc → Loc cfg t q c o .idle q c o pc [.call t op]
  | eFastC {q o v} : Loc cfg t q true o (.eFast v) q true o (.done (.push v) (.bool false))
      [.lin t (.push v) (.bool false)]
  | eFastO {q c o v} : Loc cfg t q c o (.eFast v) q c o (.eLock v) []
  | eLock {q c v} : Loc cfg t q c none (.eLock v) q c (some t) (.eBody v) []
  | eBodyC {q o v} : Loc cfg t q true o (.eBody v) q true o (.relRet (.push v) (.bool false))
      [.lin t (.push v) (.bool false)]
  | eBodyO {q o v} : Loc cfg t q false o (.eBody v) (some v) false o (.sUnlock (.push v)) [.lin t (.push v) (.bool true)]
  | eBodyT {q o v} : cfg.ctorThrow = true → Loc cfg t q false o (.eBody v) none false o (.relRet (.push v) .threw)
      [.lin t (.push v) .threw]
  | sUnlock {q c o op} : Loc cfg t q c o (.sUnlock op) q c none (.sNotify op) []
  | pLock {q c} : Loc cfg t q c none .pLock q c (some t) .pCheck []
  | pCheckGo {q c o} : (q ≠ none ∨ c = true) → Loc cfg t q c o .pCheck q c o .pBody []
  | pCheckSl {q c o} : ¬ (q ≠ none ∨ c = true) → Loc cfg t q c o .pCheck q c none .pSleep []
  | pBodyN {c o} : Loc cfg t none c o .pBody none c o (.relRet .pop (.val none)) [.lin t .pop (.val none)]
  | pBodyS {x c o} : Loc cfg t (some x) c o .pBody none c o (.rMove .pop x) [.lin t .pop (.val (some x))]
  | pBodyT {x c o} : cfg.moveThrow = true →
      Loc cfg t (some x) c o .pBody (some x) c o (.relRet .pop .threw) [.lin t .pop .threw]
  | qLock {q c} : Loc cfg t q c none .qLock q c (some t) .qBody []
  | qBodyN {c o} : Loc cfg t none c o .qBody none c o (.relRet .tryPop (.val none)) [.lin t .tryPop (.val none)]
  | qBodyS {x c o} : Loc cfg t (some x) c o .qBody none c o (.rMove .tryPop x) [.lin t .tryPop (.val (some x))]
  | qBodyT {x c o} : cfg.moveThrow = true →
      Loc cfg t (some x) c o .qBody (some x) c o (.relRet .tryPop .threw) [.lin t .tryPop .threw]
  | rMove {q c o op x} : Loc cfg t q c o (.rMove op x) q c o (.relRet op (.val (some x))) []
  | rMoveT {q c o op x} : cfg.moveThrow = true → Loc cfg t q c o (.rMove op x) q c o (.relRet op .threw) []
  | relRet {q c o op r} : Loc cfg t q c o (.relRet op r) q c none (.done op r) []
  | cLock {q c} : Loc cfg t q c none .cLock q c (some t) .cSet []
  | cSet {q c o} : Loc cfg t q c o .cSet q true o .cUnlock [.lin t .close .unit]
  | cUnlock {q c o} : Loc cfg t q c o .cUnlock q c none .cNotify []
  | kRead {q c o} : Loc cfg t q c o .kRead q c o (.done .isClosed (.bool c)) [.lin t .isClosed (.bool c)]
  | done {q c o op r} : Loc cfg t q c o (.done op r) q c o .idle [.ret t r]
  | spur {q c o} : Loc cfg t q c o .pSleep q c o .pLock []

/-- All transitions. -/
inductive Step (cfg : Cfg) (s : St α) : St α → Prop where
  | loc {t pc q' c' o' pc' es} : s.pcs[t]? = some pc → Loc cfg t s.slot s.closed s.owner pc q' c' o' pc' es →
      Step cfg s ⟨q', c', o', s.pcs.set t pc', s.hist ++ es⟩
  | one0 {t op} : s.pcs[t]? = some (.sNotify op) → (∀ p ∈ s.pcs, p ≠ .pSleep) →
      Step cfg s ⟨s.slot, s.closed, s.owner, s.pcs.set t (.done op (.bool true)), s.hist⟩
  | one1 {t op i} : s.pcs[t]? = some (.sNotify op) → s.pcs[i]? = some .pSleep →
      Step cfg s ⟨s.slot, s.closed, s.owner, (s.pcs.set i .pLock).set t (.done op (.bool true)), s.hist⟩
  | all {t} : s.pcs[t]? = some .cNotify →
      Step cfg s ⟨s.slot, s.closed, s.owner, (s.pcs.map wake).set t (.done .close .unit), s.hist⟩

theorem loc' {cfg : Cfg} {s s' : St α} {t pc q' c' o' pc' es} (h : s.pcs[t]? = some pc)
    (hl : Loc cfg t s.slot s.closed s.owner pc q' c' o' pc' es)
    (hs : s' = ⟨q', c', o', s.pcs.set t pc', s.hist ++ es⟩) : Step cfg s s' := by
  subst hs; exact Step.loc h hl

theorem stepAt_step {cfg : Cfg} {s s' : St α} {t w pc} (hp : s.pcs[t]? = some pc)
    (h : stepAt s t w pc = some s') : Step cfg s s' := by
  obtain ⟨q, c, o, pcs, hist⟩ := s
  cases pc <;> simp only [stepAt] at h
  case idle => simp at h
  case pSleep => simp at h
  case eFast v =>
    cases c <;> simp [St.goto, St.log] at h <;> subst h
    · exact loc' hp .eFastO (by simp)
    · exact loc' hp .eFastC (by simp)
  case eLock v =>
    cases o <;> simp [acquire, St.goto] at h; subst h
    exact loc' hp .eLock (by simp)
  case pLock =>
    cases o <;> simp [acquire, St.goto] at h; subst h
    exact loc' hp .pLock (by simp)
  case qLock =>
    cases o <;> simp [acquire, St.goto] at h; subst h
    exact loc' hp .qLock (by simp)
  case cLock =>
    cases o <;> simp [acquire, St.goto] at h; subst h
    exact loc' hp .cLock (by simp)
  case pCheck =>
    split at h <;> simp [release, St.goto] at h <;> subst h
    · exact loc' hp (.pCheckGo (by assumption)) (by simp)
    · exact loc' hp (.pCheckSl (by assumption)) (by simp)
  case eBody v =>
    cases c <;> simp [St.goto, St.log] at h <;> subst h
    · exact loc' hp .eBodyO (by simp)
    · exact loc' hp .eBodyC (by simp)
  case sUnlock op => simp [release, St.goto] at h; subst h; exact loc' hp .sUnlock (by simp)
  case relRet op r => simp [release, St.goto] at h; subst h; exact loc' hp .relRet (by simp)
  case cUnlock => simp [release, St.goto] at h; subst h; exact loc' hp .cUnlock (by simp)
  case rMove op x => simp [St.goto] at h; subst h; exact loc' hp .rMove (by simp)
  case cSet => simp [St.goto, St.log] at h; subst h; exact loc' hp .cSet (by simp)
  case kRead => simp [St.goto, St.log] at h; subst h; exact loc' hp .kRead (by simp)
  case done op r => simp [St.goto, St.log] at h; subst h; exact loc' hp .done (by simp)
  case pBody =>
    cases q <;> simp [St.goto, St.log] at h <;> subst h
    · exact loc' hp .pBodyN (by simp)
    · exact loc' hp .pBodyS (by simp)
  case qBody =>
    cases q <;> simp [St.goto, St.log] at h <;> subst h
    · exact loc' hp .qBodyN (by simp)
    · exact loc' hp .qBodyS (by simp)
  case cNotify => simp [St.goto] at h; subst h; exact .all hp
  case sNotify op =>
    cases w with
    | none =>
      simp only [notifyOne] at h
      split at h
      · simp at h
      · rename_i hn
        simp [St.goto] at h; subst h
        refine .one0 hp ?_
        intro p hm he
        exact hn (List.any_eq_true.mpr ⟨p, hm, by rw [he]; rfl⟩)
    | some i =>
      simp only [notifyOne] at h
      cases hi : pcs[i]? with
      | none => simp [hi] at h
      | some p =>
        simp only [hi] at h
        cases p <;> simp [St.goto] at h
        subst h
        exact .one1 hp hi

theorem throwAt_step {cfg : Cfg} {s s' : St α} {t pc} (hp : s.pcs[t]? = some pc)
    (h : throwAt cfg s t pc = some s') : Step cfg s s' := by
  obtain ⟨q, c, o, pcs, hist⟩ := s
  cases pc <;> simp only [throwAt] at h
  case eBody v =>
    split at h <;> simp [St.goto, St.log] at h; subst h
    rename_i hc; obtain ⟨hc1, hc2⟩ := hc
    subst hc2
    exact loc' hp (.eBodyT hc1) (by simp)
  case pBody =>
    split at h <;> simp [St.goto, St.log] at h; subst h
    rename_i hc; obtain ⟨hc1, hc2⟩ := hc
    cases q with
    | none => simp at hc2
    | some x => exact loc' hp (.pBodyT hc1) (by simp)
  case qBody =>
    split at h <;> simp [St.goto, St.log] at h; subst h
    rename_i hc; obtain ⟨hc1, hc2⟩ := hc
    cases q with
    | none => simp at hc2
    | some x => exact loc' hp (.qBodyT hc1) (by simp)
  case rMove op x =>
    split at h <;> simp [St.goto] at h; subst h
    rename_i hc
    exact loc' hp (.rMoveT hc) (by simp)
  all_goals simp at h

theorem next_step {cfg : Cfg} {s s' : St α} {a} (h : next cfg s a = some s') : Step cfg s s' := by
  cases a with
  | call t op =>
    simp only [next] at h
    split at h
    · rename_i hp
      simp only [Option.map_eq_some_iff] at h
      obtain ⟨pc, h1, rfl⟩ := h
      exact loc' hp (.call h1) (by simp [St.goto, St.log])
    · simp at h
  | step t w =>
    simp only [next] at h
    split at h
    · rename_i pc hp; exact stepAt_step hp h
    · simp at h
  | throw t =>
    simp only [next] at h
    split at h
    · rename_i pc hp; exact throwAt_step hp h
    · simp at h
  | spurious t =>
    simp only [next] at h
    split at h
    · rename_i hp
      simp [St.goto] at h; subst h
      exact loc' hp .spur (by simp)
    · simp at h
  | stale t =>
    simp only [next] at h
    split at h
    · rename_i v hp
      simp [St.goto] at h; subst h
      exact loc' hp .eFastO (by simp)
    · simp at h

theorem run_ind {cfg : Cfg} {P : St α → Prop} (hstep : ∀ s s', P s → Step cfg s s' → P s') :
    ∀ (acts : List (Act α)) (s s' : St α), P s → run cfg s acts = some s' → P s'
  | [], s, s', hp, h => by simp [run] at h; subst h; exact hp
  | a :: as, s, s', hp, h => by
    simp only [run] at h
    cases hn : next cfg s a with
    | none => simp [hn] at h
    | some s1 =>
      simp only [hn, Option.bind] at h
      exact run_ind hstep as s1 s' (hstep s s1 hp (next_step hn)) h

theorem reach_ind {cfg : Cfg} {n : Nat} {P : St α → Prop} (h0 : P (init α n))
    (hstep : ∀ s s', P s → Step cfg s s' → P s') {s : St α} (h : Reachable cfg n s) : P s := by
  obtain ⟨acts, h⟩ := h
  exact run_ind hstep acts _ _ h0 h

/-! ### Mutual exclusion -/

def LockInv (s : St α) : Prop :=
  (∀ (i : Nat) pc, s.pcs[i]? = some pc → (pc.holds = true ↔ s.owner = some i)) ∧
  (∀ i, s.owner = some i → i < s.pcs.length)

theorem Loc.lock {cfg : Cfg} {t : Nat} {q c o} {pc : PC α} {q' c' o' pc' es}
    (h : Loc cfg t q c o pc q' c' o' pc' es) :
    (o' = o ∧ pc'.holds = pc.holds) ∨ (o = none ∧ o' = some t ∧ pc'.holds = true) ∨
    (pc.holds = true ∧ o' = none ∧ pc'.holds = false) := by
  cases h <;> simp [PC.holds]
  case call op h => cases op <;> simp [entry] at h <;> subst h <;> simp

theorem lockInv_set {q c o h q' c' o' h'} {pcs : List (PC α)} {t : Nat} {pc pc' : PC α}
    (hi : LockInv ⟨q, c, o, pcs, h⟩) (ht : pcs[t]? = some pc)
    (hl : (o' = o ∧ pc'.holds = pc.holds) ∨ (o = none ∧ o' = some t ∧ pc'.holds = true) ∨
      (pc.holds = true ∧ o' = none ∧ pc'.holds = false)) :
    LockInv ⟨q', c', o', pcs.set t pc', h'⟩ := by
  obtain ⟨h1, h2⟩ := hi
  have hlt := lt_of_getElem? ht
  have h3 := h1 t pc ht
  dsimp only at h1 h2 h3
  constructor
  · intro i p hp
    dsimp only at hp ⊢
    rcases getElem?_set' ht hp with ⟨rfl, rfl⟩ | ⟨hne, hp⟩
    · rcases hl with ⟨rfl, h⟩ | ⟨_, rfl, h⟩ | ⟨_, rfl, h⟩
      · rw [h]; exact h3
      · simp [h]
      · simp [h]
    · have := h1 i p hp
      rcases hl with ⟨rfl, h⟩ | ⟨rfl, rfl, h⟩ | ⟨h0, rfl, h⟩
      · exact this
      · simp at this ⊢; constructor
        · intro h; rw [h] at this; cases this
        · intro h; exact absurd h.symm hne
      · have h4 := h3.mp h0
        simp only [reduceCtorEq, iff_false]
        intro h5
        have h6 := this.mp h5
        rw [h4] at h6; injection h6 with h6; exact hne h6.symm
  · intro i hi
    dsimp only at hi ⊢
    rw [List.length_set]
    rcases hl with ⟨rfl, h⟩ | ⟨rfl, rfl, h⟩ | ⟨h0, rfl, h⟩
    · exact h2 i hi
    · injection hi with hi; omega
    · cases hi

theorem wake_holds (p : PC α) : (wake p).holds = p.holds := by cases p <;> rfl

theorem lockInv_map {q c o h} {pcs : List (PC α)}
    (hi : LockInv ⟨q, c, o, pcs, h⟩) : LockInv ⟨q, c, o, pcs.map wake, h⟩ := by
  obtain ⟨h1, h2⟩ := hi
  constructor
  · intro i p hp
    dsimp only at hp h1 ⊢
    rw [List.getElem?_map] at hp
    cases hq : pcs[i]? with
    | none => simp [hq] at hp
    | some p' => simp [hq] at hp; subst hp; rw [wake_holds]; exact h1 i p' hq
  · intro i hi
    dsimp only at hi h2 ⊢
    rw [List.length_map]; exact h2 i hi

theorem lockInv_step {cfg : Cfg} {s s' : St α} (hi : LockInv s) (h : Step cfg s s') : LockInv s' := by
  cases h with
  | loc hp hl => exact lockInv_set hi hp hl.lock
  | one0 hp hn => exact lockInv_set hi hp (.inl ⟨rfl, rfl⟩)
  | one1 hp hs =>
    rename_i t op i
    have h1 := lockInv_set (q' := s.slot) (c' := s.closed) (h' := s.hist) (pc' := .pLock) hi hs (.inl ⟨rfl, rfl⟩)
    refine lockInv_set (pc := .sNotify op) h1 ?_ (.inl ⟨rfl, rfl⟩)
    rw [List.getElem?_set_ne]; exact hp
    rintro rfl; rw [hp] at hs; cases hs
  | all hp =>
    have h1 := lockInv_map hi
    exact lockInv_set (pc := .cNotify) h1 (by rw [List.getElem?_map, hp]; rfl) (.inl ⟨rfl, rfl⟩)

theorem lockInv_init (n : Nat) : LockInv (init α n) := by
  constructor
  · intro i pc hp
    simp only [init] at hp ⊢
    rw [List.getElem?_replicate] at hp
    split at hp <;> simp at hp
    subst hp; simp [PC.holds]
  · intro i ho; simp [init] at ho

theorem lockInv_reach {cfg : Cfg} {n : Nat} {s : St α} (h : Reachable cfg n s) : LockInv s :=
  reach_ind (lockInv_init n) (fun _ _ => lockInv_step) h

theorem holds_unique {s : St α} (hi : LockInv s) {i j : Nat} {p p' : PC α} (h1 : s.pcs[i]? = some p)
    (h2 : s.pcs[j]? = some p') (hp : p.holds = true) (hp' : p'.holds = true) : i = j := by
  have a := (hi.1 i p h1).mp hp
  have b := (hi.1 j p' h2).mp hp'
  rw [a] at b; injection b

/-! ### A consumer whose wait has returned -/

/-- After `wait` returned there is a value or the channel is closed. -/
def BodyInv (s : St α) : Prop := ∀ i : Nat, s.pcs[i]? = some .pBody → s.slot ≠ none ∨ s.closed = true

theorem bodyInv_step {cfg : Cfg} {s s' : St α} (hl : LockInv s) (hi : BodyInv s) (h : Step cfg s s') :
    BodyInv s' := by
  cases h with
  | loc hp hL =>
    rename_i t pc q' c' o' pc' es
    intro i hi'
    dsimp only at hi' ⊢
    rcases getElem?_set' hp hi' with ⟨rfl, h⟩ | ⟨hne, hi''⟩
    · have hk := hi i
      generalize s.slot = q, s.closed = c, s.owner = o at *
      cases hL <;> simp_all
      case call op h => cases op <;> simp [entry] at h <;> grind
    · have hk := hi i hi''
      have hn : pc.holds = false := by
        cases hc : pc.holds
        · rfl
        · exact absurd (holds_unique hl hi'' hp rfl hc) hne
      generalize s.slot = q, s.closed = c, s.owner = o at *
      cases hL <;> simp_all [PC.holds]
  | one0 hp hn =>
    intro i h
    rcases getElem?_set' hp h with ⟨rfl, hx⟩ | ⟨_, h⟩
    · cases hx
    · exact hi i h
  | one1 hp hs =>
    intro i h
    dsimp only at h ⊢
    rw [List.getElem?_set] at h
    split at h
    · simp at h
    · rw [List.getElem?_set] at h
      split at h
      · simp at h
      · exact hi i h
  | all hp =>
    intro i h
    dsimp only at h ⊢
    rw [List.getElem?_set] at h
    split at h
    · simp at h
    · rw [List.getElem?_map] at h
      cases hq : s.pcs[i]? with
      | none => simp [hq] at h
      | some p =>
        simp [hq] at h
        cases p <;> simp [wake] at h
        exact hi i hq

theorem lockBody_reach {cfg : Cfg} {n : Nat} {s : St α} (h : Reachable cfg n s) : LockInv s ∧ BodyInv s :=
  reach_ind (P := fun s => LockInv s ∧ BodyInv s) ⟨lockInv_init n, by
      intro i hp
      simp only [init] at hp
      rw [List.getElem?_replicate] at hp
      split at hp <;> simp at hp⟩
    (fun _ _ hp hs => ⟨lockInv_step hp.1 hs, bodyInv_step hp.1 hp.2 hs⟩) h

/-! ### Linearization -/

theorem Loc.explain {cfg : Cfg} {t : Nat} {q c o} {pc : PC α} {q' c' o' pc' es} {h : List (Ev α)}
    (hl : Loc cfg t q c o pc q' c' o' pc' es) (hb : pc = .pBody → q ≠ none ∨ c = true) (he : Explains h (q, c)) :
    Explains (h ++ es) (q', c') := by
  cases hl
  case call => exact he.call
  case done => exact he.ret
  case eFastC => exact he.lin .pushClosed
  case eBodyC => exact he.lin .pushClosed
  case eBodyO => exact he.lin .pushOk
  case eBodyT => exact he.lin .pushThrew
  case pBodyN =>
    simp at hb; subst hb
    exact he.lin .popClosed
  case pBodyS => exact he.lin .popOk
  case pBodyT => exact he.lin .popThrew
  case qBodyN => exact he.lin .tryPopEmpty
  case qBodyS => exact he.lin .tryPopOk
  case qBodyT => exact he.lin .tryPopThrew
  case cSet => exact he.lin .close
  case kRead => exact he.lin .isClosed
  all_goals simpa using he

theorem explains_reach {cfg : Cfg} {n : Nat} {s : St α} (h : Reachable cfg n s) :
    Explains s.hist (s.slot, s.closed) := by
  refine (reach_ind (P := fun s => (LockInv s ∧ BodyInv s) ∧ Explains s.hist (s.slot, s.closed)) ⟨lockBody_reach ⟨[], rfl⟩
    (cfg := cfg), .nil⟩ ?_ h).2
  intro s s' hp hs
  refine ⟨⟨lockInv_step hp.1.1 hs, bodyInv_step hp.1.1 hp.1.2 hs⟩, ?_⟩
  cases hs with
  | loc hpc hl => exact hl.explain (fun h => hp.1.2 _ (h ▸ hpc)) hp.2
  | _ => exact hp.2

/-! ### Threads -/

inductive PhaseOf (lossy : Bool) : PC α → Phase α → Prop where
  | idle : PhaseOf lossy .idle .idle
  | eFast {v} : PhaseOf lossy (.eFast v) (.called (.push v))
  | eLock {v} : PhaseOf lossy (.eLock v) (.called (.push v))
  | eBody {v} : PhaseOf lossy (.eBody v) (.called (.push v))
  | sUnlock {op} : PhaseOf lossy (.sUnlock op) (.lined op (.bool true))
  | sNotify {op} : PhaseOf lossy (.sNotify op) (.lined op (.bool true))
  | pLock : PhaseOf lossy .pLock (.called .pop)
  | pCheck : PhaseOf lossy .pCheck (.called .pop)
  | pSleep : PhaseOf lossy .pSleep (.called .pop)
  | pBody : PhaseOf lossy .pBody (.called .pop)
  | qLock : PhaseOf lossy .qLock (.called .tryPop)
  | qBody : PhaseOf lossy .qBody (.called .tryPop)
  | rMove {op x} : PhaseOf lossy (.rMove op x) (.lined op (.val (some x)))
  | relRet {op r} : PhaseOf lossy (.relRet op r) (.lined op r)
  | relLost {op x} : lossy = true → PhaseOf lossy (.relRet op .threw) (.lined op (.val (some x)))
  | cLock : PhaseOf lossy .cLock (.called .close)
  | cSet : PhaseOf lossy .cSet (.called .close)
  | cUnlock : PhaseOf lossy .cUnlock (.lined .close .unit)
  | cNotify : PhaseOf lossy .cNotify (.lined .close .unit)
  | kRead : PhaseOf lossy .kRead (.called .isClosed)
  | done {op r} : PhaseOf lossy (.done op r) (.lined op r)
  | doneLost {op x} : lossy = true → PhaseOf lossy (.done op .threw) (.lined op (.val (some x)))

def RunInv (cfg : Cfg) (s : St α) : Prop :=
  ∀ (i : Nat) pc, s.pcs[i]? = some pc → ∃ p, PhaseOf cfg.moveThrow pc p ∧ ThreadRun cfg.moveThrow i s.hist p

theorem Loc.events {cfg : Cfg} {t : Nat} {q c o} {pc : PC α} {q' c' o' pc' es}
    (h : Loc cfg t q c o pc q' c' o' pc' es) : es = [] ∨ ∃ e, es = [e] ∧ e.tid = t := by
  cases h <;> simp [Ev.tid]

theorem Loc.run {cfg : Cfg} {t : Nat} {q c o} {pc : PC α} {q' c' o' pc' es h p}
    (hl : Loc cfg t q c o pc q' c' o' pc' es) (hp : PhaseOf cfg.moveThrow pc p)
    (hr : ThreadRun cfg.moveThrow t h p) :
    ∃ p', PhaseOf cfg.moveThrow pc' p' ∧ ThreadRun cfg.moveThrow t (h ++ es) p' := by
  cases hl <;> (try rw [List.append_nil])
  case call op he =>
    cases hp
    refine ⟨.called op, ?_, .call hr⟩
    cases op <;> simp [entry] at he <;> subst he <;> constructor
  case done op r =>
    cases hp
    case done => exact ⟨_, .idle, .ret hr⟩
    case doneLost hl => exact ⟨_, .idle, .retLost hl hr⟩
  case rMoveT hm => cases hp; exact ⟨_, .relLost hm, hr⟩
  case rMove => cases hp; exact ⟨_, .relRet, hr⟩
  case eFastC => cases hp; exact ⟨_, .done, .lin hr⟩
  case eBodyC => cases hp; exact ⟨_, .relRet, .lin hr⟩
  case eBodyO => cases hp; exact ⟨_, .sUnlock, .lin hr⟩
  case eBodyT => cases hp; exact ⟨_, .relRet, .lin hr⟩
  case pBodyN => cases hp; exact ⟨_, .relRet, .lin hr⟩
  case pBodyS => cases hp; exact ⟨_, .rMove, .lin hr⟩
  case pBodyT => cases hp; exact ⟨_, .relRet, .lin hr⟩
  case qBodyN => cases hp; exact ⟨_, .relRet, .lin hr⟩
  case qBodyS => cases hp; exact ⟨_, .rMove, .lin hr⟩
  case qBodyT => cases hp; exact ⟨_, .relRet, .lin hr⟩
  case cSet => cases hp; exact ⟨_, .cUnlock, .lin hr⟩
  case kRead => cases hp; exact ⟨_, .done, .lin hr⟩
  case relRet =>
    cases hp
    case relRet => exact ⟨_, .done, hr⟩
    case relLost hl => exact ⟨_, .doneLost hl, hr⟩
  all_goals (cases hp; exact ⟨_, by constructor, hr⟩)

theorem runInv_pcs {cfg : Cfg} {s : St α} {pcs' : List (PC α)} (hi : RunInv cfg s)
    (h : ∀ (i : Nat) (pc' : PC α), pcs'[i]? = some pc' → ∃ pc, s.pcs[i]? = some pc ∧
      ∀ p, PhaseOf cfg.moveThrow pc p → PhaseOf cfg.moveThrow pc' p) :
    RunInv cfg ⟨s.slot, s.closed, s.owner, pcs', s.hist⟩ := by
  intro i pc' hp
  obtain ⟨pc, h1, h2⟩ := h i pc' hp
  obtain ⟨p, h3, h4⟩ := hi i pc h1
  exact ⟨p, h2 p h3, h4⟩

theorem runInv_step {cfg : Cfg} {s s' : St α} (hi : RunInv cfg s) (h : Step cfg s s') : RunInv cfg s' := by
  cases h with
  | loc hp hl =>
    rename_i t pc q' c' o' pc' es
    intro i p hip
    dsimp only at hip ⊢
    rcases getElem?_set' hp hip with ⟨rfl, rfl⟩ | ⟨hne, hip⟩
    · obtain ⟨ph, h1, h2⟩ := hi _ _ hp
      exact hl.run h1 h2
    · obtain ⟨ph, h1, h2⟩ := hi _ _ hip
      refine ⟨ph, h1, ?_⟩
      rcases hl.events with rfl | ⟨e, rfl, ht⟩
      · simpa using h2
      · exact .other h2 (by omega)
  | one0 hp hn =>
    refine runInv_pcs hi ?_
    intro i pc' h
    rcases getElem?_set' hp h with ⟨rfl, rfl⟩ | ⟨hne, h⟩
    · exact ⟨_, hp, fun p hp => by cases hp; constructor⟩
    · exact ⟨_, h, fun p hp => hp⟩
  | one1 hp hs =>
    rename_i t op j
    have hne : j ≠ t := by rintro rfl; rw [hp] at hs; cases hs
    refine runInv_pcs hi ?_
    intro i pc' h
    rcases getElem?_set' (z := .sNotify op) (by rw [List.getElem?_set_ne hne]; exact hp) h with ⟨rfl, rfl⟩ | ⟨_, h⟩
    · exact ⟨_, hp, fun p hp => by cases hp; constructor⟩
    · rcases getElem?_set' hs h with ⟨rfl, rfl⟩ | ⟨_, h⟩
      · exact ⟨_, hs, fun p hp => by cases hp; constructor⟩
      · exact ⟨_, h, fun p hp => hp⟩
  | all hp =>
    refine runInv_pcs hi ?_
    intro i pc' h
    rcases getElem?_set' (z := .cNotify) (by rw [List.getElem?_map, hp]; rfl) h with ⟨rfl, rfl⟩ | ⟨_, h⟩
    · exact ⟨_, hp, fun p hp => by cases hp; constructor⟩
    · rw [List.getElem?_map] at h
      cases hq : s.pcs[i]? with
      | none => simp [hq] at h
      | some p =>
        simp [hq] at h; subst h
        refine ⟨p, rfl, ?_⟩
        intro ph hph
        cases p <;> first | exact hph | (cases hph; exact .pLock)

theorem runInv_reach {cfg : Cfg} {n : Nat} {s : St α} (h : Reachable cfg n s) : RunInv cfg s :=
  reach_ind (by
    intro i pc hp
    simp only [init] at hp ⊢
    rw [List.getElem?_replicate] at hp
    split at hp <;> simp at hp
    subst hp; exact ⟨_, .idle, .nil⟩) (fun _ _ => runInv_step) h

/-! ### Wakeups -/

def isTok : PC α → Bool | .sUnlock _ | .sNotify _ | .pLock | .pCheck | .pBody => true | _ => false
def isCl : PC α → Bool | .cUnlock | .cNotify => true | _ => false

/-- If somebody sleeps although it should not, a wakeup is on its way. -/
def WakeInv (s : St α) : Prop :=
  (s.closed = false → 0 < s.pcs.countP PC.asleep → s.slot ≠ none → 0 < s.pcs.countP isTok) ∧
  (s.closed = true → 0 < s.pcs.countP PC.asleep → 0 < s.pcs.countP isCl)

theorem wake_loc {cfg : Cfg} (hm : cfg.moveThrow = false) {t : Nat} {q c o} {pc : PC α} {q' c' o' pc' es}
    {pcs : List (PC α)} {h h'} (hl : Loc cfg t q c o pc q' c' o' pc' es) (hp : pcs[t]? = some pc)
    (hb : pc = .pBody → q ≠ none ∨ c = true) (hi : WakeInv ⟨q, c, o, pcs, h⟩) :
    WakeInv ⟨q', c', o', pcs.set t pc', h'⟩ := by
  have a := countP_set' (p := PC.asleep) (x := pc') hp
  have b := countP_set' (p := isTok) (x := pc') hp
  have d := countP_set' (p := isCl) (x := pc') hp
  obtain ⟨h1, h2⟩ := hi
  dsimp only at h1 h2
  unfold WakeInv
  dsimp only
  generalize (pcs.set t pc').countP PC.asleep = A at *
  generalize (pcs.set t pc').countP isTok = B at *
  generalize (pcs.set t pc').countP isCl = D at *
  generalize pcs.countP PC.asleep = A' at *
  generalize pcs.countP isTok = B' at *
  generalize pcs.countP isCl = D' at *
  clear hp
  cases hl
  case call op he => cases op <;> simp [entry] at he <;> subst he <;> simp [PC.asleep, isTok, isCl] at a b d <;> grind
  all_goals simp [PC.asleep, isTok, isCl] at a b d hb
  all_goals grind

theorem wake_step {cfg : Cfg} (hm : cfg.moveThrow = false) {s s' : St α} (hb : BodyInv s) (hi : WakeInv s)
    (h : Step cfg s s') : WakeInv s' := by
  cases h with
  | loc hp hl => exact wake_loc hm hl hp (fun h => hb _ (h ▸ hp)) hi
  | @one0 t op hp hn =>
    have : s.pcs.countP PC.asleep = 0 := by
      rw [List.countP_eq_zero]
      intro a ha
      have := hn a ha
      cases a <;> simp_all [PC.asleep]
    have a := countP_set' (p := PC.asleep) (x := .done op (.bool true)) hp
    unfold WakeInv; dsimp only
    simp [PC.asleep] at a
    constructor <;> intros <;> omega
  | @one1 t op i hp hs =>
    have hne : i ≠ t := by rintro rfl; rw [hp] at hs; cases hs
    have hp' : (s.pcs.set i .pLock)[t]? = some (.sNotify op) := by rw [List.getElem?_set_ne hne]; exact hp
    have a := countP_set' (p := PC.asleep) (x := .done op (.bool true)) hp'
    have b := countP_set' (p := isTok) (x := .done op (.bool true)) hp'
    have d := countP_set' (p := isCl) (x := .done op (.bool true)) hp'
    have a' := countP_set' (p := PC.asleep) (x := .pLock) hs
    have b' := countP_set' (p := isTok) (x := .pLock) hs
    have d' := countP_set' (p := isCl) (x := .pLock) hs
    simp [PC.asleep, isTok, isCl] at a b d a' b' d'
    obtain ⟨h1, h2⟩ := hi
    have hpos : 0 < s.pcs.countP isTok := by
      rw [List.countP_pos_iff]
      exact ⟨_, List.mem_of_getElem? hp, rfl⟩
    unfold WakeInv; dsimp only
    grind
  | @all t hp =>
    have hp' : (s.pcs.map wake)[t]? = some .cNotify := by rw [List.getElem?_map, hp]; rfl
    have a := countP_set' (p := PC.asleep) (x := .done .close .unit) hp'
    have h0 : (s.pcs.map wake).countP PC.asleep = 0 := by
      rw [List.countP_eq_zero]
      intro a ha
      obtain ⟨b, _, rfl⟩ := List.mem_map.mp ha
      cases b <;> simp [wake, PC.asleep]
    rw [h0] at a
    change _ + 0 = 0 + 0 at a
    unfold WakeInv; dsimp only
    constructor <;> intros <;> omega

theorem wake_reach {cfg : Cfg} (hm : cfg.moveThrow = false) {n : Nat} {s : St α} (h : Reachable cfg n s) :
    WakeInv s :=
  (reach_ind (P := fun s => (LockInv s ∧ BodyInv s) ∧ WakeInv s)
    ⟨lockBody_reach ⟨[], rfl⟩ (cfg := cfg), by
      constructor <;> intro _ h <;> simp [init, List.countP_replicate, PC.asleep] at h⟩
    (fun _ _ hp hs => ⟨⟨lockInv_step hp.1.1 hs, bodyInv_step hp.1.1 hp.1.2 hs⟩, wake_step hm hp.1.2 hp.2 hs⟩) h).2

/-! ### Quiescence and termination -/

/-- No thread can take a step. -/
def Quiescent (cfg : Cfg) (s : St α) : Prop := ∀ t w, next cfg s (.step t w) = none

theorem stepAt_holds {s : St α} {t : Nat} {pc : PC α} (h : pc.holds = true) : ∃ s', stepAt s t none pc = some s' := by
  cases pc <;> simp [PC.holds] at h <;> simp only [stepAt] <;> (try split) <;> exact ⟨_, rfl⟩

theorem notifyOne_enabled (s : St α) : ∃ w s', notifyOne s w = some s' := by
  by_cases h : s.pcs.any PC.asleep
  · obtain ⟨p, hp, h⟩ := List.any_eq_true.mp h
    obtain ⟨i, hi⟩ := List.mem_iff_getElem?.mp hp
    cases p <;> simp [PC.asleep] at h
    exact ⟨some i, s.goto i .pLock, by simp [notifyOne, hi]⟩
  · exact ⟨none, s, by simp only [notifyOne]; rw [if_neg h]⟩

theorem quiescent_pc {cfg : Cfg} {s : St α} (hl : LockInv s) (hq : Quiescent cfg s) {t : Nat} {pc : PC α}
    (hp : s.pcs[t]? = some pc) : pc = .idle ∨ pc = .pSleep := by
  have ho : s.owner = none := by
    cases ho : s.owner with
    | none => rfl
    | some i =>
      have hlt := hl.2 i ho
      have hi : s.pcs[i]? = some s.pcs[i] := List.getElem?_eq_getElem hlt
      have hh := (hl.1 i _ hi).mpr ho
      obtain ⟨s', hs⟩ := stepAt_holds (s := s) (t := i) hh
      have := hq i none
      simp [next, hi, hs] at this
  have hn : ∀ w, stepAt s t w pc = none := by
    intro w
    have := hq t w
    simpa [next, hp] using this
  cases pc
  case idle => exact .inl rfl
  case pSleep => exact .inr rfl
  case sNotify op =>
    obtain ⟨w, s', hs⟩ := notifyOne_enabled s
    have := hn w
    simp [stepAt, hs] at this
  all_goals
    have := hn none
    simp only [stepAt, acquire, ho] at this
    repeat (split at this)
    all_goals simp at this

theorem quiescent_consumer {cfg : Cfg} (hm : cfg.moveThrow = false) {n : Nat} {s : St α} (hr : Reachable cfg n s)
    (hq : Quiescent cfg s) {t : Nat} (hp : s.pcs[t]? = some .pSleep) : s.slot = none ∧ s.closed = false := by
  have hl := lockInv_reach hr
  have hs : 0 < s.pcs.countP PC.asleep := by
    rw [List.countP_pos_iff]; exact ⟨_, List.mem_of_getElem? hp, rfl⟩
  have hz : ∀ p : PC α → Bool, p .idle = false → p .pSleep = false → s.pcs.countP p = 0 := by
    intro p h1 h2
    rw [List.countP_eq_zero]
    intro pc hpc
    obtain ⟨i, hi⟩ := List.mem_iff_getElem?.mp hpc
    rcases quiescent_pc hl hq hi with rfl | rfl <;> simp [*]
  have hw := wake_reach hm hr
  cases hc : s.closed with
  | true =>
    have := hw.2 hc hs
    rw [hz isCl rfl rfl] at this; omega
  | false =>
    refine ⟨?_, rfl⟩
    cases ho : s.slot with
    | none => rfl
    | some x =>
      have := hw.1 hc hs (by simp [ho])
      rw [hz isTok rfl rfl] at this; omega

/-- Remaining work of a thread, `n` threads in total. -/
def rank (n : Nat) : PC α → Nat
  | .idle => 0
  | .done _ _ => 1
  | .relRet _ _ => 2
  | .rMove _ _ => 3
  | .pBody => 4
  | .pSleep => 5
  | .pCheck => 6
  | .pLock => 7
  | .qBody => 4
  | .qLock => 5
  | .sNotify _ => 4
  | .sUnlock _ => 5
  | .eBody _ => 6
  | .eLock _ => 7
  | .eFast _ => 8
  | .kRead => 2
  | .cNotify => 2 * n + 2
  | .cUnlock => 2 * n + 3
  | .cSet => 2 * n + 4
  | .cLock => 2 * n + 5

def work (n : Nat) (pcs : List (PC α)) : Nat := (pcs.map (rank n)).sum

theorem work_set {n t : Nat} {pcs : List (PC α)} {pc pc' : PC α} (h : pcs[t]? = some pc) :
    work n (pcs.set t pc') + rank n pc = work n pcs + rank n pc' := by
  unfold work
  induction pcs generalizing t with
  | nil => simp at h
  | cons a l ih =>
    cases t with
    | zero => simp at h; subst h; simp; omega
    | succ t =>
      simp at h
      have := ih h
      simp only [List.set_cons_succ, List.map_cons, List.sum_cons]
      omega

theorem work_map {n : Nat} {pcs : List (PC α)} : work n (pcs.map wake) ≤ work n pcs + 2 * pcs.length := by
  unfold work
  induction pcs with
  | nil => simp
  | cons a l ih =>
    simp only [List.map_cons, List.sum_cons, List.length_cons]
    have : rank n (wake a) ≤ rank n a + 2 := by cases a <;> simp [wake, rank]
    omega

theorem work_step {s s' : St α} {t : Nat} {w : Option Nat} {pc : PC α} (hp : s.pcs[t]? = some pc)
    (h : stepAt s t w pc = some s') :
    work s.pcs.length s'.pcs + 1 ≤ work s.pcs.length s.pcs ∧ s'.pcs.length = s.pcs.length := by
  have key : ∀ pc', rank s.pcs.length pc' < rank s.pcs.length pc →
      work s.pcs.length (s.pcs.set t pc') + 1 ≤ work s.pcs.length s.pcs := by
    intro pc' h
    have := work_set (n := s.pcs.length) (pc' := pc') hp
    omega
  have hlt := lt_of_getElem? hp
  generalize hn : s.pcs.length = n at *
  cases pc
  case sNotify op =>
    simp only [stepAt, Option.map_eq_some_iff] at h
    obtain ⟨s1, h1, rfl⟩ := h
    cases w with
    | none =>
      simp only [notifyOne] at h1
      split at h1 <;> simp at h1
      subst h1
      exact ⟨key _ (by simp [rank]), by simp [St.goto, hn]⟩
    | some i =>
      simp only [notifyOne] at h1
      split at h1 <;> simp at h1
      rename_i hs
      subst h1
      have hne : i ≠ t := by rintro rfl; rw [hp] at hs; cases hs
      have a := work_set (n := n) (pc' := .pLock) hs
      have b := work_set (n := n) (pcs := s.pcs.set i .pLock) (t := t) (pc := .sNotify op)
        (pc' := .done op (.bool true)) (by rw [List.getElem?_set_ne hne]; exact hp)
      simp only [rank] at a b
      refine ⟨?_, by simp [St.goto, hn]⟩
      simp only [St.goto]
      omega
  case cNotify =>
    simp only [stepAt] at h
    injection h with h; subst h
    refine ⟨?_, by simp [St.goto, hn]⟩
    have a := work_map (n := n) (pcs := s.pcs)
    have b := work_set (n := n) (pcs := s.pcs.map wake) (t := t) (pc := .cNotify) (pc' := .done .close .unit)
      (by rw [List.getElem?_map, hp]; rfl)
    simp only [rank] at b
    simp only [St.goto]
    omega
  all_goals
    simp only [stepAt, acquire, release] at h
    repeat (split at h)
    all_goals first
      | (simp at h; done)
      | (injection h with h; subst h; exact ⟨key _ (by simp [rank]), by simp [St.goto, St.log, hn]⟩)

theorem work_throw {cfg : Cfg} {s s' : St α} {t : Nat} {pc : PC α} (hp : s.pcs[t]? = some pc)
    (h : throwAt cfg s t pc = some s') :
    work s.pcs.length s'.pcs + 1 ≤ work s.pcs.length s.pcs ∧ s'.pcs.length = s.pcs.length := by
  have key : ∀ pc', rank s.pcs.length pc' < rank s.pcs.length pc →
      work s.pcs.length (s.pcs.set t pc') + 1 ≤ work s.pcs.length s.pcs := by
    intro pc' h
    have := work_set (n := s.pcs.length) (pc' := pc') hp
    omega
  cases pc <;> simp only [throwAt] at h
  all_goals
    repeat (split at h)
    all_goals first
      | (simp at h; done)
      | (injection h with h; subst h; exact ⟨key _ (by simp [rank]), by simp [St.goto, St.log]⟩)

theorem work_stale {cfg : Cfg} {s s' : St α} {t : Nat} (h : next cfg s (.stale t) = some s') :
    work s.pcs.length s'.pcs + 1 ≤ work s.pcs.length s.pcs ∧ s'.pcs.length = s.pcs.length := by
  simp only [next] at h
  split at h
  · rename_i v hp
    injection h with h; subst h
    have := work_set (n := s.pcs.length) (pc' := .eLock v) hp
    simp only [rank] at this
    exact ⟨by simp only [St.goto]; omega, by simp [St.goto]⟩
  · simp at h

theorem run_bounded {cfg : Cfg} {s s' : St α} {acts : List (Act α)}
    (hi : ∀ a ∈ acts, (∃ t w, a = .step t w) ∨ (∃ t, a = .throw t) ∨ ∃ t, a = .stale t)
    (h : run cfg s acts = some s') : acts.length + work s.pcs.length s'.pcs ≤ work s.pcs.length s.pcs := by
  induction acts generalizing s with
  | nil => simp [run] at h; subst h; simp
  | cons a as ih =>
    simp only [run, Option.bind_eq_some_iff] at h
    obtain ⟨s1, h1, h2⟩ := h
    have h3 := ih (fun a ha => hi a (by simp [ha])) h2
    have : work s.pcs.length s1.pcs + 1 ≤ work s.pcs.length s.pcs ∧ s1.pcs.length = s.pcs.length := by
      rcases hi a (by simp) with ⟨t, w, rfl⟩ | ⟨t, rfl⟩ | ⟨t, rfl⟩
      · simp only [next] at h1
        split at h1
        · rename_i hp; exact work_step hp h1
        · simp at h1
      · simp only [next] at h1
        split at h1
        · rename_i hp; exact work_throw hp h1
        · simp at h1
      · exact work_stale h1
    rw [this.2] at h3
    simp only [List.length_cons]
    omega

theorem work_le (n : Nat) (pcs : List (PC α)) : work n pcs ≤ pcs.length * (2 * n + 8) := by
  unfold work
  induction pcs with
  | nil => simp
  | cons a l ih =>
    simp only [List.map_cons, List.sum_cons, List.length_cons]
    have : rank n a ≤ 2 * n + 8 := by cases a <;> simp only [rank] <;> omega
    rw [Nat.add_mul]; omega

theorem step_length {cfg : Cfg} {s s' : St α} (h : Step cfg s s') : s'.pcs.length = s.pcs.length := by
  cases h <;> simp

theorem reachable_length {cfg : Cfg} {n : Nat} {s : St α} (h : Reachable cfg n s) : s.pcs.length = n :=
  reach_ind (P := fun s => s.pcs.length = n) (by simp [init]) (fun _ _ hp hs => by rw [step_length hs, hp]) h

/-! ### Histories -/

theorem Explains.nil_inv {s : Option α × Bool} (he : Explains [] s) : s = (none, false) := by
  generalize hg : ([] : List (Ev α)) = g at he
  cases he <;> simp_all

theorem Explains.snoc_inv {h : List (Ev α)} {e s'} (he : Explains (h ++ [e]) s') :
    ∃ s, Explains h s ∧
      ((∀ t op r, e ≠ .lin t op r) ∧ s' = s ∨ ∃ t op r, e = .lin t op r ∧ Atomic s op r s') := by
  generalize hg : h ++ [e] = g at he
  cases he with
  | nil => simp at hg
  | call he => obtain ⟨rfl, rfl⟩ := snoc_inj hg; exact ⟨_, he, .inl ⟨by simp, rfl⟩⟩
  | ret he => obtain ⟨rfl, rfl⟩ := snoc_inj hg; exact ⟨_, he, .inl ⟨by simp, rfl⟩⟩
  | lin he ha => obtain ⟨rfl, rfl⟩ := snoc_inj hg; exact ⟨_, he, .inr ⟨_, _, _, rfl, ha⟩⟩

theorem Explains.prefix {h1 h2 : List (Ev α)} {s'} (he : Explains (h1 ++ h2) s') : ∃ s, Explains h1 s := by
  induction h2 using List.reverseRecOn generalizing s' with
  | nil => rw [List.append_nil] at he; exact ⟨_, he⟩
  | append_singleton h e ih =>
    rw [← List.append_assoc] at he
    obtain ⟨s, hs, _⟩ := he.snoc_inv
    exact ih hs

theorem Atomic.det {s s1 s2 : Option α × Bool} {op : Op α} {r} (h1 : Atomic s op r s1) (h2 : Atomic s op r s2) :
    s1 = s2 := by
  cases h1 <;> cases h2 <;> rfl

theorem Explains.det {h : List (Ev α)} {s1 s2} (h1 : Explains h s1) (h2 : Explains h s2) : s1 = s2 := by
  induction h using List.reverseRecOn generalizing s1 s2 with
  | nil => rw [h1.nil_inv, h2.nil_inv]
  | append_singleton h e ih =>
    obtain ⟨a, ha, ha'⟩ := h1.snoc_inv
    obtain ⟨b, hb, hb'⟩ := h2.snoc_inv
    have := ih ha hb; subst this
    rcases ha' with ⟨hn, rfl⟩ | ⟨t, op, r, rfl, hA⟩
    · rcases hb' with ⟨_, rfl⟩ | ⟨t, op, r, rfl, _⟩
      · rfl
      · exact absurd rfl (hn _ _ _)
    · rcases hb' with ⟨hn, _⟩ | ⟨t', op', r', he, hB⟩
      · exact absurd rfl (hn _ _ _)
      · cases he; exact hA.det hB

theorem Explains.closed_of_mem {h : List (Ev α)} {s} {t : Nat} {r} (he : Explains h s)
    (hm : Ev.lin t .close r ∈ h) : s.2 = true := by
  induction he with
  | nil => simp at hm
  | call he ih => simp at hm; exact ih hm
  | ret he ih => simp at hm; exact ih hm
  | lin he ha ih =>
    rcases List.mem_append.mp hm with hm | hm
    · have := ih hm
      cases ha <;> simp_all
    · simp at hm
      obtain ⟨rfl, rfl, rfl⟩ := hm
      cases ha; rfl

theorem Explains.close_mem {h : List (Ev α)} {s} (he : Explains h s) (hc : s.2 = true) :
    ∃ t, Ev.lin t .close .unit ∈ h := by
  induction he with
  | nil => simp at hc
  | call he ih => obtain ⟨t, ht⟩ := ih hc; exact ⟨t, by simp [ht]⟩
  | ret he ih => obtain ⟨t, ht⟩ := ih hc; exact ⟨t, by simp [ht]⟩
  | @lin h s s' t op r he ha ih =>
    by_cases h2 : s.2 = true
    · obtain ⟨t, ht⟩ := ih h2; exact ⟨t, by simp [ht]⟩
    · cases ha <;> simp_all

/-- What is in the slot was inserted last and neither replaced nor removed since. -/
theorem Explains.slot_origin {h : List (Ev α)} {s} {x : α} (he : Explains h s) (hx : s.1 = some x) :
    ∃ t g1 g2, h = g1 ++ .lin t (.push x) (.bool true) :: g2 ∧ inserted g2 = [] ∧ removed g2 = [] := by
  induction he with
  | nil => simp at hx
  | call he ih =>
    obtain ⟨t, g1, g2, rfl, h1, h2⟩ := ih hx
    exact ⟨t, g1, g2 ++ [_], by simp; rfl, by simp [inserted_append, h1, inserted], by
      simp [removed_append, h2, removed]⟩
  | ret he ih =>
    obtain ⟨t, g1, g2, rfl, h1, h2⟩ := ih hx
    exact ⟨t, g1, g2 ++ [_], by simp; rfl, by simp [inserted_append, h1, inserted], by
      simp [removed_append, h2, removed]⟩
  | @lin h s s' t op r he ha ih =>
    have keep : s.1 = some x → inserted [Ev.lin t op r] = [] → removed [Ev.lin t op r] = [] →
        ∃ t' g1 g2, h ++ [Ev.lin t op r] = g1 ++ .lin t' (.push x) (.bool true) :: g2 ∧ inserted g2 = [] ∧
          removed g2 = [] := by
      intro hs e1 e2
      obtain ⟨t', g1, g2, rfl, h1, h2⟩ := ih hs
      exact ⟨t', g1, g2 ++ [.lin t op r], by simp, by rw [inserted_append, h1, e1]; rfl,
        by rw [removed_append, h2, e2]; rfl⟩
    cases ha
    case pushOk => simp at hx; subst hx; exact ⟨t, h, [], rfl, rfl, rfl⟩
    case pushThrew => simp at hx
    case popOk => simp at hx
    case tryPopOk => simp at hx
    all_goals exact keep hx rfl rfl

/-- What happens to the slot while nothing is inserted. -/
theorem Explains.slot_after {h1 h2 : List (Ev α)} {o c s'} (h : Explains h1 (o, c)) (h' : Explains (h1 ++ h2) s')
    (hi : inserted h2 = []) (ht : ∀ t v, .lin t (.push v) .threw ∉ h2) :
    (removed h2 = [] ∧ s'.1 = o) ∨ (∃ x, o = some x ∧ removed h2 = [x] ∧ s'.1 = none) := by
  induction h2 using List.reverseRecOn generalizing s' with
  | nil =>
    rw [List.append_nil] at h'
    have := h.det h'; subst this
    exact .inl ⟨rfl, rfl⟩
  | append_singleton g e ih =>
    rw [← List.append_assoc] at h'
    obtain ⟨s, hs, he⟩ := h'.snoc_inv
    rw [inserted_append, List.append_eq_nil_iff] at hi
    have ih := ih hs hi.1 (fun t v hm => ht t v (List.mem_append_left _ hm))
    rw [removed_append]
    rcases he with ⟨hn, rfl⟩ | ⟨t, op, r, rfl, ha⟩
    · have : removed [e] = [] := by cases e <;> first | rfl | exact absurd rfl (hn _ _ _)
      simpa [this] using ih
    · have hi2 := hi.2
      have ht2 : ∀ v, ¬ (op = .push v ∧ r = .threw) := by
        rintro v ⟨rfl, rfl⟩; exact ht t v (by simp)
      clear hi ht hs h h'
      cases ha <;> simp_all [inserted, removed]

/-- Once closed, closed for ever, and nothing is inserted. -/
theorem Explains.after_closed {h1 h2 : List (Ev α)} {o s'}
    (h : Explains h1 (o, true)) (h' : Explains (h1 ++ h2) s') :
    s'.2 = true ∧ inserted h2 = [] ∧ (∀ t v r, .lin t (.push v) r ∈ h2 → r = .bool false) := by
  induction h2 using List.reverseRecOn generalizing s' with
  | nil =>
    rw [List.append_nil] at h'
    have := h.det h'; subst this
    simp [inserted]
  | append_singleton g e ih =>
    rw [← List.append_assoc] at h'
    obtain ⟨s, hs, he⟩ := h'.snoc_inv
    obtain ⟨hc, hi, hp⟩ := ih hs
    rcases he with ⟨hn, rfl⟩ | ⟨t, op, r, rfl, ha⟩
    · refine ⟨hc, ?_, ?_⟩
      · rw [inserted_append, hi]
        cases e <;> simp [inserted]
        exact absurd rfl (hn _ _ _)
      · intro t v r hm
        rcases List.mem_append.mp hm with hm | hm
        · exact hp t v r hm
        · simp at hm; exact absurd hm.symm (hn _ _ _)
    · obtain ⟨sq, sc⟩ := s
      dsimp only at hc; subst hc
      have key : s'.2 = true ∧ inserted [Ev.lin t op r] = [] ∧ (∀ v, op = .push v → r = .bool false) := by
        clear hp hs h h' ih hi
        cases ha <;> simp [inserted]
      obtain ⟨k1, k2, k3⟩ := key
      refine ⟨k1, by rw [inserted_append, hi, k2]; rfl, ?_⟩
      intro t' v r' hm
      rcases List.mem_append.mp hm with hm | hm
      · exact hp t' v r' hm
      · simp at hm; obtain ⟨rfl, h1, rfl⟩ := hm; exact k3 v h1.symm

end Verif.Exchange
