import Verif.Channel.Model

/-!
The transition function of the model, restated as a relation (one constructor per kind of transition), and the
induction principle for reachable states. Used by the proofs only.
-/
namespace Verif.Channel

variable {α : Type}

/-- Transitions that only change one thread's position (channel.hpp:58-212, as a relation). -/
inductive Loc (cfg : Cfg) (t : Nat) : List α → Bool → Option Nat → PC α →
    List α → Bool → Option Nat → PC α → List (Ev α) → Prop where
  | call {q c o op} : Loc cfg t q c o .idle q c o (entry op) [.call t op]
  | eFastC {q o v} : Loc cfg t q true o (.eFast v) q true o (.done (.push v) (.bool false))
      [.lin t (.push v) (.bool false)]
  | eFastO {q c o v} : Loc cfg t q c o (.eFast v) q c o (.eLock v) []
  | eLock {q c v} : Loc cfg t q c none (.eLock v) q c (some t) (.eCheck v) []
  | eCheckGo {q c o v} : (q.length < cfg.cap ∨ c = true) → Loc cfg t q c o (.eCheck v) q c o (.eBody v) []
  | eCheckSl {q c o v} : ¬ (q.length < cfg.cap ∨ c = true) → Loc cfg t q c o (.eCheck v) q c none (.eSleep v) []
  | eBodyC {q o v} : Loc cfg t q true o (.eBody v) q true o (.relRet (.push v) (.bool false))
      [.lin t (.push v) (.bool false)]
  | eBodyO {q o v} : Loc cfg t q false o (.eBody v) (q ++ [v]) false o (.sUnlock (.push v))
      [.lin t (.push v) (.bool true)]
  | eBodyT {q o v} : cfg.ctorThrow = true → Loc cfg t q false o (.eBody v) q false o (.relRet (.push v) .threw)
      [.lin t (.push v) .threw]
  | tFastC {q o v} : Loc cfg t q true o (.tFast v) q true o (.done (.tryPush v) (.bool false))
      [.lin t (.tryPush v) (.bool false)]
  | tFastO {q c o v} : Loc cfg t q c o (.tFast v) q c o (.tLock v) []
  | tLock {q c v} : Loc cfg t q c none (.tLock v) q c (some t) (.tBody v) []
  | tBodyF {q c o v} : (cfg.cap ≤ q.length ∨ c = true) →
      Loc cfg t q c o (.tBody v) q c o (.relRet (.tryPush v) (.bool false)) [.lin t (.tryPush v) (.bool false)]
  | tBodyO {q o v} : q.length < cfg.cap →
      Loc cfg t q false o (.tBody v) (q ++ [v]) false o (.sUnlock (.tryPush v)) [.lin t (.tryPush v) (.bool true)]
  | tBodyT {q o v} : cfg.ctorThrow = true → q.length < cfg.cap →
      Loc cfg t q false o (.tBody v) q false o (.relRet (.tryPush v) .threw) [.lin t (.tryPush v) .threw]
  | sUnlock {q c o op} : Loc cfg t q c o (.sUnlock op) q c none (.sNotify op) []
  | pLock {q c} : Loc cfg t q c none .pLock q c (some t) .pCheck []
  | pCheckGo {q c o} : (q ≠ [] ∨ c = true) → Loc cfg t q c o .pCheck q c o .pBody []
  | pCheckSl {q c o} : ¬ (q ≠ [] ∨ c = true) → Loc cfg t q c o .pCheck q c none .pSleep []
  | pBodyN {c o} : Loc cfg t [] c o .pBody [] c o (.relRet .pop (.val none)) [.lin t .pop (.val none)]
  | pBodyS {x q c o} : Loc cfg t (x :: q) c o .pBody q c o (.rUnlock .pop x) [.lin t .pop (.val (some x))]
  | pBodyT {x q c o} : cfg.moveThrow = true →
      Loc cfg t (x :: q) c o .pBody (x :: q) c o (.relRet .pop .threw) [.lin t .pop .threw]
  | qLock {q c} : Loc cfg t q c none .qLock q c (some t) .qBody []
  | qBodyN {c o} : Loc cfg t [] c o .qBody [] c o (.relRet .tryPop (.val none)) [.lin t .tryPop (.val none)]
  | qBodyS {x q c o} : Loc cfg t (x :: q) c o .qBody q c o (.rUnlock .tryPop x) [.lin t .tryPop (.val (some x))]
  | qBodyT {x q c o} : cfg.moveThrow = true →
      Loc cfg t (x :: q) c o .qBody (x :: q) c o (.relRet .tryPop .threw) [.lin t .tryPop .threw]
  | rUnlock {q c o op x} : Loc cfg t q c o (.rUnlock op x) q c none (.rNotify op x) []
  | rRet {q c o op x} : Loc cfg t q c o (.rRet op x) q c o (.done op (.val (some x))) []
  | rRetT {q c o op x} : cfg.moveThrow = true → Loc cfg t q c o (.rRet op x) q c o (.done op .threw) []
  | relRet {q c o op r} : Loc cfg t q c o (.relRet op r) q c none (.done op r) []
  | cLock {q c} : Loc cfg t q c none .cLock q c (some t) .cSet []
  | cSet {q c o} : Loc cfg t q c o .cSet q true o .cUnlock [.lin t .close .unit]
  | cUnlock {q c o} : Loc cfg t q c o .cUnlock q c none .cNotifyE []
  | kRead {q c o} : Loc cfg t q c o .kRead q c o (.done .isClosed (.bool c)) [.lin t .isClosed (.bool c)]
  | done {q c o op r} : Loc cfg t q c o (.done op r) q c o .idle [.ret t r]
  | spurE {q c o} : Loc cfg t q c o .pSleep q c o .pLock []
  | spurF {q c o v} : Loc cfg t q c o (.eSleep v) q c o (.eLock v) []

/-- All transitions (channel.hpp:58-212, as a relation). -/
inductive Step (cfg : Cfg) (s : St α) : St α → Prop where
  | loc {t pc q' c' o' pc' es} : s.pcs[t]? = some pc → Loc cfg t s.q s.closed s.owner pc q' c' o' pc' es →
      Step cfg s ⟨q', c', o', s.pcs.set t pc', s.hist ++ es⟩
  | oneE0 {t op} : s.pcs[t]? = some (.sNotify op) → (∀ p ∈ s.pcs, p ≠ .pSleep) →
      Step cfg s ⟨s.q, s.closed, s.owner, s.pcs.set t (.done op (.bool true)), s.hist⟩
  | oneE1 {t op i} : s.pcs[t]? = some (.sNotify op) → s.pcs[i]? = some .pSleep →
      Step cfg s ⟨s.q, s.closed, s.owner, (s.pcs.set i .pLock).set t (.done op (.bool true)), s.hist⟩
  | oneF0 {t op x} : s.pcs[t]? = some (.rNotify op x) → (∀ p ∈ s.pcs, ∀ v, p ≠ .eSleep v) →
      Step cfg s ⟨s.q, s.closed, s.owner, s.pcs.set t (.rRet op x), s.hist⟩
  | oneF1 {t op x i v} : s.pcs[t]? = some (.rNotify op x) → s.pcs[i]? = some (.eSleep v) →
      Step cfg s ⟨s.q, s.closed, s.owner, (s.pcs.set i (.eLock v)).set t (.rRet op x), s.hist⟩
  | allE {t} : s.pcs[t]? = some .cNotifyE →
      Step cfg s ⟨s.q, s.closed, s.owner, (s.pcs.map (fun p => (wakeE p).getD p)).set t .cNotifyF, s.hist⟩
  | allF {t} : s.pcs[t]? = some .cNotifyF →
      Step cfg s ⟨s.q, s.closed, s.owner, (s.pcs.map (fun p => (wakeF p).getD p)).set t (.done .close .unit), s.hist⟩

theorem wakeE_isSome {p : PC α} : (wakeE p).isSome = true ↔ p = .pSleep := by
  cases p <;> simp [wakeE]

theorem wakeF_isSome {p : PC α} : (wakeF p).isSome = true ↔ ∃ v, p = .eSleep v := by
  cases p <;> simp [wakeF]

theorem loc' {cfg : Cfg} {s s' : St α} {t pc q' c' o' pc' es} (h : s.pcs[t]? = some pc)
    (hl : Loc cfg t s.q s.closed s.owner pc q' c' o' pc' es)
    (hs : s' = ⟨q', c', o', s.pcs.set t pc', s.hist ++ es⟩) : Step cfg s s' := by
  subst hs; exact Step.loc h hl

theorem stepAt_step {cfg : Cfg} {s s' : St α} {t wake pc} (hp : s.pcs[t]? = some pc)
    (h : stepAt cfg s t wake pc = some s') : Step cfg s s' := by
  obtain ⟨q, c, o, pcs, hist⟩ := s
  cases pc <;> simp only [stepAt] at h
  case idle => simp at h
  case eSleep => simp at h
  case pSleep => simp at h
  case eFast v =>
    cases c <;> simp [St.goto, St.log] at h <;> subst h
    · exact loc' hp .eFastO (by simp)
    · exact loc' hp .eFastC (by simp)
  case tFast v =>
    cases c <;> simp [St.goto, St.log] at h <;> subst h
    · exact loc' hp .tFastO (by simp)
    · exact loc' hp .tFastC (by simp)
  case eLock v =>
    cases o <;> simp [acquire, St.goto] at h; subst h
    exact loc' hp .eLock (by simp)
  case tLock v =>
    cases o <;> simp [acquire, St.goto] at h; subst h
    exact loc' hp .tLock (by simp)
  case pLock =>
    cases o <;> simp [acquire, St.goto] at h; subst h
    exact loc' hp .pLock (by simp)
  case qLock =>
    cases o <;> simp [acquire, St.goto] at h; subst h
    exact loc' hp .qLock (by simp)
  case cLock =>
    cases o <;> simp [acquire, St.goto] at h; subst h
    exact loc' hp .cLock (by simp)
  case eCheck v =>
    split at h <;> simp [release, St.goto] at h <;> subst h
    · exact loc' hp (.eCheckGo (by assumption)) (by simp)
    · exact loc' hp (.eCheckSl (by assumption)) (by simp)
  case pCheck =>
    split at h <;> simp [release, St.goto] at h <;> subst h
    · exact loc' hp (.pCheckGo (by assumption)) (by simp)
    · exact loc' hp (.pCheckSl (by assumption)) (by simp)
  case eBody v =>
    cases c <;> simp [St.goto, St.log] at h <;> subst h
    · exact loc' hp .eBodyO (by simp)
    · exact loc' hp .eBodyC (by simp)
  case tBody v =>
    split at h <;> simp [St.goto, St.log] at h <;> subst h
    · exact loc' hp (.tBodyF (by assumption)) (by simp)
    · rename_i hn
      cases c <;> simp at hn
      exact loc' hp (.tBodyO hn) (by simp)
  case sUnlock op => simp [release, St.goto] at h; subst h; exact loc' hp .sUnlock (by simp)
  case rUnlock op x => simp [release, St.goto] at h; subst h; exact loc' hp .rUnlock (by simp)
  case relRet op r => simp [release, St.goto] at h; subst h; exact loc' hp .relRet (by simp)
  case cUnlock => simp [release, St.goto] at h; subst h; exact loc' hp .cUnlock (by simp)
  case rRet op x => simp [St.goto] at h; subst h; exact loc' hp .rRet (by simp)
  case cSet => simp [St.goto, St.log] at h; subst h; exact loc' hp .cSet (by simp)
  case kRead => simp [St.goto, St.log] at h; subst h; exact loc' hp .kRead (by simp)
  case done op r => simp [St.goto, St.log] at h; subst h; exact loc' hp .done (by simp)
  case pBody =>
    cases q <;> simp [St.goto, St.log] at h <;> subst h
    · exact loc' hp .pBodyN (by simp)
    · exact loc' hp .pBodyS (by simp)
  case qBody =>
    cases q <;> simp [St.goto, St.log] at h <;> subst h
    · exact loc' hp .qBodyN (by simp)
    · exact loc' hp .qBodyS (by simp)
  case cNotifyE => simp [notifyAll, St.goto] at h; subst h; exact .allE hp
  case cNotifyF => simp [notifyAll, St.goto] at h; subst h; exact .allF hp
  case sNotify op =>
    cases wake with
    | none =>
      simp only [notifyOne] at h
      split at h
      · simp at h
      · rename_i hn
        simp [St.goto] at h; subst h
        refine .oneE0 hp ?_
        intro p hm he
        exact hn (List.any_eq_true.mpr ⟨p, hm, wakeE_isSome.mpr he⟩)
    | some i =>
      simp only [notifyOne] at h
      cases hi : pcs[i]? with
      | none => simp [hi] at h
      | some p =>
        simp only [hi] at h
        cases p <;> simp [wakeE, St.goto] at h
        subst h
        exact .oneE1 hp hi
  case rNotify op x =>
    cases wake with
    | none =>
      simp only [notifyOne] at h
      split at h
      · simp at h
      · rename_i hn
        simp [St.goto] at h; subst h
        refine .oneF0 hp ?_
        intro p hm v he
        exact hn (List.any_eq_true.mpr ⟨p, hm, wakeF_isSome.mpr ⟨v, he⟩⟩)
    | some i =>
      simp only [notifyOne] at h
      cases hi : pcs[i]? with
      | none => simp [hi] at h
      | some p =>
        simp only [hi] at h
        cases p <;> simp [wakeF, St.goto] at h
        subst h
        exact .oneF1 hp hi

theorem throwAt_step {cfg : Cfg} {s s' : St α} {t pc} (hp : s.pcs[t]? = some pc)
    (h : throwAt cfg s t pc = some s') : Step cfg s s' := by
  obtain ⟨q, c, o, pcs, hist⟩ := s
  cases pc <;> simp only [throwAt] at h
  case eBody v =>
    split at h <;> simp [St.goto, St.log] at h; subst h
    rename_i hc; obtain ⟨hc1, hc2⟩ := hc
    subst hc2
    exact loc' hp (.eBodyT hc1) (by simp)
  case tBody v =>
    split at h <;> simp [St.goto, St.log] at h; subst h
    rename_i hc; obtain ⟨hc1, hc2, hc3⟩ := hc
    subst hc2
    exact loc' hp (.tBodyT hc1 hc3) (by simp)
  case pBody =>
    split at h <;> simp [St.goto, St.log] at h; subst h
    rename_i hc; obtain ⟨hc1, hc2⟩ := hc
    cases q with
    | nil => simp at hc2
    | cons x q => exact loc' hp (.pBodyT hc1) (by simp)
  case qBody =>
    split at h <;> simp [St.goto, St.log] at h; subst h
    rename_i hc; obtain ⟨hc1, hc2⟩ := hc
    cases q with
    | nil => simp at hc2
    | cons x q => exact loc' hp (.qBodyT hc1) (by simp)
  case rRet op x =>
    split at h <;> simp [St.goto] at h; subst h
    rename_i hc
    exact loc' hp (.rRetT hc) (by simp)
  all_goals simp at h

theorem next_step {cfg : Cfg} {s s' : St α} {a} (h : next cfg s a = some s') : Step cfg s s' := by
  cases a with
  | call t op =>
    simp only [next] at h
    split at h
    · rename_i hp
      simp [St.goto, St.log] at h; subst h
      exact loc' hp (.call (op := op)) (by simp)
    · simp at h
  | step t w =>
    simp only [next] at h
    split at h
    · rename_i pc hp; exact stepAt_step hp h
    · simp at h
  | throw t =>
    simp only [next] at h
    split at h
    · rename_i pc hp; exact throwAt_step hp h
    · simp at h
  | spurious t =>
    simp only [next] at h
    split at h
    · rename_i hp
      simp [St.goto] at h; subst h
      exact loc' hp .spurE (by simp)
    · rename_i v hp
      simp [St.goto] at h; subst h
      exact loc' hp .spurF (by simp)
    · simp at h
  | stale t =>
    simp only [next] at h
    split at h
    · rename_i v hp
      simp [St.goto] at h; subst h
      exact loc' hp .eFastO (by simp)
    · rename_i v hp
      simp [St.goto] at h; subst h
      exact loc' hp .tFastO (by simp)
    · simp at h

theorem run_ind {cfg : Cfg} {P : St α → Prop} (hstep : ∀ s s', P s → Step cfg s s' → P s') :
    ∀ (acts : List (Act α)) (s s' : St α), P s → run cfg s acts = some s' → P s'
  | [], s, s', hp, h => by simp [run] at h; subst h; exact hp
  | a :: as, s, s', hp, h => by
    simp only [run] at h
    cases hn : next cfg s a with
    | none => simp [hn] at h
    | some s1 =>
      simp only [hn, Option.bind] at h
      exact run_ind hstep as s1 s' (hstep s s1 hp (next_step hn)) h

/-- Invariants: what holds initially and is kept by every transition holds in every reachable state. -/
theorem reach_ind {cfg : Cfg} {n : Nat} {P : St α → Prop} (h0 : P (init α n))
    (hstep : ∀ s s', P s → Step cfg s s' → P s') {s : St α} (h : Reachable cfg n s) : P s := by
  obtain ⟨acts, h⟩ := h
  exact run_ind hstep acts _ _ h0 h

end Verif.Channel
