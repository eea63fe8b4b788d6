import Verif.Multi.Spec

/-! What one action of one thread in one channel means for its callers. -/
namespace Verif.Multi

open Verif.Channel

variable {α : Type}

/-- The running call, and its result once it has had its effect (channel.hpp:58-212). -/
def ph : PC α → Option (Op α × Option (Res α))
  | .idle => none
  | .eFast v | .eLock v | .eCheck v | .eSleep v | .eBody v => some (.push v, none)
  | .tFast v | .tLock v | .tBody v => some (.tryPush v, none)
  | .sUnlock op | .sNotify op => some (op, some (.bool true))
  | .pLock | .pCheck | .pSleep | .pBody => some (.pop, none)
  | .qLock | .qBody => some (.tryPop, none)
  | .rUnlock op x | .rNotify op x | .rRet op x => some (op, some (.val (some x)))
  | .relRet op r | .done op r => some (op, some r)
  | .cLock | .cSet => some (.close, none)
  | .cUnlock | .cNotifyE | .cNotifyF => some (.close, some .unit)
  | .kRead => some (.isClosed, none)

theorem ph_wakeE (p : PC α) : ph ((wakeE p).getD p) = ph p := by cases p <;> rfl
theorem ph_wakeF (p : PC α) : ph ((wakeF p).getD p) = ph p := by cases p <;> rfl
theorem ph_entry (op : Op α) : ph (entry op) = some (op, none) := by cases op <;> rfl
theorem ph_idle {p : PC α} (h : ph p = none) : p = .idle := by cases p <;> simp [ph] at h ⊢

/-- Effects of one action inside a call (of channel.hpp:58-212). -/
inductive Rel (cfg : Cfg) : List α → Bool → Option (Op α × Option (Res α)) → List α → Bool → Option (Op α × Option (Res α)) → Prop where
  | same {q c k} : Rel cfg q c k q c k
  | eff {q c op r q' c'} : Effect cfg q c op r q' c' → Rel cfg q c (some (op, none)) q' c' (some (op, some r))
  | recant {q c op x} : cfg.moveThrow = true → Rel cfg q c (some (op, some (.val (some x)))) q c (some (op, some .threw))

/-- Everything a caller needs to know about one action of thread `t` in a call (of channel.hpp:58-212). -/
structure Did (cfg : Cfg) (s s' : St α) (t : Nat) (pc : PC α) : Prop where
  others : ∀ i, i ≠ t → (s'.pcs[i]?).map ph = (s.pcs[i]?).map ph
  done : ∀ op r, pc = .done op r → s'.pcs[t]? = some .idle ∧ s'.q = s.q ∧ s'.closed = s.closed
  go : (∀ op r, pc ≠ .done op r) → ∃ pc', s'.pcs[t]? = some pc' ∧ Rel cfg s.q s.closed (ph pc) s'.q s'.closed (ph pc')

theorem did_set {cfg : Cfg} {s : St α} {t : Nat} {pc pc' : PC α} {q' c' o' h'} (hp : s.pcs[t]? = some pc)
    (hnd : ∀ op r, pc ≠ .done op r) (ht : Rel cfg s.q s.closed (ph pc) q' c' (ph pc')) :
    Did cfg s ⟨q', c', o', s.pcs.set t pc', h'⟩ t pc where
  others i hi := by simp [List.getElem?_set_ne (Ne.symm hi)]
  done op r h := absurd h (hnd op r)
  go _ := ⟨pc', by simp [lt_of_getElem? hp], ht⟩

theorem did_one {cfg : Cfg} {s : St α} {t i : Nat} {pc pc' p p' : PC α} (hp : s.pcs[t]? = some pc)
    (hnd : ∀ op r, pc ≠ .done op r) (hi : s.pcs[i]? = some p) (hpp : ph p' = ph p)
    (ht : Rel cfg s.q s.closed (ph pc) s.q s.closed (ph pc')) {o' h'} :
    Did cfg s ⟨s.q, s.closed, o', (s.pcs.set i p').set t pc', h'⟩ t pc where
  others j hj := by
    simp only [List.getElem?_set_ne (Ne.symm hj), List.getElem?_set]
    split
    · rename_i e; subst e; rw [hi]; simp [lt_of_getElem? hi, hpp]
    · rfl
  done op r h := absurd h (hnd op r)
  go _ := ⟨pc', by simp [lt_of_getElem? hp], ht⟩

theorem did_all {cfg : Cfg} {s : St α} {t : Nat} {pc pc' : PC α} {f : PC α → PC α} (hp : s.pcs[t]? = some pc)
    (hnd : ∀ op r, pc ≠ .done op r) (hf : ∀ p, ph (f p) = ph p) (ht : ph pc' = ph pc) {o' h'} :
    Did cfg s ⟨s.q, s.closed, o', (s.pcs.map f).set t pc', h'⟩ t pc where
  others j hj := by
    simp only [List.getElem?_set_ne (Ne.symm hj), List.getElem?_map]
    cases s.pcs[j]? <;> simp [hf]
  done op r h := absurd h (hnd op r)
  go _ := ⟨pc', by simp [lt_of_getElem? hp], by rw [ht]; exact .same⟩

theorem did_loc {cfg : Cfg} {s : St α} {t : Nat} {pc pc' : PC α} {q' c' o' es}
    (hb : bodyOk cfg s.q s.closed pc) (hi : pc ≠ .idle) (hp : s.pcs[t]? = some pc)
    (hl : Loc cfg t s.q s.closed s.owner pc q' c' o' pc' es) : Did cfg s ⟨q', c', o', s.pcs.set t pc', s.hist ++ es⟩ t pc := by
  by_cases hd : ∃ op r, pc = .done op r
  · obtain ⟨op, r, e⟩ := hd
    have : pc' = .idle ∧ q' = s.q ∧ c' = s.closed := by
      revert hl; generalize s.q = q, s.closed = c, s.owner = o; intro hl
      cases hl <;> simp at e ⊢
    obtain ⟨rfl, rfl, rfl⟩ := this
    exact ⟨fun i hi => by simp [List.getElem?_set_ne (Ne.symm hi)],
      fun _ _ _ => ⟨by simp [lt_of_getElem? hp], rfl, rfl⟩, fun h => absurd e (h op r)⟩
  · refine did_set hp (fun op r e => hd ⟨op, r, e⟩) ?_
    clear hp
    revert hl hb; generalize s.q = q, s.closed = c, s.owner = o; intro hb hl
    cases hl <;> first
      | exact .same
      | exact absurd rfl hi
      | (rename_i h; exact .recant h)
      | exact absurd ⟨_, _, rfl⟩ hd
      | (refine .eff ?_; simp_all [Effect, would, bodyOk]; done)
      | (rename_i h; refine .eff (.inl ?_); simp only [would]; rw [if_pos h.symm])

theorem dloc {cfg : Cfg} {s s' : St α} (hb : BodyInv cfg s) {t pc q' c' o' pc' es} (hi : pc ≠ .idle)
    (h : s.pcs[t]? = some pc) (hl : Loc cfg t s.q s.closed s.owner pc q' c' o' pc' es)
    (hs : s' = ⟨q', c', o', s.pcs.set t pc', s.hist ++ es⟩) : Did cfg s s' t pc := by
  subst hs; exact did_loc (hb t pc h) hi h hl

theorem did_stepAt {cfg : Cfg} {s s' : St α} (hb : BodyInv cfg s) {t wake pc} (hp : s.pcs[t]? = some pc)
    (h : stepAt cfg s t wake pc = some s') : Did cfg s s' t pc := by
  obtain ⟨q, c, o, pcs, hist⟩ := s
  cases pc <;> simp only [stepAt] at h
  case idle => simp at h
  case eSleep => simp at h
  case pSleep => simp at h
  case eFast v =>
    cases c <;> simp [St.goto, St.log] at h <;> subst h
    · exact dloc hb (by simp) hp .eFastO (by simp)
    · exact dloc hb (by simp) hp .eFastC (by simp)
  case tFast v =>
    cases c <;> simp [St.goto, St.log] at h <;> subst h
    · exact dloc hb (by simp) hp .tFastO (by simp)
    · exact dloc hb (by simp) hp .tFastC (by simp)
  case eLock v =>
    cases o <;> simp [acquire, St.goto] at h; subst h
    exact dloc hb (by simp) hp .eLock (by simp)
  case tLock v =>
    cases o <;> simp [acquire, St.goto] at h; subst h
    exact dloc hb (by simp) hp .tLock (by simp)
  case pLock =>
    cases o <;> simp [acquire, St.goto] at h; subst h
    exact dloc hb (by simp) hp .pLock (by simp)
  case qLock =>
    cases o <;> simp [acquire, St.goto] at h; subst h
    exact dloc hb (by simp) hp .qLock (by simp)
  case cLock =>
    cases o <;> simp [acquire, St.goto] at h; subst h
    exact dloc hb (by simp) hp .cLock (by simp)
  case eCheck v =>
    split at h <;> simp [release, St.goto] at h <;> subst h
    · exact dloc hb (by simp) hp (.eCheckGo (by assumption)) (by simp)
    · exact dloc hb (by simp) hp (.eCheckSl (by assumption)) (by simp)
  case pCheck =>
    split at h <;> simp [release, St.goto] at h <;> subst h
    · exact dloc hb (by simp) hp (.pCheckGo (by assumption)) (by simp)
    · exact dloc hb (by simp) hp (.pCheckSl (by assumption)) (by simp)
  case eBody v =>
    cases c <;> simp [St.goto, St.log] at h <;> subst h
    · exact dloc hb (by simp) hp .eBodyO (by simp)
    · exact dloc hb (by simp) hp .eBodyC (by simp)
  case tBody v =>
    split at h <;> simp [St.goto, St.log] at h <;> subst h
    · exact dloc hb (by simp) hp (.tBodyF (by assumption)) (by simp)
    · rename_i hn
      cases c <;> simp at hn
      exact dloc hb (by simp) hp (.tBodyO hn) (by simp)
  case sUnlock op => simp [release, St.goto] at h; subst h; exact dloc hb (by simp) hp .sUnlock (by simp)
  case rUnlock op x => simp [release, St.goto] at h; subst h; exact dloc hb (by simp) hp .rUnlock (by simp)
  case relRet op r => simp [release, St.goto] at h; subst h; exact dloc hb (by simp) hp .relRet (by simp)
  case cUnlock => simp [release, St.goto] at h; subst h; exact dloc hb (by simp) hp .cUnlock (by simp)
  case rRet op x => simp [St.goto] at h; subst h; exact dloc hb (by simp) hp .rRet (by simp)
  case cSet => simp [St.goto, St.log] at h; subst h; exact dloc hb (by simp) hp .cSet (by simp)
  case kRead => simp [St.goto, St.log] at h; subst h; exact dloc hb (by simp) hp .kRead (by simp)
  case done op r => simp [St.goto, St.log] at h; subst h; exact dloc hb (by simp) hp .done (by simp)
  case pBody =>
    cases q <;> simp [St.goto, St.log] at h <;> subst h
    · exact dloc hb (by simp) hp .pBodyN (by simp)
    · exact dloc hb (by simp) hp .pBodyS (by simp)
  case qBody =>
    cases q <;> simp [St.goto, St.log] at h <;> subst h
    · exact dloc hb (by simp) hp .qBodyN (by simp)
    · exact dloc hb (by simp) hp .qBodyS (by simp)
  case cNotifyE => simp [notifyAll, St.goto] at h; subst h; exact did_all (s := ⟨q, c, o, pcs, hist⟩) (pc' := .cNotifyF) hp (by simp) ph_wakeE rfl
  case cNotifyF => simp [notifyAll, St.goto] at h; subst h; exact did_all (s := ⟨q, c, o, pcs, hist⟩) (pc' := .done .close .unit) hp (by simp) ph_wakeF rfl
  case sNotify op =>
    cases wake with
    | none =>
      simp only [notifyOne] at h
      split at h
      · simp at h
      · rename_i hn
        simp [St.goto] at h; subst h
        exact did_set (s := ⟨q, c, o, pcs, hist⟩) hp (by simp) .same
    | some i =>
      simp only [notifyOne] at h
      cases hi : pcs[i]? with
      | none => simp [hi] at h
      | some p =>
        simp only [hi] at h
        cases p <;> simp [wakeE, St.goto] at h
        subst h
        exact did_one (s := ⟨q, c, o, pcs, hist⟩) (p' := .pLock) (pc' := .done op (.bool true)) hp (by simp) hi rfl .same
  case rNotify op x =>
    cases wake with
    | none =>
      simp only [notifyOne] at h
      split at h
      · simp at h
      · rename_i hn
        simp [St.goto] at h; subst h
        exact did_set (s := ⟨q, c, o, pcs, hist⟩) hp (by simp) .same
    | some i =>
      simp only [notifyOne] at h
      cases hi : pcs[i]? with
      | none => simp [hi] at h
      | some p =>
        simp only [hi] at h
        cases p <;> simp [wakeF, St.goto] at h
        subst h
        rename_i v
        exact did_one (s := ⟨q, c, o, pcs, hist⟩) (p' := .eLock v) (pc' := .rRet op x) hp (by simp) hi rfl .same

theorem did_throwAt {cfg : Cfg} {s s' : St α} (hb : BodyInv cfg s) {t pc} (hp : s.pcs[t]? = some pc)
    (h : throwAt cfg s t pc = some s') : Did cfg s s' t pc := by
  obtain ⟨q, c, o, pcs, hist⟩ := s
  cases pc <;> simp only [throwAt] at h
  case eBody v =>
    split at h <;> simp [St.goto, St.log] at h; subst h
    rename_i hc; obtain ⟨hc1, hc2⟩ := hc
    subst hc2
    exact dloc hb (by simp) hp (.eBodyT hc1) (by simp)
  case tBody v =>
    split at h <;> simp [St.goto, St.log] at h; subst h
    rename_i hc; obtain ⟨hc1, hc2, hc3⟩ := hc
    subst hc2
    exact dloc hb (by simp) hp (.tBodyT hc1 hc3) (by simp)
  case pBody =>
    split at h <;> simp [St.goto, St.log] at h; subst h
    rename_i hc; obtain ⟨hc1, hc2⟩ := hc
    cases q with
    | nil => simp at hc2
    | cons x q => exact dloc hb (by simp) hp (.pBodyT hc1) (by simp)
  case qBody =>
    split at h <;> simp [St.goto, St.log] at h; subst h
    rename_i hc; obtain ⟨hc1, hc2⟩ := hc
    cases q with
    | nil => simp at hc2
    | cons x q => exact dloc hb (by simp) hp (.qBodyT hc1) (by simp)
  case rRet op x =>
    split at h <;> simp [St.goto] at h; subst h
    rename_i hc
    exact dloc hb (by simp) hp (.rRetT hc) (by simp)
  all_goals simp at h

/-- What thread `t` can do inside a call (of channel.hpp:58-212). -/
def Act.inside (t : Nat) (a : Act α) : Prop := (∃ w, a = .step t w) ∨ a = .throw t ∨ a = .spurious t ∨ a = .stale t

theorem did_next {cfg : Cfg} {s s' : St α} (hb : BodyInv cfg s) {t : Nat} {a : Act α}
    (ha : Act.inside t a) (h : next cfg s a = some s') : ∃ pc, s.pcs[t]? = some pc ∧ Did cfg s s' t pc := by
  rcases ha with ⟨w, rfl⟩ | rfl | rfl | rfl <;> simp only [next] at h <;> split at h <;> try (simp at h; done)
  · rename_i pc hp; exact ⟨pc, hp, did_stepAt hb hp h⟩
  · rename_i pc hp; exact ⟨pc, hp, did_throwAt hb hp h⟩
  all_goals
    rename_i hp
    injection h with h; subst h
    exact ⟨_, hp, did_set hp (by simp) .same⟩

end Verif.Multi
