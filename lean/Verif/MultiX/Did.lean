import Verif.MultiX.Taint
import Verif.Multi.Sim

/-! What one action of one thread in one exchange channel means for its callers. -/
namespace Verif.MultiX

open Verif.Exchange
open Verif.Channel (Op Res Ev Act)
open Verif.Multi (Thr set MAct Act.inside)

variable {α : Type}

/-- The running call, and its result once it has had its effect (exchange_channel.hpp:53-149). -/
def ph : PC α → Option (Op α × Option (Res α))
  | .idle => none
  | .eFast v | .eLock v | .eBody v => some (.push v, none)
  | .sUnlock op | .sNotify op => some (op, some (.bool true))
  | .pLock | .pCheck | .pSleep | .pBody => some (.pop, none)
  | .qLock | .qBody => some (.tryPop, none)
  | .rMove op x => some (op, some (.val (some x)))
  | .relRet op r | .done op r => some (op, some r)
  | .cLock | .cSet => some (.close, none)
  | .cUnlock | .cNotify => some (.close, some .unit)
  | .kRead => some (.isClosed, none)

theorem ph_wake (p : PC α) : ph (wake p) = ph p := by cases p <;> rfl
theorem ph_entry {op : Op α} {pc : PC α} (h : entry op = some pc) : ph pc = some (op, none) := by
  cases op <;> simp [entry] at h <;> subst h <;> rfl
theorem ph_idle {p : PC α} (h : ph p = none) : p = .idle := by cases p <;> simp [ph] at h ⊢

/-- Effects of one action inside a call (of exchange_channel.hpp:53-149). -/
inductive Rel (cfg : Cfg) : Option α → Bool → Bool → Option (Op α × Option (Res α)) → Option α → Bool → Bool →
    Option (Op α × Option (Res α)) → Prop where
  | same {q c b k} : Rel cfg q c b k q c b k
  | eff {q c b op r q' c' b'} : Effect cfg q c op r q' c' → b' = upd b op r →
      Rel cfg q c b (some (op, none)) q' c' b' (some (op, some r))
  | recant {q c b op x} : cfg.moveThrow = true →
      Rel cfg q c b (some (op, some (.val (some x)))) q c b (some (op, some .threw))

/-- Everything a caller needs to know about one action of thread `t` in a call (of exchange_channel.hpp:53-149). -/
structure Did (cfg : Cfg) (s s' : St α) (t : Nat) (pc : PC α) : Prop where
  others : ∀ i, i ≠ t → (s'.pcs[i]?).map ph = (s.pcs[i]?).map ph
  done : ∀ op r, pc = .done op r → s'.pcs[t]? = some .idle ∧ s'.slot = s.slot ∧ s'.closed = s.closed ∧
    taint s'.hist = taint s.hist
  go : (∀ op r, pc ≠ .done op r) → ∃ pc', s'.pcs[t]? = some pc' ∧
    Rel cfg s.slot s.closed (taint s.hist) (ph pc) s'.slot s'.closed (taint s'.hist) (ph pc')

theorem lt_of_get {l : List (PC α)} {i : Nat} {x : PC α} (h : l[i]? = some x) : i < l.length := (List.getElem?_eq_some_iff.1 h).1

theorem did_set {cfg : Cfg} {s : St α} {t : Nat} {pc pc' : PC α} {q' c' o' h'} (hp : s.pcs[t]? = some pc)
    (hnd : ∀ op r, pc ≠ .done op r) (ht : Rel cfg s.slot s.closed (taint s.hist) (ph pc) q' c' (taint h') (ph pc')) :
    Did cfg s ⟨q', c', o', s.pcs.set t pc', h'⟩ t pc where
  others i hi := by simp [List.getElem?_set_ne (Ne.symm hi)]
  done op r h := absurd h (hnd op r)
  go _ := ⟨pc', by simp [lt_of_get hp], ht⟩

theorem did_one {cfg : Cfg} {s : St α} {t i : Nat} {pc pc' p p' : PC α} (hp : s.pcs[t]? = some pc)
    (hnd : ∀ op r, pc ≠ .done op r) (hi : s.pcs[i]? = some p) (hpp : ph p' = ph p)
    {o' h'}
    (ht : Rel cfg s.slot s.closed (taint s.hist) (ph pc) s.slot s.closed (taint h') (ph pc')) :
    Did cfg s ⟨s.slot, s.closed, o', (s.pcs.set i p').set t pc', h'⟩ t pc where
  others j hj := by
    simp only [List.getElem?_set_ne (Ne.symm hj), List.getElem?_set]
    split
    · rename_i e; subst e; rw [hi]; simp [lt_of_get hi, hpp]
    · rfl
  done op r h := absurd h (hnd op r)
  go _ := ⟨pc', by simp [lt_of_get hp], ht⟩

theorem did_all {cfg : Cfg} {s : St α} {t : Nat} {pc pc' : PC α} {f : PC α → PC α} (hp : s.pcs[t]? = some pc)
    (hnd : ∀ op r, pc ≠ .done op r) (hf : ∀ p, ph (f p) = ph p) (ht : ph pc' = ph pc) {o'} :
    Did cfg s ⟨s.slot, s.closed, o', (s.pcs.map f).set t pc', s.hist⟩ t pc where
  others j hj := by
    simp only [List.getElem?_set_ne (Ne.symm hj), List.getElem?_map]
    cases s.pcs[j]? <;> simp [hf]
  done op r h := absurd h (hnd op r)
  go _ := ⟨pc', by simp [lt_of_get hp], by rw [ht]; exact .same⟩

theorem did_loc {cfg : Cfg} {s : St α} {t : Nat} {pc pc' : PC α} {q' c' o' es}
    (hb : pc = .pBody → s.slot ≠ none ∨ s.closed = true) (hi : pc ≠ .idle) (hp : s.pcs[t]? = some pc)
    (hl : Loc cfg t s.slot s.closed s.owner pc q' c' o' pc' es) : Did cfg s ⟨q', c', o', s.pcs.set t pc', s.hist ++ es⟩ t pc := by
  by_cases hd : ∃ op r, pc = .done op r
  · obtain ⟨op, r, e⟩ := hd
    have : pc' = .idle ∧ q' = s.slot ∧ c' = s.closed ∧ taint (s.hist ++ es) = taint s.hist := by
      revert hl; generalize s.slot = q, s.closed = c, s.owner = o; intro hl
      cases hl <;> simp at e
      simp [taint_append, tev]
    obtain ⟨rfl, rfl, rfl, ht⟩ := this
    exact ⟨fun i hi => by simp [List.getElem?_set_ne (Ne.symm hi)],
      fun _ _ _ => ⟨by simp [lt_of_get hp], rfl, rfl, ht⟩, fun h => absurd e (h op r)⟩
  · refine did_set hp (fun op r e => hd ⟨op, r, e⟩) ?_
    clear hp
    rw [taint_append]
    revert hl hb; generalize s.slot = q, s.closed = c, s.owner = o, taint s.hist = b; intro hb hl
    cases hl <;> first
      | exact .same
      | exact absurd rfl hi
      | (rename_i h; exact .recant h)
      | exact absurd ⟨_, _, rfl⟩ hd
      | (refine .eff ?_ rfl; simp_all [Effect, would]; done)

theorem dloc {cfg : Cfg} {s s' : St α} (hb : BodyInv s) {t pc q' c' o' pc' es} (hi : pc ≠ .idle)
    (h : s.pcs[t]? = some pc) (hl : Loc cfg t s.slot s.closed s.owner pc q' c' o' pc' es)
    (hs : s' = ⟨q', c', o', s.pcs.set t pc', s.hist ++ es⟩) : Did cfg s s' t pc := by
  subst hs; exact did_loc (fun e => hb t (e ▸ h)) hi h hl

theorem did_stepAt {cfg : Cfg} {s s' : St α} (hb : BodyInv s) {t w pc} (hp : s.pcs[t]? = some pc)
    (h : stepAt s t w pc = some s') : Did cfg s s' t pc := by
  obtain ⟨q, c, o, pcs, hist⟩ := s
  cases pc <;> simp only [stepAt] at h
  case idle => simp at h
  case pSleep => simp at h
  case eFast v =>
    cases c <;> simp [St.goto, St.log] at h <;> subst h
    · exact dloc hb (by simp) hp .eFastO (by simp)
    · exact dloc hb (by simp) hp .eFastC (by simp)
  case eLock v =>
    cases o <;> simp [acquire, St.goto] at h; subst h
    exact dloc hb (by simp) hp .eLock (by simp)
  case pLock =>
    cases o <;> simp [acquire, St.goto] at h; subst h
    exact dloc hb (by simp) hp .pLock (by simp)
  case qLock =>
    cases o <;> simp [acquire, St.goto] at h; subst h
    exact dloc hb (by simp) hp .qLock (by simp)
  case cLock =>
    cases o <;> simp [acquire, St.goto] at h; subst h
    exact dloc hb (by simp) hp .cLock (by simp)
  case pCheck =>
    split at h <;> simp [release, St.goto] at h <;> subst h
    · exact dloc hb (by simp) hp (.pCheckGo (by assumption)) (by simp)
    · exact dloc hb (by simp) hp (.pCheckSl (by assumption)) (by simp)
  case eBody v =>
    cases c <;> simp [St.goto, St.log] at h <;> subst h
    · exact dloc hb (by simp) hp .eBodyO (by simp)
    · exact dloc hb (by simp) hp .eBodyC (by simp)
  case sUnlock op => simp [release, St.goto] at h; subst h; exact dloc hb (by simp) hp .sUnlock (by simp)
  case relRet op r => simp [release, St.goto] at h; subst h; exact dloc hb (by simp) hp .relRet (by simp)
  case cUnlock => simp [release, St.goto] at h; subst h; exact dloc hb (by simp) hp .cUnlock (by simp)
  case rMove op x => simp [St.goto] at h; subst h; exact dloc hb (by simp) hp .rMove (by simp)
  case cSet => simp [St.goto, St.log] at h; subst h; exact dloc hb (by simp) hp .cSet (by simp)
  case kRead => simp [St.goto, St.log] at h; subst h; exact dloc hb (by simp) hp .kRead (by simp)
  case done op r => simp [St.goto, St.log] at h; subst h; exact dloc hb (by simp) hp .done (by simp)
  case pBody =>
    cases q <;> simp [St.goto, St.log] at h <;> subst h
    · exact dloc hb (by simp) hp .pBodyN (by simp)
    · exact dloc hb (by simp) hp .pBodyS (by simp)
  case qBody =>
    cases q <;> simp [St.goto, St.log] at h <;> subst h
    · exact dloc hb (by simp) hp .qBodyN (by simp)
    · exact dloc hb (by simp) hp .qBodyS (by simp)
  case cNotify => simp [St.goto] at h; subst h; exact did_all (s := ⟨q, c, o, pcs, hist⟩) (pc' := .done .close .unit) hp (by simp) ph_wake rfl
  case sNotify op =>
    cases w with
    | none =>
      simp only [notifyOne] at h
      split at h
      · simp at h
      · rename_i hn
        simp [St.goto] at h; subst h
        exact did_set (s := ⟨q, c, o, pcs, hist⟩) hp (by simp) .same
    | some i =>
      simp only [notifyOne] at h
      cases hi : pcs[i]? with
      | none => simp [hi] at h
      | some p =>
        simp only [hi] at h
        cases p <;> simp [St.goto] at h
        subst h
        exact did_one (s := ⟨q, c, o, pcs, hist⟩) (p' := .pLock) (pc' := .done op (.bool true)) hp (by simp) hi rfl .same

theorem did_throwAt {cfg : Cfg} {s s' : St α} (hb : BodyInv s) {t pc} (hp : s.pcs[t]? = some pc)
    (h : throwAt cfg s t pc = some s') : Did cfg s s' t pc := by
  obtain ⟨q, c, o, pcs, hist⟩ := s
  cases pc <;> simp only [throwAt] at h
  case eBody v =>
    split at h <;> simp [St.goto, St.log] at h; subst h
    rename_i hc; obtain ⟨hc1, hc2⟩ := hc
    subst hc2
    exact dloc hb (by simp) hp (.eBodyT hc1) (by simp)
  case pBody =>
    split at h <;> simp [St.goto, St.log] at h; subst h
    rename_i hc; obtain ⟨hc1, hc2⟩ := hc
    cases q with
    | none => simp at hc2
    | some x => exact dloc hb (by simp) hp (.pBodyT hc1) (by simp)
  case qBody =>
    split at h <;> simp [St.goto, St.log] at h; subst h
    rename_i hc; obtain ⟨hc1, hc2⟩ := hc
    cases q with
    | none => simp at hc2
    | some x => exact dloc hb (by simp) hp (.qBodyT hc1) (by simp)
  case rMove op x =>
    split at h <;> simp [St.goto] at h; subst h
    rename_i hc
    exact dloc hb (by simp) hp (.rMoveT hc) (by simp)
  all_goals simp at h

theorem did_next {cfg : Cfg} {s s' : St α} (hb : BodyInv s) {t : Nat} {a : Act α}
    (ha : Act.inside t a) (h : next cfg s a = some s') : ∃ pc, s.pcs[t]? = some pc ∧ Did cfg s s' t pc := by
  rcases ha with ⟨w, rfl⟩ | rfl | rfl | rfl <;> simp only [next] at h <;> split at h <;> try (simp at h; done)
  · rename_i pc hp; exact ⟨pc, hp, did_stepAt hb hp h⟩
  · rename_i pc hp; exact ⟨pc, hp, did_throwAt hb hp h⟩
  all_goals
    rename_i hp
    injection h with h; subst h
    exact ⟨_, hp, did_set hp (by simp) .same⟩

end Verif.MultiX
