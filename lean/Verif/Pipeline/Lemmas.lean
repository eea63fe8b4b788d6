import Verif.Pipeline.Model

/-! Lemmas about the model of pipelines: the kinds of transitions of one channel, the invariant. -/
namespace Verif.Pipeline

open Verif.Channel

variable {α : Type}

/-- What a position means for the caller (channel.hpp:58-194): before or after the call has had its effect. -/
inductive Cls (α : Type) where
  | idle
  | pushing (y : α)
  | pushed (y : α)
  | refused (y : α)
  | closing
  | shut
  | popping
  | took (x : α)
  | ended
  | other

/-- Positions in the calls (channel.hpp:58-69, 85-105, 179-194). -/
def cls : PC α → Cls α
  | .idle => .idle
  | .eFast v | .eLock v | .eCheck v | .eSleep v | .eBody v => .pushing v
  | .sUnlock (.push v) | .sNotify (.push v) | .done (.push v) (.bool true) => .pushed v
  | .relRet (.push v) (.bool false) | .done (.push v) (.bool false) => .refused v
  | .cLock | .cSet => .closing
  | .cUnlock | .cNotifyE | .cNotifyF | .done .close .unit => .shut
  | .pLock | .pCheck | .pSleep | .pBody => .popping
  | .rUnlock .pop x | .rNotify .pop x | .rRet .pop x | .done .pop (.val (some x)) => .took x
  | .relRet .pop (.val none) | .done .pop (.val none) => .ended
  | _ => .other

/-- Effects of one action inside a call on the queue and the flag (channel.hpp:58-194). -/
inductive Trans : List α → Bool → Cls α → List α → Bool → Cls α → Prop where
  | same {q c k} : Trans q c k q c k
  | push {q y} : Trans q false (.pushing y) (q ++ [y]) false (.pushed y)
  | refuse {q y} : Trans q true (.pushing y) q true (.refused y)
  | take {x q c} : Trans (x :: q) c .popping q c (.took x)
  | fin : Trans [] true .popping [] true .ended
  | close {q c} : Trans q c .closing q true .shut
  | oth {q c q' c' k} : Trans q c .other q' c' k

theorem cls_wakeE (p : PC α) : cls ((wakeE p).getD p) = cls p := by cases p <;> rfl
theorem cls_wakeF (p : PC α) : cls ((wakeF p).getD p) = cls p := by cases p <;> rfl

theorem next_ne_idle_cls {p : PC α} (h : cls p = .idle) : p = .idle := by
  cases p <;> simp [cls] at h ⊢
  all_goals (repeat' split at h) <;> simp_all

/-- Everything the pipeline needs to know about one action of thread `t` in a call. -/
structure Moved (s s' : St α) (t : Nat) (pc : PC α) : Prop where
  others : ∀ i, i ≠ t → (s'.pcs[i]?).map cls = (s.pcs[i]?).map cls
  done : ∀ op r, pc = .done op r → s'.pcs[t]? = some .idle ∧ s'.q = s.q ∧ s'.closed = s.closed
  go : (∀ op r, pc ≠ .done op r) →
    ∃ pc', s'.pcs[t]? = some pc' ∧ Trans s.q s.closed (cls pc) s'.q s'.closed (cls pc')

theorem moved_set {s : St α} {t : Nat} {pc pc' : PC α} {q' c' o' h'} (hp : s.pcs[t]? = some pc)
    (hnd : ∀ op r, pc ≠ .done op r) (ht : Trans s.q s.closed (cls pc) q' c' (cls pc')) :
    Moved s ⟨q', c', o', s.pcs.set t pc', h'⟩ t pc where
  others i hi := by simp [List.getElem?_set_ne (Ne.symm hi)]
  done op r h := absurd h (hnd op r)
  go _ := ⟨pc', by simp [List.getElem?_set, lt_of_getElem? hp], ht⟩

theorem moved_one {s : St α} {t i : Nat} {pc pc' p p' : PC α} (hp : s.pcs[t]? = some pc)
    (hnd : ∀ op r, pc ≠ .done op r) (hi : s.pcs[i]? = some p) (hpp : cls p' = cls p)
    (ht : Trans s.q s.closed (cls pc) s.q s.closed (cls pc')) {o' h'} :
    Moved s ⟨s.q, s.closed, o', (s.pcs.set i p').set t pc', h'⟩ t pc where
  others j hj := by
    simp only [List.getElem?_set_ne (Ne.symm hj), List.getElem?_set]
    split
    · rename_i e; subst e; rw [hi]; simp [lt_of_getElem? hi, hpp]
    · rfl
  done op r h := absurd h (hnd op r)
  go _ := ⟨pc', by simp [lt_of_getElem? hp], ht⟩

theorem moved_all {s : St α} {t : Nat} {pc pc' : PC α} {f : PC α → PC α} (hp : s.pcs[t]? = some pc)
    (hnd : ∀ op r, pc ≠ .done op r) (hf : ∀ p, cls (f p) = cls p)
    (ht : cls pc' = cls pc) {h'} :
    Moved s ⟨s.q, s.closed, s.owner, (s.pcs.map f).set t pc', h'⟩ t pc where
  others j hj := by
    simp only [List.getElem?_set_ne (Ne.symm hj), List.getElem?_map]
    cases s.pcs[j]? <;> simp [hf]
  done op r h := absurd h (hnd op r)
  go _ := ⟨pc', by simp [List.getElem?_set, lt_of_getElem? hp], by rw [ht]; exact .same⟩

theorem moved_stepAt {cfg : Cfg} {s s' : St α} {t : Nat} {w : Option Nat} {pc : PC α} (hb : BodyInv cfg s)
    (hp : s.pcs[t]? = some pc) (h : stepAt cfg s t w pc = some s') : Moved s s' t pc := by
  have hbp := hb t pc hp
  obtain ⟨q, c, o, pcs, hist⟩ := s
  simp only at hp hbp
  cases pc <;> simp only [stepAt] at h
  case idle => simp at h
  case eSleep => simp at h
  case pSleep => simp at h
  case eFast v =>
    cases c <;> simp [St.goto, St.log] at h <;> subst h
    · exact moved_set hp (by simp) .same
    · exact moved_set hp (by simp) .refuse
  case tFast v =>
    cases c <;> simp [St.goto, St.log] at h <;> subst h <;> exact moved_set hp (by simp) .oth
  case eLock v =>
    cases o <;> simp [acquire, St.goto] at h; subst h
    exact moved_set hp (by simp) .same
  case tLock v =>
    cases o <;> simp [acquire, St.goto] at h; subst h
    exact moved_set hp (by simp) .oth
  case pLock =>
    cases o <;> simp [acquire, St.goto] at h; subst h
    exact moved_set hp (by simp) .same
  case qLock =>
    cases o <;> simp [acquire, St.goto] at h; subst h
    exact moved_set hp (by simp) .oth
  case cLock =>
    cases o <;> simp [acquire, St.goto] at h; subst h
    exact moved_set hp (by simp) .same
  case eCheck v =>
    split at h <;> simp [release, St.goto] at h <;> subst h <;> exact moved_set hp (by simp) .same
  case pCheck =>
    split at h <;> simp [release, St.goto] at h <;> subst h <;> exact moved_set hp (by simp) .same
  case eBody v =>
    cases c <;> simp [St.goto, St.log] at h <;> subst h
    · exact moved_set hp (by simp) .push
    · exact moved_set hp (by simp) .refuse
  case tBody v =>
    split at h <;> simp [St.goto, St.log] at h <;> subst h <;> exact moved_set hp (by simp) .oth
  case sUnlock op =>
    simp [release, St.goto] at h; subst h
    refine moved_set hp (by simp) ?_
    cases op <;> first | exact .same | exact .oth
  case rUnlock op x =>
    simp [release, St.goto] at h; subst h
    refine moved_set hp (by simp) ?_
    cases op <;> first | exact .same | exact .oth
  case relRet op r =>
    simp [release, St.goto] at h; subst h
    refine moved_set hp (by simp) ?_
    cases op <;> rcases r with (_ | _) | (_ | _) | _ | _ <;> first | exact .same | exact .oth
  case cUnlock => simp [release, St.goto] at h; subst h; exact moved_set hp (by simp) .same
  case rRet op x =>
    simp [St.goto] at h; subst h
    refine moved_set hp (by simp) ?_
    cases op <;> first | exact .same | exact .oth
  case cSet => simp [St.goto, St.log] at h; subst h; exact moved_set hp (by simp) .close
  case kRead => simp [St.goto, St.log] at h; subst h; exact moved_set hp (by simp) .oth
  case done op r =>
    simp [St.goto, St.log] at h; subst h
    refine ⟨fun i hi => by simp [List.getElem?_set_ne (Ne.symm hi)], fun _ _ _ => ⟨?_, rfl, rfl⟩,
      fun hn => absurd rfl (hn op r)⟩
    simp [List.getElem?_set, lt_of_getElem? hp]
  case pBody =>
    cases q <;> simp [St.goto, St.log] at h <;> subst h
    · simp [bodyOk] at hbp; subst hbp
      exact moved_set hp (by simp) .fin
    · exact moved_set hp (by simp) .take
  case qBody =>
    cases q <;> simp [St.goto, St.log] at h <;> subst h <;> exact moved_set hp (by simp) .oth
  case sNotify op =>
    simp only [Option.map_eq_some_iff] at h
    obtain ⟨s1, h1, rfl⟩ := h
    unfold notifyOne at h1
    split at h1
    · split at h1 <;> simp at h1
      subst h1
      refine moved_set hp (by simp) ?_
      cases op <;> first | exact .same | exact .oth
    · rename_i i
      split at h1
      · simp at h1
      · rename_i p hpi
        cases p <;> simp [wakeE] at h1
        subst h1
        simp only [St.goto]
        refine moved_one (s := ⟨q, c, o, pcs, hist⟩) hp (by simp) hpi ?_ ?_
        · rfl
        cases op <;> first | exact .same | exact .oth
  case rNotify op x =>
    simp only [Option.map_eq_some_iff] at h
    obtain ⟨s1, h1, rfl⟩ := h
    unfold notifyOne at h1
    split at h1
    · split at h1 <;> simp at h1
      subst h1
      refine moved_set hp (by simp) ?_
      cases op <;> first | exact .same | exact .oth
    · rename_i i
      split at h1
      · simp at h1
      · rename_i p hpi
        cases p <;> simp [wakeF] at h1
        subst h1
        simp only [St.goto]
        refine moved_one (s := ⟨q, c, o, pcs, hist⟩) hp (by simp) hpi ?_ ?_
        · rfl
        cases op <;> first | exact .same | exact .oth
  case cNotifyE =>
    simp [notifyAll, St.goto] at h; subst h
    exact moved_all (s := ⟨q, c, o, pcs, hist⟩) (pc' := .cNotifyF) hp (by simp) cls_wakeE rfl
  case cNotifyF =>
    simp [notifyAll, St.goto] at h; subst h
    exact moved_all (s := ⟨q, c, o, pcs, hist⟩) (pc' := .done .close .unit) hp (by simp) cls_wakeF rfl

theorem moved_next {cfg : Cfg} {s s' : St α} {t : Nat} {a : Act α} (hb : BodyInv cfg s)
    (ha : (∃ w, a = .step t w) ∨ a = .spurious t ∨ a = .stale t) (h : next cfg s a = some s') :
    ∃ pc, s.pcs[t]? = some pc ∧ Moved s s' t pc := by
  rcases ha with ⟨w, rfl⟩ | rfl | rfl <;> simp only [next] at h <;> split at h <;> try (simp at h; done)
  · rename_i pc hp; exact ⟨pc, hp, moved_stepAt hb hp h⟩
  · rename_i hp
    injection h with h; subst h
    exact ⟨_, hp, moved_set hp (by simp) .same⟩
  · rename_i hp
    injection h with h; subst h
    exact ⟨_, hp, moved_set hp (by simp) .same⟩
  · rename_i hp
    injection h with h; subst h
    exact ⟨_, hp, moved_set hp (by simp) .same⟩
  · rename_i hp
    injection h with h; subst h
    exact ⟨_, hp, moved_set hp (by simp) .oth⟩

end Verif.Pipeline
