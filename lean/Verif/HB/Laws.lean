import Verif.HB.Lemmas
import Verif.Channel.Lemmas
import Verif.Exchange.Lemmas

/-! The two channels obey the laws. -/
namespace Verif.HB

open Verif.Channel (Op Res Ev Act)

variable {α : Type}

namespace Chan
open Verif.Channel

theorem run_snoc {cfg : Cfg} {a : Act α} : ∀ (as : List (Act α)) (s : St α), run cfg s (as ++ [a]) = (run cfg s as).bind fun s' => next cfg s' a
  | [], s => by simp only [List.nil_append, run, Option.bind_some]; cases next cfg s a <;> rfl
  | b :: as, s => by
    simp only [List.cons_append, run]
    cases next cfg s b with
    | none => rfl
    | some s1 => simp only [Option.bind_some]; exact run_snoc as s1

theorem reach_next {cfg : Cfg} {n : Nat} {s s' : St α} {a : Act α} (h : Reachable cfg n s) (hn : next cfg s a = some s') : Reachable cfg n s' := by
  obtain ⟨as, h⟩ := h
  exact ⟨as ++ [a], by rw [run_snoc, h]; exact hn⟩

theorem tr_step {cfg : Cfg} {n : Nat} {s s' : St α} {t : Nat} {w : Option Nat} (h : Reachable cfg n s) (hn : next cfg s (.step t w) = some s') :
    Tr (chan α cfg) s s' (.step t w) := by
  have hlk := (lockInv_reach h).1
  simp only [next] at hn
  cases hp : s.pcs[t]? with
  | none => simp [hp] at hn
  | some pc =>
    simp only [hp] at hn
    have hlk := hlk t pc hp
    have hsets : (chan α cfg).sets s (.step t w) = match pc with | .cSet => true | _ => false := by
      simp only [chan, hp]; cases pc <;> rfl
    have hload : (chan α cfg).load s (.step t w) = chanLoad cfg.cap s.q pc := by simp only [chan, hp, Option.bind_some]
    obtain ⟨q, c, o, pcs, hist⟩ := s
    dsimp only at hp hn hlk hload
    have own : pc.holds = true → o = some t := hlk.1
    cases pc <;> simp only [stepAt] at hn <;> dsimp only at hsets
    case idle => simp at hn
    case eSleep => simp at hn
    case pSleep => simp at hn
    case eFast v =>
      cases c <;> simp [St.goto, St.log] at hn <;> subst hn
      · exact .tau hsets rfl rfl rfl
      · exact .fast hsets rfl rfl rfl (.inl ⟨t, v, rfl⟩) rfl hload rfl
    case tFast v =>
      cases c <;> simp [St.goto, St.log] at hn <;> subst hn
      · exact .tau hsets rfl rfl rfl
      · exact .fast hsets rfl rfl rfl (.inr ⟨t, v, rfl⟩) rfl hload rfl
    case eLock v =>
      cases o <;> simp [acquire, St.goto] at hn; subst hn; exact .lock hsets rfl rfl rfl rfl
    case tLock v =>
      cases o <;> simp [acquire, St.goto] at hn; subst hn; exact .lock hsets rfl rfl rfl rfl
    case pLock =>
      cases o <;> simp [acquire, St.goto] at hn; subst hn; exact .lock hsets rfl rfl rfl rfl
    case qLock =>
      cases o <;> simp [acquire, St.goto] at hn; subst hn; exact .lock hsets rfl rfl rfl rfl
    case cLock =>
      cases o <;> simp [acquire, St.goto] at hn; subst hn; exact .lock hsets rfl rfl rfl rfl
    case eCheck v =>
      have ho := own rfl
      subst ho
      split at hn <;> simp [release, St.goto] at hn <;> subst hn
      · exact .tau hsets rfl rfl rfl
      · exact .unlock hsets rfl rfl rfl rfl
    case pCheck =>
      have ho := own rfl
      subst ho
      split at hn <;> simp [release, St.goto] at hn <;> subst hn
      · exact .tau hsets rfl rfl rfl
      · exact .unlock hsets rfl rfl rfl rfl
    case eBody v =>
      have ho := own rfl
      subst ho
      cases c <;> simp [St.goto, St.log] at hn <;> subst hn <;> exact .lin hsets rfl rfl rfl rfl (by simp)
    case tBody v =>
      have ho := own rfl
      subst ho
      split at hn <;> simp [St.goto, St.log] at hn <;> subst hn <;> exact .lin hsets rfl rfl rfl rfl (by simp)
    case pBody =>
      have ho := own rfl
      subst ho
      cases q <;> simp [St.goto, St.log] at hn <;> subst hn <;> exact .lin hsets rfl rfl rfl rfl (by simp)
    case qBody =>
      have ho := own rfl
      subst ho
      cases q <;> simp [St.goto, St.log] at hn <;> subst hn <;> exact .lin hsets rfl rfl rfl rfl (by simp)
    case sUnlock op =>
      have ho := own rfl
      subst ho
      simp [release, St.goto] at hn; subst hn; exact .unlock hsets rfl rfl rfl rfl
    case rUnlock op x =>
      have ho := own rfl
      subst ho
      simp [release, St.goto] at hn; subst hn; exact .unlock hsets rfl rfl rfl rfl
    case relRet op r =>
      have ho := own rfl
      subst ho
      simp [release, St.goto] at hn; subst hn; exact .unlock hsets rfl rfl rfl rfl
    case cUnlock =>
      have ho := own rfl
      subst ho
      simp [release, St.goto] at hn; subst hn; exact .unlock hsets rfl rfl rfl rfl
    case rRet op x => simp [St.goto] at hn; subst hn; exact .tau hsets rfl rfl rfl
    case cSet =>
      have ho := own rfl
      subst ho
      simp [St.goto, St.log] at hn; subst hn; exact .close hsets rfl rfl rfl rfl hload
    case kRead =>
      simp [St.goto, St.log] at hn; subst hn
      refine .border hsets rfl rfl rfl ?_ rfl
      rintro ⟨_, _, _, h, hne⟩; cases h; exact hne rfl
    case done op r =>
      simp [St.goto, St.log] at hn; subst hn
      refine .border hsets rfl rfl rfl ?_ rfl
      rintro ⟨_, _, _, h, hne⟩; cases h
    case cNotifyE => simp [notifyAll, St.goto] at hn; subst hn; exact .tau hsets rfl rfl rfl
    case cNotifyF => simp [notifyAll, St.goto] at hn; subst hn; exact .tau hsets rfl rfl rfl
    case sNotify op =>
      cases w with
      | none =>
        simp only [notifyOne] at hn
        split at hn
        · simp at hn
        · simp [St.goto] at hn; subst hn; exact .tau hsets rfl rfl rfl
      | some i =>
        simp only [notifyOne] at hn
        cases hi : pcs[i]? with
        | none => simp [hi] at hn
        | some p =>
          simp only [hi] at hn
          cases p <;> simp [wakeE, St.goto] at hn
          subst hn
          exact .tau hsets rfl rfl rfl
    case rNotify op x =>
      cases w with
      | none =>
        simp only [notifyOne] at hn
        split at hn
        · simp at hn
        · simp [St.goto] at hn; subst hn; exact .tau hsets rfl rfl rfl
      | some i =>
        simp only [notifyOne] at hn
        cases hi : pcs[i]? with
        | none => simp [hi] at hn
        | some p =>
          simp only [hi] at hn
          cases p <;> simp [wakeF, St.goto] at hn
          subst hn
          exact .tau hsets rfl rfl rfl

theorem tr_throw {cfg : Cfg} {n : Nat} {s s' : St α} {t : Nat} (h : Reachable cfg n s) (hn : next cfg s (.throw t) = some s') :
    Tr (chan α cfg) s s' (.throw t) := by
  have hlk := (lockInv_reach h).1
  simp only [next] at hn
  cases hp : s.pcs[t]? with
  | none => simp [hp] at hn
  | some pc =>
    simp only [hp] at hn
    have hlk := hlk t pc hp
    obtain ⟨q, c, o, pcs, hist⟩ := s
    dsimp only at hp hn hlk
    have own : pc.holds = true → o = some t := hlk.1
    cases pc <;> simp only [throwAt] at hn
    case eBody v =>
      have ho := own rfl
      subst ho
      split at hn <;> simp [St.goto, St.log] at hn; subst hn; exact .lin rfl rfl rfl rfl rfl (by simp)
    case tBody v =>
      have ho := own rfl
      subst ho
      split at hn <;> simp [St.goto, St.log] at hn; subst hn; exact .lin rfl rfl rfl rfl rfl (by simp)
    case pBody =>
      have ho := own rfl
      subst ho
      split at hn <;> simp [St.goto, St.log] at hn; subst hn; exact .lin rfl rfl rfl rfl rfl (by simp)
    case qBody =>
      have ho := own rfl
      subst ho
      split at hn <;> simp [St.goto, St.log] at hn; subst hn; exact .lin rfl rfl rfl rfl rfl (by simp)
    case rRet op x =>
      split at hn <;> simp [St.goto] at hn; subst hn; exact .tau rfl rfl rfl rfl
    all_goals simp at hn

theorem tr_other {cfg : Cfg} {s s' : St α} {a : Act α} (hr : replaced a = false) (h1 : ∀ t w, a ≠ .step t w) (h2 : ∀ t, a ≠ .throw t)
    (hn : next cfg s a = some s') : Tr (chan α cfg) s s' a := by
  cases a with
  | step t w => exact absurd rfl (h1 t w)
  | throw t => exact absurd rfl (h2 t)
  | stale t => simp [replaced] at hr
  | call t op =>
    simp only [next] at hn
    split at hn
    · simp [St.goto, St.log] at hn; subst hn
      refine .border rfl rfl rfl rfl ?_ rfl
      rintro ⟨_, _, _, h, hne⟩; cases h
    · simp at hn
  | spurious t =>
    simp only [next] at hn
    split at hn
    · simp [St.goto] at hn; subst hn; exact .tau rfl rfl rfl rfl
    · simp [St.goto] at hn; subst hn; exact .tau rfl rfl rfl rfl
    · simp at hn

theorem chan_keeps {cfg : Cfg} {s s' : St α} {a : Act α} (h : Tr (chan α cfg) s s' a) (hl : (chan α cfg).load s a ≠ none) : s'.closed = s.closed := by
  cases h with
  | close _ _ _ _ _ h => exact absurd h hl
  | tau _ h => exact h
  | lock _ h => exact h
  | unlock _ h => exact h
  | border _ h => exact h
  | lin _ h => exact h
  | fast _ h => exact h

theorem lawful (cfg : Cfg) (n : Nat) : Lawful (chan α cfg) (Reachable cfg n) := by
  have good : ∀ (s : St α) a s', Reachable cfg n s → replaced a = false → next cfg s a = some s' → Tr (chan α cfg) s s' a := by
    intro s a s' h hr hn
    cases a with
    | step t w => exact tr_step h hn
    | throw t => exact tr_throw h hn
    | call t op => exact tr_other hr (by simp) (by simp) hn
    | spurious t => exact tr_other hr (by simp) (by simp) hn
    | stale t => simp [replaced] at hr
  refine ⟨rfl, rfl, fun _ => rfl, fun _ _ => rfl, fun _ _ => rfl, fun _ _ => rfl, ?_, ?_, ?_, ?_⟩
  · exact fun s a s' h hr hn => ⟨reach_next h hn, good s a s' h hr hn⟩
  · intro s a b h hl hn
    have hlk := (lockInv_reach h).1
    cases a with
    | step t w =>
      simp only [chan] at hl
      cases hp : s.pcs[t]? with
      | none => simp [hp] at hl
      | some pc =>
        refine (hlk t pc hp).1 ?_
        simp only [hp, Option.bind_some] at hl
        cases pc <;> simp [chanLoad] at hl <;> rfl
    | throw t =>
      simp only [chan] at hl
      cases hp : s.pcs[t]? with
      | none => simp [hp] at hl
      | some pc =>
        refine (hlk t pc hp).1 ?_
        simp only [hp, Option.bind_some] at hl
        cases pc <;> simp [chanLoad] at hl <;> rfl
    | call t op => simp [chan] at hl
    | spurious t => simp [chan] at hl
    | stale t => simp [chan] at hl
  · intro s a s' h hn hl
    refine chan_keeps (good s a s' h ?_ hn) hl
    cases a <;> simp [chan] at hl <;> rfl
  · intro s a s' h hr hl hn hc
    cases a with
    | call t op => simp [chan] at hl
    | spurious t => simp [chan] at hl
    | stale t => simp [chan] at hl
    | throw t =>
      simp only [chan] at hl hn
      cases hp : s.pcs[t]? with
      | none => simp [hp] at hl
      | some pc =>
        simp only [hp, Option.bind_some] at hl
        simp only [next, hp] at hn
        cases pc <;> simp [chanLoad] at hl <;> simp [throwAt] at hn
    | step t w =>
      simp only [chan] at hl hn
      cases hp : s.pcs[t]? with
      | none => simp [hp] at hl
      | some pc =>
        simp only [hp, Option.bind_some] at hl
        simp only [next, hp] at hn
        cases pc <;> simp [chanLoad] at hl
        case eFast v =>
          simp [stepAt, St.goto] at hn
          subst hn
          refine ⟨?_, by simp [chan, hp], rfl, rfl⟩
          have : next cfg s (.stale t) = some (s.goto t (.eLock v)) := by simp [next, hp]
          have h2 := reach_next h this
          simp only [chan]
          have : ({ q := s.q, closed := true, owner := s.owner, pcs := s.pcs.set t (.eLock v), hist := s.hist } : St α) = s.goto t (.eLock v) := by
            simp [St.goto]; exact hc
          rw [this]; exact h2
        case tFast v =>
          simp [stepAt, St.goto] at hn
          subst hn
          refine ⟨?_, by simp [chan, hp], rfl, rfl⟩
          have : next cfg s (.stale t) = some (s.goto t (.tLock v)) := by simp [next, hp]
          have h2 := reach_next h this
          simp only [chan]
          have : ({ q := s.q, closed := true, owner := s.owner, pcs := s.pcs.set t (.tLock v), hist := s.hist } : St α) = s.goto t (.tLock v) := by
            simp [St.goto]; exact hc
          rw [this]; exact h2

end Chan

namespace Exch
open Verif.Exchange

theorem run_snoc {cfg : Cfg} {a : Act α} : ∀ (as : List (Act α)) (s : St α), run cfg s (as ++ [a]) = (run cfg s as).bind fun s' => next cfg s' a
  | [], s => by simp only [List.nil_append, run, Option.bind_some]; cases next cfg s a <;> rfl
  | b :: as, s => by
    simp only [List.cons_append, run]
    cases next cfg s b with
    | none => rfl
    | some s1 => simp only [Option.bind_some]; exact run_snoc as s1

theorem reach_next {cfg : Cfg} {n : Nat} {s s' : St α} {a : Act α} (h : Reachable cfg n s) (hn : next cfg s a = some s') : Reachable cfg n s' := by
  obtain ⟨as, h⟩ := h
  exact ⟨as ++ [a], by rw [run_snoc, h]; exact hn⟩

theorem tr_step {cfg : Cfg} {n : Nat} {s s' : St α} {t : Nat} {w : Option Nat} (h : Reachable cfg n s) (hn : next cfg s (.step t w) = some s') :
    Tr (exch α cfg) s s' (.step t w) := by
  have hlk := (lockInv_reach h).1
  simp only [next] at hn
  cases hp : s.pcs[t]? with
  | none => simp [hp] at hn
  | some pc =>
    simp only [hp] at hn
    have hlk := hlk t pc hp
    have hsets : (exch α cfg).sets s (.step t w) = match pc with | .cSet => true | _ => false := by
      simp only [exch, hp]; cases pc <;> rfl
    have hload : (exch α cfg).load s (.step t w) = exchLoad s.slot pc := by simp only [exch, hp, Option.bind_some]
    obtain ⟨slot, c, o, pcs, hist⟩ := s
    dsimp only at hp hn hlk hload
    have own : pc.holds = true → o = some t := hlk.1
    cases pc <;> simp only [stepAt] at hn <;> dsimp only at hsets
    case idle => simp at hn
    case pSleep => simp at hn
    case eFast v =>
      cases c <;> simp [St.goto, St.log] at hn <;> subst hn
      · exact .tau hsets rfl rfl rfl
      · exact .fast hsets rfl rfl rfl (.inl ⟨t, v, rfl⟩) rfl hload rfl
    case eLock v =>
      cases o <;> simp [acquire, St.goto] at hn; subst hn; exact .lock hsets rfl rfl rfl rfl
    case pLock =>
      cases o <;> simp [acquire, St.goto] at hn; subst hn; exact .lock hsets rfl rfl rfl rfl
    case qLock =>
      cases o <;> simp [acquire, St.goto] at hn; subst hn; exact .lock hsets rfl rfl rfl rfl
    case cLock =>
      cases o <;> simp [acquire, St.goto] at hn; subst hn; exact .lock hsets rfl rfl rfl rfl
    case pCheck =>
      have ho := own rfl
      subst ho
      split at hn <;> simp [release, St.goto] at hn <;> subst hn
      · exact .tau hsets rfl rfl rfl
      · exact .unlock hsets rfl rfl rfl rfl
    case eBody v =>
      have ho := own rfl
      subst ho
      cases c <;> simp [St.goto, St.log] at hn <;> subst hn <;> exact .lin hsets rfl rfl rfl rfl (by simp)
    case pBody =>
      have ho := own rfl
      subst ho
      cases slot <;> simp [St.goto, St.log] at hn <;> subst hn <;> exact .lin hsets rfl rfl rfl rfl (by simp)
    case qBody =>
      have ho := own rfl
      subst ho
      cases slot <;> simp [St.goto, St.log] at hn <;> subst hn <;> exact .lin hsets rfl rfl rfl rfl (by simp)
    case sUnlock op =>
      have ho := own rfl
      subst ho
      simp [release, St.goto] at hn; subst hn; exact .unlock hsets rfl rfl rfl rfl
    case relRet op r =>
      have ho := own rfl
      subst ho
      simp [release, St.goto] at hn; subst hn; exact .unlock hsets rfl rfl rfl rfl
    case cUnlock =>
      have ho := own rfl
      subst ho
      simp [release, St.goto] at hn; subst hn; exact .unlock hsets rfl rfl rfl rfl
    case cNotify => simp [St.goto] at hn; subst hn; exact .tau hsets rfl rfl rfl
    case rMove op x => simp [St.goto] at hn; subst hn; exact .tau hsets rfl rfl rfl
    case cSet =>
      have ho := own rfl
      subst ho
      simp [St.goto, St.log] at hn; subst hn; exact .close hsets rfl rfl rfl rfl hload
    case kRead =>
      simp [St.goto, St.log] at hn; subst hn
      refine .border hsets rfl rfl rfl ?_ rfl
      rintro ⟨_, _, _, h, hne⟩; cases h; exact hne rfl
    case done op r =>
      simp [St.goto, St.log] at hn; subst hn
      refine .border hsets rfl rfl rfl ?_ rfl
      rintro ⟨_, _, _, h, hne⟩; cases h
    case sNotify op =>
      cases w with
      | none =>
        simp only [notifyOne] at hn
        split at hn
        · simp at hn
        · simp [St.goto] at hn; subst hn; exact .tau hsets rfl rfl rfl
      | some i =>
        simp only [notifyOne] at hn
        cases hi : pcs[i]? with
        | none => simp [hi] at hn
        | some p =>
          simp only [hi] at hn
          cases p <;> simp [St.goto] at hn
          subst hn
          exact .tau hsets rfl rfl rfl

theorem tr_throw {cfg : Cfg} {n : Nat} {s s' : St α} {t : Nat} (h : Reachable cfg n s) (hn : next cfg s (.throw t) = some s') :
    Tr (exch α cfg) s s' (.throw t) := by
  have hlk := (lockInv_reach h).1
  simp only [next] at hn
  cases hp : s.pcs[t]? with
  | none => simp [hp] at hn
  | some pc =>
    simp only [hp] at hn
    have hlk := hlk t pc hp
    obtain ⟨slot, c, o, pcs, hist⟩ := s
    dsimp only at hp hn hlk
    have own : pc.holds = true → o = some t := hlk.1
    cases pc <;> simp only [throwAt] at hn
    case eBody v =>
      have ho := own rfl
      subst ho
      split at hn <;> simp [St.goto, St.log] at hn; subst hn; exact .lin rfl rfl rfl rfl rfl (by simp)
    case pBody =>
      have ho := own rfl
      subst ho
      split at hn <;> simp [St.goto, St.log] at hn; subst hn; exact .lin rfl rfl rfl rfl rfl (by simp)
    case qBody =>
      have ho := own rfl
      subst ho
      split at hn <;> simp [St.goto, St.log] at hn; subst hn; exact .lin rfl rfl rfl rfl rfl (by simp)
    case rMove op x =>
      split at hn <;> simp [St.goto] at hn; subst hn; exact .tau rfl rfl rfl rfl
    all_goals simp at hn

theorem tr_other {cfg : Cfg} {s s' : St α} {a : Act α} (hr : replaced a = false) (h1 : ∀ t w, a ≠ .step t w) (h2 : ∀ t, a ≠ .throw t)
    (hn : next cfg s a = some s') : Tr (exch α cfg) s s' a := by
  cases a with
  | step t w => exact absurd rfl (h1 t w)
  | throw t => exact absurd rfl (h2 t)
  | stale t => simp [replaced] at hr
  | call t op =>
    simp only [next] at hn
    split at hn
    · simp only [Option.map_eq_some_iff] at hn
      obtain ⟨pc, _, rfl⟩ := hn
      refine .border (e := .call t op) rfl rfl rfl rfl ?_ rfl
      rintro ⟨_, _, _, h, hne⟩; cases h
    · simp at hn
  | spurious t =>
    simp only [next] at hn
    split at hn
    · simp [St.goto] at hn; subst hn; exact .tau rfl rfl rfl rfl
    · simp at hn

theorem exch_keeps {cfg : Cfg} {s s' : St α} {a : Act α} (h : Tr (exch α cfg) s s' a) (hl : (exch α cfg).load s a ≠ none) : s'.closed = s.closed := by
  cases h with
  | close _ _ _ _ _ h => exact absurd h hl
  | tau _ h => exact h
  | lock _ h => exact h
  | unlock _ h => exact h
  | border _ h => exact h
  | lin _ h => exact h
  | fast _ h => exact h

theorem lawful (cfg : Cfg) (n : Nat) : Lawful (exch α cfg) (Reachable cfg n) := by
  have good : ∀ (s : St α) a s', Reachable cfg n s → replaced a = false → next cfg s a = some s' → Tr (exch α cfg) s s' a := by
    intro s a s' h hr hn
    cases a with
    | step t w => exact tr_step h hn
    | throw t => exact tr_throw h hn
    | call t op => exact tr_other hr (by simp) (by simp) hn
    | spurious t => exact tr_other hr (by simp) (by simp) hn
    | stale t => simp [replaced] at hr
  refine ⟨rfl, rfl, fun _ => rfl, fun _ _ => rfl, fun _ _ => rfl, fun _ _ => rfl, ?_, ?_, ?_, ?_⟩
  · exact fun s a s' h hr hn => ⟨reach_next h hn, good s a s' h hr hn⟩
  · intro s a b h hl hn
    have hlk := (lockInv_reach h).1
    cases a with
    | step t w =>
      simp only [exch] at hl
      cases hp : s.pcs[t]? with
      | none => simp [hp] at hl
      | some pc =>
        refine (hlk t pc hp).1 ?_
        simp only [hp, Option.bind_some] at hl
        cases pc <;> simp [exchLoad] at hl <;> rfl
    | throw t =>
      simp only [exch] at hl
      cases hp : s.pcs[t]? with
      | none => simp [hp] at hl
      | some pc =>
        refine (hlk t pc hp).1 ?_
        simp only [hp, Option.bind_some] at hl
        cases pc <;> simp [exchLoad] at hl <;> rfl
    | call t op => simp [exch] at hl
    | spurious t => simp [exch] at hl
    | stale t => simp [exch] at hl
  · intro s a s' h hn hl
    refine exch_keeps (good s a s' h ?_ hn) hl
    cases a <;> simp [exch] at hl <;> rfl
  · intro s a s' h hr hl hn hc
    cases a with
    | call t op => simp [exch] at hl
    | spurious t => simp [exch] at hl
    | stale t => simp [exch] at hl
    | throw t =>
      simp only [exch] at hl hn
      cases hp : s.pcs[t]? with
      | none => simp [hp] at hl
      | some pc =>
        simp only [hp, Option.bind_some] at hl
        simp only [next, hp] at hn
        cases pc <;> simp [exchLoad] at hl <;> simp [throwAt] at hn
    | step t w =>
      simp only [exch] at hl hn
      cases hp : s.pcs[t]? with
      | none => simp [hp] at hl
      | some pc =>
        simp only [hp, Option.bind_some] at hl
        simp only [next, hp] at hn
        cases pc <;> simp [exchLoad] at hl
        case pCheck => split at hl <;> simp at hl
        case eFast v =>
          simp [stepAt, St.goto] at hn
          subst hn
          refine ⟨?_, by simp [exch, hp], rfl, rfl⟩
          have : next cfg s (.stale t) = some (s.goto t (.eLock v)) := by simp [next, hp]
          have h2 := reach_next h this
          simp only [exch]
          have : ({ slot := s.slot, closed := true, owner := s.owner, pcs := s.pcs.set t (.eLock v), hist := s.hist } : St α) = s.goto t (.eLock v) := by
            simp [St.goto]; exact hc
          rw [this]; exact h2

end Exch

end Verif.HB
