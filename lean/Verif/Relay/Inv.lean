import Verif.Relay.Model

/-! The invariant of the relays: what holds between two neighbouring threads and their exchange channel. -/
namespace Verif.Relay

open Verif.Exchange
open Verif.Channel (Op Res Ev Act)
open Verif.Pipeline (upd upd_eq upd_ne Cls taken rest)

variable {α : Type}

/-- Positions in the calls (exchange_channel.hpp:53-63, 79-96, 124-136). -/
def cls : PC α → Cls α
  | .idle => .idle
  | .eFast v | .eLock v | .eBody v => .pushing v
  | .sUnlock (.push v) | .sNotify (.push v) | .done (.push v) (.bool true) => .pushed v
  | .relRet (.push v) (.bool false) | .done (.push v) (.bool false) => .refused v
  | .cLock | .cSet => .closing
  | .cUnlock | .cNotify | .done .close .unit => .shut
  | .pLock | .pCheck | .pSleep | .pBody => .popping
  | .rMove .pop x | .relRet .pop (.val (some x)) | .done .pop (.val (some x)) => .took x
  | .relRet .pop (.val none) | .done .pop (.val none) => .ended
  | _ => .other

/-- Effects of one action inside a call on the slot and the flag (exchange_channel.hpp:53-136). -/
inductive Trans : Option α → Bool → Cls α → Option α → Bool → Cls α → Prop where
  | same {q c k} : Trans q c k q c k
  | push {q y} : Trans q false (.pushing y) (some y) false (.pushed y)
  | refuse {q y} : Trans q true (.pushing y) q true (.refused y)
  | take {x c} : Trans (some x) c .popping none c (.took x)
  | fin : Trans none true .popping none true .ended
  | close {q c} : Trans q c .closing q true .shut
  | oth {q c q' c' k} : Trans q c .other q' c' k

theorem cls_wake (p : PC α) : cls (wake p) = cls p := by cases p <;> rfl

theorem idle_of_cls {p : PC α} (h : cls p = .idle) : p = .idle := by
  cases p <;> simp [cls] at h ⊢
  all_goals (repeat' split at h) <;> simp_all

/-- Everything the relay needs to know about one action of thread `t` in a call (exchange_channel.hpp:53-136). -/
structure Moved (s s' : St α) (t : Nat) (pc : PC α) : Prop where
  len : s'.pcs.length = s.pcs.length
  others : ∀ i, i ≠ t → (s'.pcs[i]?).map cls = (s.pcs[i]?).map cls
  done : ∀ op r, pc = .done op r → s'.pcs[t]? = some .idle ∧ s'.slot = s.slot ∧ s'.closed = s.closed
  go : (∀ op r, pc ≠ .done op r) →
    ∃ pc', s'.pcs[t]? = some pc' ∧ Trans s.slot s.closed (cls pc) s'.slot s'.closed (cls pc')

theorem moved_set {s : St α} {t : Nat} {pc pc' : PC α} {q' c' o' h'} (hp : s.pcs[t]? = some pc)
    (hnd : ∀ op r, pc ≠ .done op r) (ht : Trans s.slot s.closed (cls pc) q' c' (cls pc')) :
    Moved s ⟨q', c', o', s.pcs.set t pc', h'⟩ t pc where
  len := by simp
  others i hi := by simp [List.getElem?_set_ne (Ne.symm hi)]
  done op r h := absurd h (hnd op r)
  go _ := ⟨pc', by simp [List.getElem?_set, Channel.lt_of_getElem? hp], ht⟩

theorem moved_one {s : St α} {t i : Nat} {pc pc' p p' : PC α} (hp : s.pcs[t]? = some pc)
    (hnd : ∀ op r, pc ≠ .done op r) (hi : s.pcs[i]? = some p) (hpp : cls p' = cls p)
    (ht : Trans s.slot s.closed (cls pc) s.slot s.closed (cls pc')) {o' h'} :
    Moved s ⟨s.slot, s.closed, o', (s.pcs.set i p').set t pc', h'⟩ t pc where
  len := by simp
  others j hj := by
    simp only [List.getElem?_set_ne (Ne.symm hj), List.getElem?_set]
    split
    · rename_i e; subst e; rw [hi]; simp [Channel.lt_of_getElem? hi, hpp]
    · rfl
  done op r h := absurd h (hnd op r)
  go _ := ⟨pc', by simp [Channel.lt_of_getElem? hp], ht⟩

theorem moved_all {s : St α} {t : Nat} {pc pc' : PC α} {f : PC α → PC α} (hp : s.pcs[t]? = some pc)
    (hnd : ∀ op r, pc ≠ .done op r) (hf : ∀ p, cls (f p) = cls p)
    (ht : cls pc' = cls pc) {h'} :
    Moved s ⟨s.slot, s.closed, s.owner, (s.pcs.map f).set t pc', h'⟩ t pc where
  len := by simp
  others j hj := by
    simp only [List.getElem?_set_ne (Ne.symm hj), List.getElem?_map]
    cases s.pcs[j]? <;> simp [hf]
  done op r h := absurd h (hnd op r)
  go _ := ⟨pc', by simp [List.getElem?_set, Channel.lt_of_getElem? hp], by rw [ht]; exact .same⟩

theorem moved_stepAt {s s' : St α} {t : Nat} {w : Option Nat} {pc : PC α} (hb : BodyInv s)
    (hp : s.pcs[t]? = some pc) (h : stepAt s t w pc = some s') : Moved s s' t pc := by
  have hbp := hb t
  obtain ⟨q, c, o, pcs, hist⟩ := s
  simp only at hp hbp
  cases pc <;> simp only [stepAt] at h
  case idle => simp at h
  case pSleep => simp at h
  case eFast v =>
    cases c <;> simp [St.goto, St.log] at h <;> subst h
    · exact moved_set hp (by simp) .same
    · exact moved_set hp (by simp) .refuse
  case eLock v =>
    cases o <;> simp [acquire, St.goto] at h; subst h
    exact moved_set hp (by simp) .same
  case pLock =>
    cases o <;> simp [acquire, St.goto] at h; subst h
    exact moved_set hp (by simp) .same
  case qLock =>
    cases o <;> simp [acquire, St.goto] at h; subst h
    exact moved_set hp (by simp) .oth
  case cLock =>
    cases o <;> simp [acquire, St.goto] at h; subst h
    exact moved_set hp (by simp) .same
  case pCheck =>
    split at h <;> simp [release, St.goto] at h <;> subst h <;> exact moved_set hp (by simp) .same
  case eBody v =>
    cases c <;> simp [St.goto, St.log] at h <;> subst h
    · exact moved_set hp (by simp) .push
    · exact moved_set hp (by simp) .refuse
  case sUnlock op =>
    simp [release, St.goto] at h; subst h
    refine moved_set hp (by simp) ?_
    cases op <;> first | exact .same | exact .oth
  case rMove op x =>
    simp [St.goto] at h; subst h
    refine moved_set hp (by simp) ?_
    cases op <;> first | exact .same | exact .oth
  case relRet op r =>
    simp [release, St.goto] at h; subst h
    refine moved_set hp (by simp) ?_
    cases op <;> rcases r with (_ | _) | (_ | _) | _ | _ <;> first | exact .same | exact .oth
  case cUnlock => simp [release, St.goto] at h; subst h; exact moved_set hp (by simp) .same
  case cSet => simp [St.goto, St.log] at h; subst h; exact moved_set hp (by simp) .close
  case kRead => simp [St.goto, St.log] at h; subst h; exact moved_set hp (by simp) .oth
  case done op r =>
    simp [St.goto, St.log] at h; subst h
    refine ⟨by simp, fun i hi => by simp [List.getElem?_set_ne (Ne.symm hi)], fun _ _ _ => ⟨?_, rfl, rfl⟩,
      fun hn => absurd rfl (hn op r)⟩
    simp [List.getElem?_set, Channel.lt_of_getElem? hp]
  case pBody =>
    cases q <;> simp [St.goto, St.log] at h <;> subst h
    · have hbp := hbp hp
      simp at hbp; subst hbp
      exact moved_set hp (by simp) .fin
    · exact moved_set hp (by simp) .take
  case qBody =>
    cases q <;> simp [St.goto, St.log] at h <;> subst h <;> exact moved_set hp (by simp) .oth
  case sNotify op =>
    simp only [Option.map_eq_some_iff] at h
    obtain ⟨s1, h1, rfl⟩ := h
    unfold notifyOne at h1
    split at h1
    · split at h1 <;> simp at h1
      subst h1
      refine moved_set hp (by simp) ?_
      cases op <;> first | exact .same | exact .oth
    · rename_i i
      split at h1
      · rename_i hpi
        simp at h1
        subst h1
        simp only [St.goto]
        refine moved_one (s := ⟨q, c, o, pcs, hist⟩) hp (by simp) hpi ?_ ?_
        · rfl
        cases op <;> first | exact .same | exact .oth
      · simp at h1
  case cNotify =>
    simp [St.goto] at h; subst h
    exact moved_all (s := ⟨q, c, o, pcs, hist⟩) (pc' := .done .close .unit) hp (by simp) cls_wake rfl

theorem moved_next {cfg : Cfg} {s s' : St α} {t : Nat} {a : Act α} (hb : BodyInv s)
    (ha : (∃ w, a = .step t w) ∨ a = .spurious t ∨ a = .stale t) (h : next cfg s a = some s') :
    ∃ pc, s.pcs[t]? = some pc ∧ Moved s s' t pc := by
  rcases ha with ⟨w, rfl⟩ | rfl | rfl <;> simp only [next] at h <;> split at h <;> try (simp at h; done)
  · rename_i pc hp; exact ⟨pc, hp, moved_stepAt hb hp h⟩
  · rename_i hp
    injection h with h; subst h
    exact ⟨_, hp, moved_set hp (by simp) .same⟩
  · rename_i hp
    injection h with h; subst h
    exact ⟨_, hp, moved_set hp (by simp) .same⟩

/-! ### The invariant -/

/-- `l` leaves out elements of `l'`, but not its last one (the effect of replacing values, exchange_channel.hpp:91). -/
def Fresh (l l' : List α) : Prop := l.Sublist l' ∧ l.getLast? = l'.getLast?

theorem Fresh.refl (l : List α) : Fresh l l := ⟨List.Sublist.refl _, rfl⟩

theorem Fresh.trans {a b c : List α} (h1 : Fresh a b) (h2 : Fresh b c) : Fresh a c :=
  ⟨h1.1.trans h2.1, h1.2.trans h2.2⟩

theorem Fresh.map {a b : List α} (f : α → α) (h : Fresh a b) : Fresh (a.map f) (b.map f) :=
  ⟨h.1.map f, by simp [List.getLast?_map, h.2]⟩

/-- A new value replaces the last one, which may not have been seen. -/
theorem Fresh.push {a b c : List α} {y : α} (h : Fresh (a ++ b) c) : Fresh (a ++ [y]) (c ++ [y]) :=
  ⟨((List.sublist_append_left a b).trans h.1).append (List.Sublist.refl _), by simp⟩

/-- The producer's position in its stage agrees with its position in the channel (exchange_channel.hpp:53-96). -/
def ProdOk (st : Stage α) (k : Cls α) (closed : Bool) : Prop :=
  match st.pos with
  | .inPush => ∃ y ys, st.todo = y :: ys ∧ (k = .pushing y ∨ k = .pushed y) ∧ closed = false
  | .inClose => k = .closing ∨ (k = .shut ∧ closed = true)
  | .over => k = .idle ∧ closed = true
  | _ => k = .idle ∧ closed = false

/-- The consumer's position in its stage agrees with its position in the channel (exchange_channel.hpp:124-136). -/
def ConsOk (st : Stage α) (k : Cls α) (slot : Option α) (closed : Bool) : Prop :=
  match st.pos with
  | .inPop => k = .popping ∨ (∃ x, k = .took x) ∨ (k = .ended ∧ closed = true ∧ slot = none)
  | .shut | .inClose | .over => k = .idle ∧ closed = true ∧ slot = none
  | _ => k = .idle

/-- What the stage has produced so far (loops over exchange_channel.hpp:151-245). -/
def made (p : Plan α) (i : Nat) (st : Stage α) : List α :=
  if i = 0 then p.source else st.got.map (p.body i)

/-- Two neighbours and the channel between them (exchange_channel.hpp:31-35). -/
structure Link (p : Plan α) (P C : Stage α) (k : Nat) (c : St α) : Prop where
  reach : Reachable {} 2 c
  pcs : ∃ pc0 pc1 pre, c.pcs = [pc0, pc1] ∧ ProdOk P (cls pc0) c.closed ∧ ConsOk C (cls pc1) c.slot c.closed ∧
    made p k P = pre ++ rest P.todo (cls pc0) ∧ Fresh (C.got ++ (taken (cls pc1) ++ c.slot.toList)) pre

/-- Calls not accounted for by elements (of exchange_channel.hpp:53,79,124). -/
def flag : Pos → Nat
  | .loop => 0
  | .inPop => 1
  | .inPush => 1
  | .shut => 1
  | .inClose => 2
  | .over => 2

/-- What holds of one stage (a loop over exchange_channel.hpp:151-245). -/
structure StInv (p : Plan α) (i : Nat) (st : Stage α) : Prop where
  todo : st.pos ≠ .loop → st.pos ≠ .inPush → st.todo = []
  first : i = 0 → st.got = [] ∧ st.pos ≠ .inPop ∧ st.pos ≠ .shut
  last : i = p.inner + 1 → st.todo = [] ∧ st.pos ≠ .inPush ∧ st.pos ≠ .inClose
  calls : st.calls + st.todo.length ≤
    st.got.length + (if i ≤ p.inner then (made p i st).length else 0) + flag st.pos

/-- The invariant (of threads that use exchange_channel.hpp:53-136). -/
structure Inv (p : Plan α) (s : Sys α) : Prop where
  stages : ∀ i, i ≤ p.inner + 1 → StInv p i (s.stage i)
  links : ∀ k, k ≤ p.inner → Link p (s.stage k) (s.stage (k + 1)) k (s.chan k)

theorem inv_start (p : Plan α) : Inv p (start p) where
  stages i hi := by
    refine ⟨?_, ?_, ?_, ?_⟩ <;> simp [start, flag, made]
    · intro h; simp [h]
    · by_cases h : i = 0 <;> simp [h]
  links k hk := by
    refine ⟨⟨[], rfl⟩, ⟨.idle, .idle, [], rfl, by simp [ProdOk, start, cls, init], by simp [ConsOk, start, cls], ?_, ?_⟩⟩
    · simp only [made, start, rest, cls]
      split <;> simp
    · simp [start, init, taken, cls, Fresh]

theorem inv_of {p : Plan α} {s : Sys α} {i : Nat} {st' : Stage α} {chan' : Nat → St α} (h : Inv p s)
    (hch : ∀ k, k ≠ i → k + 1 ≠ i → chan' k = s.chan k) (hst : StInv p i st')
    (hout : i ≤ p.inner → Link p st' (s.stage (i + 1)) i (chan' i))
    (hin : ∀ j, i = j + 1 → j ≤ p.inner → Link p (s.stage j) st' j (chan' j)) :
    Inv p ⟨chan', upd s.stage i st'⟩ where
  stages j hj := by
    simp only [upd]
    split
    · rename_i e; subst e; exact hst
    · exact h.stages j hj
  links k hk := by
    simp only [upd]
    by_cases h1 : k = i
    · subst h1
      simp only [if_true, Nat.succ_ne_self, if_false]
      exact hout hk
    · by_cases h2 : k + 1 = i
      · simp only [h1, if_false, h2, if_true]
        exact hin k h2.symm hk
      · simp only [h1, h2, if_false]
        rw [hch k h1 h2]
        exact h.links k hk

theorem reach_next {cfg : Cfg} {n : Nat} {s s' : St α} {a : Act α} (h : Reachable cfg n s)
    (hn : next cfg s a = some s') : Reachable cfg n s' := by
  obtain ⟨acts, ha⟩ := h
  refine ⟨acts ++ [a], ?_⟩
  have : ∀ (l : List (Act α)) (s0 : St α), run cfg s0 l = some s → run cfg s0 (l ++ [a]) = some s' := by
    intro l
    induction l with
    | nil => intro s0 h0; simp [run] at h0; subst h0; simp [run, hn]
    | cons b l ih =>
      intro s0 h0
      simp only [run, Option.bind_eq_some_iff, List.cons_append] at h0 ⊢
      obtain ⟨s1, h1, h2⟩ := h0
      exact ⟨s1, h1, ih s1 h2⟩
  exact this _ _ ha

/-- A call puts the thread at the entry of the member function (exchange_channel.hpp:53,79,124). -/
theorem call_eq {cfg : Cfg} {c c' : St α} {t : Nat} {op : Op α} (h : next cfg c (.call t op) = some c') :
    c.pcs[t]? = some .idle ∧ ∃ pc, entry op = some pc ∧ c'.slot = c.slot ∧ c'.closed = c.closed ∧
      c'.pcs = c.pcs.set t pc := by
  simp only [next] at h
  split at h
  · rename_i e
    simp only [Option.map_eq_some_iff] at h
    obtain ⟨pc, h1, h2⟩ := h
    refine ⟨e, pc, h1, ?_, ?_, ?_⟩ <;> rw [← h2] <;> rfl
  · simp at h

/-- The producer calls. -/
theorem Link.callP {p : Plan α} {P C P' : Stage α} {k : Nat} {c c' : St α} {op : Op α} (h : Link p P C k c)
    (hc : next {} c (.call 0 op) = some c') (hg : P'.got = P.got) (ht : P'.todo = P.todo)
    (ho : ∀ pc, entry op = some pc → ProdOk P (.idle : Cls α) c.closed → ProdOk P' (cls pc) c.closed ∧ ∀ y, cls pc ≠ .pushed y) :
    Link p P' C k c' := by
  have hre := reach_next h.reach hc
  obtain ⟨pc0, pc1, pre, e, h1, h2, h3, h4⟩ := h.pcs
  obtain ⟨h0, pc, hpc, hq, hcl, hpcs⟩ := call_eq hc
  rw [e] at h0 hpcs
  obtain rfl : pc0 = .idle := by simpa using h0
  obtain ⟨h5, h6⟩ := ho pc hpc h1
  refine ⟨hre, pc, pc1, pre, by simpa using hpcs, by rw [hcl]; exact h5, by rw [hq, hcl]; exact h2, ?_, by rw [hq]; exact h4⟩
  have : made p k P' = made p k P := by simp only [made, hg]
  rw [this, h3, ht]
  congr 1
  simp only [rest, cls]
  split
  · rename_i y e; exact absurd e (h6 y)
  · rfl

/-- The consumer calls. -/
theorem Link.callC {p : Plan α} {P C C' : Stage α} {k : Nat} {c c' : St α} {op : Op α} (h : Link p P C k c)
    (hc : next {} c (.call 1 op) = some c') (hg : C'.got = C.got)
    (ho : ∀ pc, entry op = some pc → (∀ q b, ConsOk C' (cls pc) q b) ∧ ∀ y, cls pc ≠ .took y) :
    Link p P C' k c' := by
  have hre := reach_next h.reach hc
  obtain ⟨pc0, pc1, pre, e, h1, h2, h3, h4⟩ := h.pcs
  obtain ⟨h0, pc, hpc, hq, hcl, hpcs⟩ := call_eq hc
  rw [e] at h0 hpcs
  obtain rfl : pc1 = .idle := by simpa using h0
  obtain ⟨h5, h6⟩ := ho pc hpc
  refine ⟨hre, pc0, pc, pre, by simpa using hpcs, by rw [hcl]; exact h1, h5 _ _, h3, ?_⟩
  rw [hq, hg]
  have : taken (cls pc) = [] := by
    unfold taken
    split
    · rename_i y e; exact absurd e (h6 y)
    · rfl
  rw [this]; exact h4

/-- The stage of the producer changes, but nothing about this channel. -/
theorem Link.frameP {p : Plan α} {P C P' : Stage α} {k : Nat} {c : St α} (h : Link p P C k c)
    (hp : ∀ k0, ProdOk P k0 c.closed → ProdOk P' k0 c.closed ∧
      ∃ l, made p k P' = made p k P ++ l ∧ rest P'.todo k0 = rest P.todo k0 ++ l) : Link p P' C k c := by
  obtain ⟨pc0, pc1, pre, e, h1, h2, h3, h4⟩ := h.pcs
  obtain ⟨h5, l, h6, h7⟩ := hp _ h1
  exact ⟨h.reach, pc0, pc1, pre, e, h5, h2, by rw [h6, h3, h7]; simp, h4⟩

/-- The stage of the consumer changes, but nothing about this channel. -/
theorem Link.frameC {p : Plan α} {P C C' : Stage α} {k : Nat} {c : St α} (h : Link p P C k c)
    (hg : C'.got = C.got) (hp : ∀ k1, ConsOk C k1 c.slot c.closed → ConsOk C' k1 c.slot c.closed) : Link p P C' k c := by
  obtain ⟨pc0, pc1, pre, e, h1, h2, h3, h4⟩ := h.pcs
  exact ⟨h.reach, pc0, pc1, pre, e, h1, hp _ h2, h3, by rw [hg]; exact h4⟩

end Verif.Relay
