import Verif.Mixed.Spec

/-! What one action of one thread in one object means for its callers, whatever the object is. -/
namespace Verif.Mixed

open Verif.Channel (Op Res Act)
open Verif.Multi (Thr set MAct Act.inside)

variable {α : Type}

/-- The running call of thread `i` and its result once it has had its effect (channel.hpp:58-212, exchange_channel.hpp:53-149). -/
def phase (o : Obj α) (i : Nat) : Option (Option (Op α × Option (Res α))) :=
  match o with
  | .chan s => (s.pcs[i]?).map Multi.ph
  | .exch s => (s.pcs[i]?).map MultiX.ph

/-- The contents (channel.hpp:32, exchange_channel.hpp:32). -/
def Obj.val : Obj α → OVal α
  | .chan s => .queue s.q
  | .exch s => .slot s.slot

/-- The flag (channel.hpp:34, exchange_channel.hpp:34). -/
def Obj.closed : Obj α → Bool
  | .chan s => s.closed
  | .exch s => s.closed

/-- Whether moves of elements may throw (channel.hpp:188,193, exchange_channel.hpp:135). -/
def OCfg.moveThrow : OCfg → Bool
  | .chan c => c.moveThrow
  | .exch c => c.moveThrow

/-- Whether a removal has thrown and left the value of an exchange channel since it was put there (exchange_channel.hpp:135,148). -/
def Obj.left : Obj α → Bool
  | .chan _ => false
  | .exch s => MultiX.taint s.hist

/-- The same after a call had its effect (exchange_channel.hpp:91,135,148). -/
def oupd : OCfg → Bool → Op α → Res α → Bool
  | .chan _, _, _, _ => false
  | .exch _, b, op, r => MultiX.upd b op r

/-- The states of the object (channel.hpp:58-212, exchange_channel.hpp:53-149). -/
def OReach : OCfg → Nat → Obj α → Prop
  | .chan c, n, .chan s => Channel.Reachable c n s
  | .exch c, n, .exch s => Exchange.Reachable c n s
  | _, _, _ => False

/-- Effects of one action inside a call (of channel.hpp:58-212, exchange_channel.hpp:53-149). -/
inductive ORel (cfg : OCfg) : OVal α → Bool → Bool → Option (Op α × Option (Res α)) → OVal α → Bool → Bool →
    Option (Op α × Option (Res α)) → Prop where
  | same {q c b k} : ORel cfg q c b k q c b k
  | eff {q c b op r q' c' b'} : OEffect cfg q c op r q' c' → b' = oupd cfg b op r →
      ORel cfg q c b (some (op, none)) q' c' b' (some (op, some r))
  | recant {q c b op x} : cfg.moveThrow = true →
      ORel cfg q c b (some (op, some (.val (some x)))) q c b (some (op, some .threw))

/-- Everything a caller needs to know about one action of thread `t` in a call (of channel.hpp:58-212, exchange_channel.hpp:53-149). -/
structure ODid (cfg : OCfg) (o o' : Obj α) (t : Nat) : Prop where
  others : ∀ i, i ≠ t → phase o' i = phase o i
  done : ∀ r, doneAt o t = some r → (∃ op, phase o t = some (some (op, some r))) ∧ phase o' t = some none ∧ o'.val = o.val ∧
    o'.closed = o.closed ∧ o'.left = o.left
  go : doneAt o t = none → ∃ x y, phase o t = some x ∧ phase o' t = some y ∧
    ORel cfg o.val o.closed o.left x o'.val o'.closed o'.left y

theorem odid_next {cfg : OCfg} {n : Nat} {o o' : Obj α} (hr : OReach cfg n o) {t : Nat} {a : Act α} (ha : Act.inside t a)
    (h : onext cfg o a = some o') : ODid cfg o o' t := by
  match cfg, o, hr with
  | .chan c, .chan s, hr =>
    simp only [onext, Option.map_eq_some_iff] at h
    obtain ⟨s', hn, rfl⟩ := h
    obtain ⟨pc, hp, hd⟩ := Multi.did_next (Channel.lockBody_reach hr).2 ha hn
    refine ⟨hd.others, fun r hr => ?_, fun hnd => ?_⟩
    · simp only [doneAt, hp] at hr
      split at hr
      · rename_i op r' e
        injection e with e; subst e; injection hr with hr; subst hr
        obtain ⟨h1, h2, h3⟩ := hd.done _ _ rfl
        exact ⟨⟨op, by simp [phase, hp, Multi.ph]⟩, by simp [phase, h1, Multi.ph], by simp [Obj.val, h2], h3, rfl⟩
      · cases hr
    · obtain ⟨pc', h1, h2⟩ := hd.go (fun op r e => by subst e; simp [doneAt, hp] at hnd)
      refine ⟨_, _, by simp [phase, hp]; rfl, by simp [phase, h1]; rfl, ?_⟩
      rcases Multi.rel_cases h2 with ⟨e1, e2, e3⟩ | ⟨op, r, e1, e2, e3⟩ | ⟨op, v, hm, e1, e2, e3, e4⟩
      · rw [e3]; simp only [Obj.val, Obj.closed, Obj.left, e1, e2]; exact .same
      · rw [e1, e2]; exact .eff e3 rfl
      · rw [e3, e4]; simp only [Obj.val, Obj.closed, Obj.left, e1, e2]; exact .recant hm
  | .exch c, .exch s, hr =>
    simp only [onext, Option.map_eq_some_iff] at h
    obtain ⟨s', hn, rfl⟩ := h
    obtain ⟨pc, hp, hd⟩ := MultiX.did_next (Exchange.lockBody_reach hr).2 ha hn
    refine ⟨hd.others, fun r hr => ?_, fun hnd => ?_⟩
    · simp only [doneAt, hp] at hr
      split at hr
      · rename_i op r' e
        injection e with e; subst e; injection hr with hr; subst hr
        obtain ⟨h1, h2, h3, h4⟩ := hd.done _ _ rfl
        exact ⟨⟨op, by simp [phase, hp, MultiX.ph]⟩, by simp [phase, h1, MultiX.ph], by simp [Obj.val, h2], h3, h4⟩
      · cases hr
    · obtain ⟨pc', h1, h2⟩ := hd.go (fun op r e => by subst e; simp [doneAt, hp] at hnd)
      refine ⟨_, _, by simp [phase, hp]; rfl, by simp [phase, h1]; rfl, ?_⟩
      rcases MultiX.rel_cases h2 with ⟨e1, e2, e0, e3⟩ | ⟨op, r, e1, e2, e3, e0⟩ | ⟨op, v, hm, e1, e2, e0, e3, e4⟩
      · rw [e3]; simp only [Obj.val, Obj.closed, Obj.left, e1, e2, e0]; exact .same
      · rw [e1, e2]; exact .eff e3 e0
      · rw [e3, e4]; simp only [Obj.val, Obj.closed, Obj.left, e1, e2, e0]; exact .recant hm

theorem oreach_next {cfg : OCfg} {n : Nat} {o o' : Obj α} (hr : OReach cfg n o) {a : Act α} (h : onext cfg o a = some o') :
    OReach cfg n o' := by
  match cfg, o, hr with
  | .chan c, .chan s, hr =>
    simp only [onext, Option.map_eq_some_iff] at h
    obtain ⟨s', hn, rfl⟩ := h
    exact Multi.reach_snoc hr hn
  | .exch c, .exch s, hr =>
    simp only [onext, Option.map_eq_some_iff] at h
    obtain ⟨s', hn, rfl⟩ := h
    exact MultiX.reach_snoc hr hn

/-- A call begins. -/
theorem ocall {cfg : OCfg} {n : Nat} {o o' : Obj α} (hr : OReach cfg n o) {t : Nat} {op : Op α}
    (h : onext cfg o (.call t op) = some o') : (∀ i, i ≠ t → phase o' i = phase o i) ∧ phase o' t = some (some (op, none)) ∧
      o'.val = o.val ∧ o'.closed = o.closed ∧ o'.left = o.left := by
  match cfg, o, hr with
  | .chan c, .chan s, hr =>
    simp only [onext, Option.map_eq_some_iff] at h
    obtain ⟨s', hn, rfl⟩ := h
    simp only [Channel.next] at hn
    split at hn <;> [skip; simp at hn]
    rename_i hp
    injection hn with hn; subst hn
    refine ⟨fun i hi => ?_, ?_, rfl, rfl, rfl⟩
    · simp [phase, Channel.St.goto, Channel.St.log, List.getElem?_set_ne (Ne.symm hi)]
    · simp [phase, Channel.St.goto, Channel.St.log, Channel.lt_of_getElem? hp, Multi.ph_entry]
  | .exch c, .exch s, hr =>
    simp only [onext, Option.map_eq_some_iff] at h
    obtain ⟨s', hn, rfl⟩ := h
    simp only [Exchange.next] at hn
    split at hn <;> [skip; simp at hn]
    rename_i hp
    simp only [Option.map_eq_some_iff] at hn
    obtain ⟨pc, he, rfl⟩ := hn
    refine ⟨fun i hi => ?_, ?_, rfl, rfl, by
      simp [Obj.left, Exchange.St.goto, Exchange.St.log, MultiX.taint_append, MultiX.tev]⟩
    · simp [phase, Exchange.St.goto, Exchange.St.log, List.getElem?_set_ne (Ne.symm hi)]
    · simp [phase, Exchange.St.goto, Exchange.St.log, Channel.lt_of_getElem? hp, MultiX.ph_entry he]

theorem phase_lt {cfg : OCfg} {n : Nat} {o : Obj α} (hr : OReach cfg n o) (i : Nat) : (phase o i).isSome = true ↔ i < n := by
  match cfg, o, hr with
  | .chan c, .chan s, hr => simp [phase, ← Channel.reachable_length hr]
  | .exch c, .exch s, hr => simp [phase, ← Exchange.reachable_length hr]

theorem fresh_reach (α : Type) (n : Nat) (cfg : OCfg) : OReach cfg n (fresh α n cfg) := by
  cases cfg with
  | chan c => exact ⟨[], rfl⟩
  | exch c => exact ⟨[], rfl⟩

theorem fresh_phase (α : Type) {n i : Nat} (cfg : OCfg) (hi : i < n) : phase (fresh α n cfg) i = some none := by
  cases cfg <;> simp [phase, fresh, Channel.init, Exchange.init, hi, Multi.ph, MultiX.ph]

end Verif.Mixed
