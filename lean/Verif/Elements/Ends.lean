import Verif.Elements.Props

/-!
C90, how calls end: after any history, exactly which calls wait, throw, or terminate the program, by the state of the channel and by which of the next element operations throws.
-/
namespace Verif.Elements

variable {V α β : Type}

/-! ### Counting the element operations that may throw -/

/-- The outcome `o` of something started in `w` that does `k` element operations which may throw, destructors do not (operations in channel.hpp:100-282, exchange_channel.hpp:91-222). -/
def Uses (w : W V) (k : Nat) : Out V α → Prop
  | .ok _ w' => (∀ f ∈ w.faults.take k, f = .ok) ∧ w'.faults = w.faults.drop k
  | .threw _ => ∃ f ∈ w.faults.take k, f ≠ .ok
  | .ub => True
  | _ => False

theorem fault_bad {w : W V} (h : w.fault ≠ .ok) : ∃ f ∈ w.faults.take 1, f ≠ .ok := by
  unfold W.fault at h
  cases hf : w.faults with
  | nil => rw [hf] at h; exact absurd rfl h
  | cons a l => rw [hf] at h; exact ⟨a, by simp, h⟩

theorem fault_good {w : W V} (h : w.fault = .ok) : ∀ f ∈ w.faults.take 1, f = .ok := by
  unfold W.fault at h
  cases hf : w.faults with
  | nil => simp
  | cons a l => rw [hf] at h; simpa using h

theorem Uses.none {w w' : W V} {a : α} (h : w'.faults = w.faults) : Uses w 0 (.ok a w') := ⟨by simp, by simpa using h⟩

theorem Uses.of {w w' : W V} {k : Nat} {o : Out V α} (h : w'.faults = w.faults) (u : Uses w' k o) : Uses w k o := by
  unfold Uses at *; rw [h] at u; exact u

theorem Uses.bind {w : W V} {k m : Nat} {o : Out V α} {f : α → W V → Out V β} (h : Uses w k o)
    (hf : ∀ a w', Uses w' m (f a w')) : Uses w (k + m) (o.bind f) := by
  cases o with
  | ok a w' =>
    obtain ⟨h1, h2⟩ := h
    have h3 := hf a w'
    show Uses w (k + m) (f a w')
    cases hr : f a w' with
    | ok b w'' =>
      rw [hr] at h3
      obtain ⟨h3, h4⟩ := h3
      rw [h2] at h3 h4
      refine ⟨?_, by rw [h4, List.drop_drop]⟩
      rw [List.take_add]
      intro f hf
      rcases List.mem_append.1 hf with hf | hf
      · exact h1 f hf
      · exact h3 f hf
    | threw w'' =>
      rw [hr] at h3
      obtain ⟨g, hg, hn⟩ := h3
      rw [h2] at hg
      exact ⟨g, by rw [List.take_add]; exact List.mem_append_right _ hg, hn⟩
    | ub => trivial
    | _ => rw [hr] at h3; exact h3
  | threw w' =>
    obtain ⟨g, hg, hn⟩ := h
    exact ⟨g, by rw [List.take_add]; exact List.mem_append_left _ hg, hn⟩
  | ub => trivial
  | _ => exact h

theorem Uses.unwind {w : W V} {k : Nat} {o : Out V α} {f : W V → Out V Unit} (h : Uses w k o)
    (hf : ∀ w', Uses w' 0 (f w')) : Uses w k (o.unwind f) := by
  cases o with
  | threw w' =>
    have h3 := hf w'
    show Uses w k ((f w').bind fun _ w => .threw w)
    cases hr : f w' with
    | ok b w'' => exact h
    | threw w'' =>
      rw [hr] at h3
      obtain ⟨g, hg, _⟩ := h3
      simp at hg
    | ub => trivial
    | _ => rw [hr] at h3; exact h3
  | _ => exact h

theorem uses_make (v : V) (w : W V) : Uses w 1 (make v w) := by
  unfold make
  dsimp only
  split
  · rename_i h; exact ⟨fault_good h, by simp [W.act]⟩
  · rename_i h; exact fault_bad h

theorem uses_copyC (i : Nat) (w : W V) : Uses w 1 (copyC i w) := by
  unfold copyC
  split
  · dsimp only
    split
    · rename_i h; exact ⟨fault_good h, by simp [W.act]⟩
    · rename_i h; exact fault_bad h
  · trivial

theorem uses_moveC (i : Nat) (w : W V) : Uses w 1 (moveC i w) := by
  unfold moveC
  split
  · dsimp only
    split
    · rename_i h; exact ⟨fault_good h, by simp [W.act]⟩
    · rename_i h; exact fault_bad h
  · trivial

theorem overwrite_faults (y : Option V) (w : W V) : (overwrite y w).faults = w.faults := by cases y <;> rfl

theorem uses_copyA (i j : Nat) (w : W V) : Uses w 1 (copyA i j w) := by
  unfold copyA
  split
  · dsimp only
    split
    · rename_i h; exact ⟨fault_good h, by simp [W.act, overwrite_faults]⟩
    · rename_i h; exact fault_bad h
  · trivial

theorem uses_moveA (i j : Nat) (w : W V) : Uses w 1 (moveA i j w) := by
  unfold moveA
  split
  · dsimp only
    split
    · rename_i h; exact ⟨fault_good h, by simp [W.act, overwrite_faults]⟩
    · rename_i h; exact fault_bad h
  · trivial

theorem uses_dtor (i : Nat) (w : W V) : Uses w 0 (dtor i w) := by
  unfold dtor
  split
  · exact .none rfl
  · trivial

theorem uses_dtors : ∀ (l : List Nat) (w : W V), Uses w 0 (dtors l w)
  | [], w => .none rfl
  | i :: l, w => (uses_dtor i w).bind fun _ w' => uses_dtors l w'

theorem uses_construct (a : Arg V) (w : W V) : Uses w 1 (construct a w) := by
  cases a with
  | copy i => exact uses_copyC i w
  | move i => exact uses_moveC i w
  | args v => exact uses_make v w

theorem uses_withLock {p : W V → Out V α} {k : Nat} (h : ∀ w, Uses w k (p w)) (w : W V) : Uses w k (withLock p w) := by
  unfold withLock
  exact Uses.bind (k := k) (m := 0) ((Uses.of (w' := w.lock) rfl (h _)).unwind fun w' => .none rfl) fun a w' => .none rfl

theorem uses_store (c : Nat) (ch : Chan) (a : Arg V) (w : W V) : Uses w 1 (store c ch a w) := by
  unfold store
  split
  · exact (uses_construct a w).bind (m := 0) fun n w' => .none rfl
  · exact Uses.bind (k := 0) (m := 1) (.of (w' := w.setBuf c []) rfl (uses_dtors _ _)) fun _ w' => (uses_construct a w').bind (m := 0) fun n w' => .none rfl

theorem uses_takeFront (c f : Nat) (rest : List Nat) (w : W V) : Uses w 2 (takeFront c f rest w) := by
  unfold takeFront
  refine Uses.bind (k := 1) (m := 1) (.unwind (.of (w' := w.lock) rfl (uses_moveC _ _)) fun w' => .none rfl) fun ret w => ?_
  refine Uses.bind (k := 0) (m := 1) (.of (w' := w.setBuf c rest) rfl (uses_dtor _ _)) fun _ w => ?_
  refine Uses.bind (k := 1) (m := 0) (.unwind (.of (w' := w.unlock) rfl (uses_moveC _ _)) fun w' => uses_dtor _ _) fun r w => ?_
  exact Uses.bind (k := 0) (m := 0) (uses_dtor _ _) fun _ w => .none rfl

theorem uses_takeSlot (c f : Nat) (w : W V) : Uses w 2 (takeSlot c f w) := by
  unfold takeSlot
  refine uses_withLock (fun w => ?_) w
  refine Uses.bind (k := 1) (m := 1) (uses_moveC _ _) fun tmp w => ?_
  refine Uses.bind (k := 0) (m := 1) (.of (w' := w.setBuf c []) rfl (uses_dtor _ _)) fun _ w => ?_
  refine Uses.bind (k := 1) (m := 0) (.unwind (uses_moveC _ _) fun w' => uses_dtor _ _) fun r w => ?_
  exact Uses.bind (k := 0) (m := 0) (uses_dtor _ _) fun _ w => .none rfl

theorem bind_bind (o : Out V α) {γ : Type} (f : α → W V → Out V β) (g : β → W V → Out V γ) : (o.bind f).bind g = o.bind fun a w => (f a w).bind g := by
  cases o <;> rfl

theorem uses_assign_some (i : Nat) (b : Option Nat) (r : Nat) (w : W V) : Uses w 1 (assignBuf i b (some r) w) := by
  unfold assignBuf
  cases b with
  | none => exact Uses.bind (k := 1) (m := 0) (.unwind (uses_moveC _ _) fun w' => uses_dtor _ _) fun n w' => .of (w' := w'.setItBuf i (some n)) rfl (uses_dtor _ _)
  | some b => exact Uses.bind (k := 1) (m := 0) (.unwind (uses_moveA _ _ _) fun w' => uses_dtor _ _) fun n w' => uses_dtor _ _

theorem uses_assign_none (i : Nat) (b : Option Nat) (w : W V) : Uses w 0 (assignBuf i b none w) := by
  unfold assignBuf
  cases b with
  | none => exact .none rfl
  | some b => exact Uses.bind (k := 0) (m := 0) (.of (w' := w.setItBuf i none) rfl (uses_dtor _ _)) fun n w' => .none rfl

/-- What a `pop` and the following assignment to the buffer of an iterator, or nothing, do. -/
theorem uses_take {β : Type} {k m : Nat} (c : Nat) (ch : Chan) (w : W V) (g : Option Nat → W V → Out V β) (h0 : ∀ w', Uses w' k (g none w')) (h1 : ∀ r w', Uses w' m (g (some r) w')) :
    Uses w (if ch.buf = [] then k else 2 + m) ((take c ch w).bind g) := by
  unfold take
  cases hb : ch.buf with
  | nil => rw [if_pos rfl]; exact h0 w
  | cons f rest =>
    rw [if_neg (by simp)]
    cases ch.kind with
    | queue cap => dsimp only; rw [bind_bind]; exact (uses_takeFront _ _ _ _).bind fun r w' => h1 r w'
    | exch => dsimp only; rw [bind_bind]; exact (uses_takeSlot _ _ _).bind fun r w' => h1 r w'

theorem uses_copyBuf (b : Option Nat) (w : W V) : Uses w (if b = none then 0 else 1) (copyBuf b w) := by
  cases b with
  | none => exact .none rfl
  | some b => exact (uses_copyC b w).bind (m := 0) fun n w' => .none rfl

theorem uses_moveBuf (b : Option Nat) (w : W V) : Uses w (if b = none then 0 else 1) (moveBuf b w) := by
  cases b with
  | none => exact .none rfl
  | some b => exact (uses_moveC b w).bind (m := 0) fun n w' => .none rfl

theorem uses_copyAssignBuf (i : Nat) (a b : Option Nat) (w : W V) : Uses w (if b = none then 0 else 1) (copyAssignBuf i a b w) := by
  cases a <;> cases b
  · exact .none rfl
  · exact (uses_copyC _ w).bind (m := 0) fun n w' => .none rfl
  · exact Uses.bind (k := 0) (m := 0) (.of (w' := w.setItBuf i none) rfl (uses_dtor _ _)) fun n w' => .none rfl
  · exact uses_copyA _ _ w

theorem uses_swapBuf (i j : Nat) (a b : Option Nat) (w : W V) : Uses w (if a = none ∧ b = none then 0 else if a = none ∨ b = none then 1 else 3) (swapBuf i j a b w) := by
  cases a with
  | none =>
    cases b with
    | none => exact .none rfl
    | some b => exact (uses_moveC _ w).bind (m := 0) fun n w' => .of (w' := (w'.setItBuf i (some n)).setItBuf j none) rfl (uses_dtor _ _)
  | some a =>
    cases b with
    | none => exact (uses_moveC _ w).bind (m := 0) fun n w' => .of (w' := (w'.setItBuf j (some n)).setItBuf i none) rfl (uses_dtor _ _)
    | some b =>
      exact (uses_moveC _ w).bind (m := 2) fun t w' => Uses.bind (k := 2) (m := 0) (.unwind ((uses_moveA _ _ w').bind (m := 1) fun _ w' => uses_moveA _ _ w') fun w' => uses_dtor _ _) fun _ w' => uses_dtor _ _

/-! ### The theorem -/

/-- The calls that have to wait: `push` for an open queue without room, `pop`, `begin()` and `++it` for an open channel without elements (channel.hpp:92, 183, 229; exchange_channel.hpp:130, 166). -/
def Blocks (w : W V) : Op V → Prop
  | .push c _ => ∃ ch cap, w.chan? c = some ch ∧ ch.closed = false ∧ ch.kind = .queue cap ∧ cap ≤ ch.buf.length
  | .pop c => ∃ ch, w.chan? c = some ch ∧ ch.closed = false ∧ ch.buf = []
  | .begin_ c => ∃ ch, w.chan? c = some ch ∧ ch.closed = false ∧ ch.buf = []
  | .inc i => ∃ it ch, w.it? i = some it ∧ w.chan? it.chan = some ch ∧ ch.closed = false ∧ ch.buf = []
  | _ => False

/-- The calls that let no exception out: `begin()` and `++it` of `channel`, not of `exchange_channel` (channel.hpp:228, exchange_channel.hpp:165). -/
def Nothrow (w : W V) : Op V → Prop
  | .begin_ c => ∃ ch cap, w.chan? c = some ch ∧ ch.kind = .queue cap
  | .inc i => ∃ it ch cap, w.it? i = some it ∧ w.chan? it.chan = some ch ∧ ch.kind = .queue cap
  | _ => False

/-- Some channel has an element (channel.hpp:183, exchange_channel.hpp:130). -/
def hasElem (w : W V) (c : Nat) : Bool := match w.chan? c with
  | some ch => decide (ch.buf ≠ [])
  | none => false

/-- The iterator has an element (channel.hpp:226, exchange_channel.hpp:163). -/
def hasBuf (w : W V) (i : Nat) : Bool := match w.it? i with
  | some it => it.buf.isSome
  | none => false

/-- The channel takes an element now: it is open, and an `exchange_channel` or not full (channel.hpp:86, 92, 121; exchange_channel.hpp:80). -/
def takesElem (w : W V) (c : Nat) : Bool := match w.chan? c with
  | some ch => !ch.closed && (match ch.kind with
    | .queue cap => decide (ch.buf.length < cap)
    | .exch => true)
  | none => false

/-- How many constructors and assignments of elements a call uses (channel.hpp:85-282, exchange_channel.hpp:79-222). -/
def cost (w : W V) : Op V → Nat
  | .create _ => 1
  | .push c _ => if takesElem w c then 1 else 0
  | .tryPush c _ => if takesElem w c then 1 else 0
  | .pop c => if hasElem w c then 2 else 0
  | .tryPop c => if hasElem w c then 2 else 0
  | .begin_ c => if hasElem w c then 3 else 0
  | .inc i => match w.it? i with
    | some it => if hasElem w it.chan then 3 else 0
    | none => 0
  | .itTake _ => 1
  | .itCopy j => if hasBuf w j then 1 else 0
  | .itMove j => if hasBuf w j then 1 else 0
  | .itCopyAssign i j => if i ≠ j ∧ hasBuf w j then 1 else 0
  | .itMoveAssign i j => if hasBuf w i then (if hasBuf w j then 3 else 1) else if hasBuf w j then 1 else 0
  | _ => 0

/-- The possible outcomes of a call in `w` (channel.hpp:85-282, exchange_channel.hpp:79-222). -/
inductive Ends (w : W V) (o : Op V) : Out V Res → Prop where
  | illegal : Ends w o .illegal
  | ub : Ends w o .ub
  | waits : Blocks w o → Ends w o .waits
  | ok {r w'} : ¬ Blocks w o → (∀ f ∈ w.faults.take (cost w o), f = .ok) → Ends w o (.ok r w')
  | threw {w'} : ¬ Blocks w o → ¬ Nothrow w o → (∃ f ∈ w.faults.take (cost w o), f ≠ .ok) → Ends w o (.threw w')
  | terminated : ¬ Blocks w o → Nothrow w o → (∃ f ∈ w.faults.take (cost w o), f ≠ .ok) → Ends w o .terminated

theorem Uses.ends {w : W V} {o : Op V} {out : Out V Res} (hb : ¬ Blocks w o) (hn : ¬ Nothrow w o) (u : Uses w (cost w o) out) : Ends w o out := by
  cases out with
  | ok r w' => exact .ok hb u.1
  | threw w' => exact .threw hb hn u
  | ub => exact .ub
  | _ => exact u.elim

theorem uses_res {w : W V} {k : Nat} {x : Out V α} {g : α → W V → Out V Res} (u : Uses w k x) (hg : ∀ a w', Uses w' 0 (g a w')) : Uses w k (x.bind g) := u.bind (m := 0) hg

/-- `advance` as part of `begin()` and `++it`. -/
theorem ends_advance {w w0 : W V} {o : Op V} {i : Nat} {it : It} {ch : Chan} {g : Unit → W V → Out V Res} (hi : w0.it? i = some it) (hc : w0.chan? it.chan = some ch) (hf : w0.faults = w.faults)
    (hb : Blocks w o ↔ ch.closed = false ∧ ch.buf = []) (hn : Nothrow w o ↔ ∃ cap, ch.kind = .queue cap) (hcost : cost w o = if ch.buf = [] then 0 else 3)
    (hg : ∀ w', ∃ r w'', g () w' = .ok r w'') (u : W V → W V) : Ends w o (((advance i w0).unwind fun w => .ok () (u w)).bind g) := by
  have hg0 : ∀ w' : W V, ∃ r w'', g () w' = .ok r w'' := hg
  unfold advance legal
  rw [hi]; dsimp only
  rw [hc]; dsimp only
  unfold pop legal
  rw [hc]; dsimp only
  by_cases hw : ch.buf = [] ∧ ch.closed = false
  · rw [if_pos hw]
    exact .waits (hb.2 ⟨hw.2, hw.1⟩)
  · rw [if_neg hw]
    have hb' : ¬ Blocks w o := fun h => hw ⟨(hb.1 h).2, (hb.1 h).1⟩
    have h := uses_take (k := 0) (m := 1) it.chan ch w0 (assignBuf i it.buf) (uses_assign_none i it.buf) (uses_assign_some i it.buf)
    have h' : Uses w (cost w o) ((take it.chan ch w0).bind fun r w => assignBuf i it.buf r w) := by rw [hcost]; exact .of hf h
    generalize ((take it.chan ch w0).bind fun r w => assignBuf i it.buf r w) = out at h'
    cases out with
    | ok r w' =>
      obtain ⟨r2, w2, h2⟩ := hg0 w'
      dsimp only [guardNoexcept, Out.unwind, Out.bind]
      rw [h2]
      exact .ok hb' h'.1
    | threw w' =>
      dsimp only [guardNoexcept]
      cases hk : ch.kind with
      | queue cap => exact .terminated hb' (hn.2 ⟨cap, hk⟩) h'
      | exch => exact .threw hb' (fun h => by obtain ⟨cap, h⟩ := hn.1 h; rw [hk] at h; cases h) h'
    | ub => exact .ub
    | _ => exact h'.elim

theorem chan?_its {w : W V} (l : List (Option It)) (c : Nat) : W.chan? { w with its := l } c = w.chan? c := rfl

theorem ends_step (w : W V) (o : Op V) : Ends w o (step w o) := by
  cases o with
  | newChan k => exact .ok (fun h => h) (by simp [cost])
  | create v => exact Uses.ends (fun h => h) (fun h => h) (uses_res (uses_make v w) fun a w' => .none rfl)
  | drop i =>
    simp only [step]
    split
    · exact Uses.ends (fun h => h) (fun h => h) (uses_res (.of rfl (uses_dtor _ _)) fun a w' => .none rfl)
    · exact .illegal
  | push c a =>
    simp only [step]
    split
    · unfold push legal
      cases hc : w.chan? c with
      | none => exact .illegal
      | some ch =>
        dsimp only
        cases hcl : ch.closed with
        | true =>
          refine .ok ?_ ?_
          · rintro ⟨ch', cap, h1, h2, _⟩
            rw [hc] at h1; cases h1; rw [hcl] at h2; cases h2
          · simp [cost, takesElem, hc, hcl]
        | false =>
          simp only [Bool.false_eq_true, if_false]
          cases hfu : ch.full with
          | true =>
            refine .waits ?_
            unfold Chan.full at hfu
            cases hk : ch.kind with
            | queue cap => rw [hk] at hfu; exact ⟨ch, cap, hc, hcl, hk, by simpa using hfu⟩
            | exch => rw [hk] at hfu; cases hfu
          | false =>
            simp only [Bool.false_eq_true, if_false]
            have hcost : cost w (.push c a) = 1 := by
              unfold Chan.full at hfu
              cases hk : ch.kind with
              | queue cap => rw [hk] at hfu; simp only [decide_eq_false_iff_not, Nat.not_le] at hfu; simp [cost, takesElem, hc, hcl, hk, hfu]
              | exch => simp [cost, takesElem, hc, hcl, hk]
            refine Uses.ends ?_ (fun h => h) ?_
            · rintro ⟨ch', cap, h1, _, h3, h4⟩
              rw [hc] at h1; cases h1
              simp [Chan.full, h3] at hfu
              omega
            · rw [hcost]
              rw [bind_bind]
              exact uses_res (uses_withLock (uses_store c ch a) w) fun _ w' => .none rfl
    · exact .illegal
  | tryPush c a =>
    simp only [step]
    split
    · unfold tryPush legal
      cases hc : w.chan? c with
      | none => exact .illegal
      | some ch =>
        dsimp only
        split
        · exact .illegal
        · rename_i hne
          cases hcl : ch.closed with
          | true => exact .ok (fun h => h) (by simp [cost, takesElem, hc, hcl])
          | false =>
            simp only [Bool.false_eq_true, if_false]
            refine Uses.ends (fun h => h) (fun h => h) (uses_res ?_ fun _ w' => .none rfl)
            cases hk : ch.kind with
            | exch => exact absurd hk hne
            | queue cap =>
              refine uses_withLock (fun w' => ?_) w
              by_cases hfu : cap ≤ ch.buf.length
              · have hfull : ch.full = true := by simp [Chan.full, hk, hfu]
                rw [if_pos hfull]
                simp only [cost, takesElem, hc, hcl, hk]
                rw [if_neg (by simp; omega)]
                exact .none rfl
              · have hfull : ¬ ch.full = true := by simp [Chan.full, hk]; omega
                rw [if_neg hfull]
                simp only [cost, takesElem, hc, hcl, hk]
                rw [if_pos (by simp; omega)]
                exact (uses_store c ch a w').bind (m := 0) fun _ w' => .none rfl
    · exact .illegal
  | pop c =>
    simp only [step]
    unfold pop legal
    cases hc : w.chan? c with
    | none => exact .illegal
    | some ch =>
      dsimp only
      by_cases hw : ch.buf = [] ∧ ch.closed = false
      · rw [if_pos hw]; exact .waits ⟨ch, hc, hw.2, hw.1⟩
      · rw [if_neg hw]
        refine Uses.ends ?_ (fun h => h) ?_
        · rintro ⟨ch', h1, h2, h3⟩
          rw [hc] at h1; cases h1; exact hw ⟨h3, h2⟩
        · have := uses_take (k := 0) (m := 0) c ch w (fun r w => Out.ok (Res.val r) { w with mine := r.toList ++ w.mine }) (fun w' => .none rfl) (fun r w' => .none rfl)
          have hcost : cost w (.pop c) = if ch.buf = [] then 0 else 2 + 0 := by simp only [cost, hasElem, hc]; by_cases h : ch.buf = [] <;> simp [h]
          rw [hcost]; exact this
  | tryPop c =>
    simp only [step]
    unfold tryPop legal
    cases hc : w.chan? c with
    | none => exact .illegal
    | some ch =>
      dsimp only
      refine Uses.ends (fun h => h) (fun h => h) ?_
      have := uses_take (k := 0) (m := 0) c ch w (fun r w => Out.ok (Res.val r) { w with mine := r.toList ++ w.mine }) (fun w' => .none rfl) (fun r w' => .none rfl)
      have hcost : cost w (.tryPop c) = if ch.buf = [] then 0 else 2 + 0 := by simp only [cost, hasElem, hc]; by_cases h : ch.buf = [] <;> simp [h]
      rw [hcost]; exact this
  | close c =>
    simp only [step]; unfold legal
    cases w.chan? c with
    | none => exact .illegal
    | some ch => exact .ok (fun h => h) (by simp [cost])
  | dropChan c =>
    simp only [step]; unfold legal
    cases w.chan? c with
    | none => exact .illegal
    | some ch => exact Uses.ends (fun h => h) (fun h => h) (uses_res (.of rfl (uses_dtors _ _)) fun _ w' => .none rfl)
  | begin_ c =>
    simp only [step]
    cases hc : w.chan? c with
    | none =>
      have : begin_ c w = .illegal := by
        unfold begin_ advance legal
        rw [it?_of (it := ⟨c, none⟩) (by simp)]; dsimp only
        rw [chan?_its, hc]; rfl
      rw [this]; exact .illegal
    | some ch =>
      unfold begin_
      refine ends_advance (w := w) (i := w.its.length) (w0 := { w with its := w.its ++ [some ⟨c, none⟩] }) (g := fun _ w => .ok .unit w) (it := ⟨c, none⟩) (ch := ch) (it?_of (by simp)) hc rfl ?_ ?_ ?_ (fun w' => ⟨_, _, rfl⟩) W.dropLast
      · simp [Blocks, hc]
      · simp [Nothrow, hc]
      · simp only [cost, hasElem, hc]; by_cases h : ch.buf = [] <;> simp [h]
  | inc i =>
    simp only [step]
    have hun : advance i w = (advance i w).unwind fun w => .ok () w := by cases advance i w <;> rfl
    cases hi : w.it? i with
    | none => unfold advance legal; rw [hi]; exact .illegal
    | some it =>
      cases hc : w.chan? it.chan with
      | none => unfold advance legal; rw [hi]; dsimp only; rw [hc]; exact .illegal
      | some ch =>
        rw [hun]
        refine ends_advance (it := it) (ch := ch) hi hc rfl ?_ ?_ ?_ (fun w' => ⟨_, _, rfl⟩) id
        · simp [Blocks, hi, hc]
        · simp [Nothrow, hi, hc]
        · simp only [cost, hasElem, hi, hc]; by_cases h : ch.buf = [] <;> simp [h]
  | itTake i =>
    simp only [step]; unfold itTake legal
    cases w.it? i with
    | none => exact .illegal
    | some it =>
      dsimp only
      cases it.buf with
      | none => exact .illegal
      | some b => exact Uses.ends (fun h => h) (fun h => h) (uses_res (uses_moveC b w) fun _ w' => .none rfl)
  | itCopy j =>
    simp only [step]; unfold itCopy legal
    cases hj : w.it? j with
    | none => exact .illegal
    | some it =>
      dsimp only
      rw [bind_bind]
      refine Uses.ends (fun h => h) (fun h => h) (uses_res ?_ fun _ w' => .none rfl)
      have := uses_copyBuf it.buf w
      simp only [cost, hasBuf, hj]
      cases hb : it.buf <;> simpa [hb] using this
  | itMove j =>
    simp only [step]; unfold itMove legal
    cases hj : w.it? j with
    | none => exact .illegal
    | some it =>
      dsimp only
      rw [bind_bind]
      refine Uses.ends (fun h => h) (fun h => h) (uses_res ?_ fun _ w' => .none rfl)
      have := uses_moveBuf it.buf w
      simp only [cost, hasBuf, hj]
      cases hb : it.buf <;> simpa [hb] using this
  | itCopyAssign i j =>
    simp only [step]; unfold itCopyAssign legal
    cases hi : w.it? i with
    | none => exact .illegal
    | some a =>
      dsimp only
      cases hj : w.it? j with
      | none => exact .illegal
      | some b =>
        dsimp only
        refine Uses.ends (fun h => h) (fun h => h) (uses_res ?_ fun _ w' => .none rfl)
        by_cases hij : i = j
        · rw [if_pos hij]; simp only [cost]; rw [if_neg (by simp [hij])]; exact .none rfl
        · rw [if_neg hij]
          have := uses_copyAssignBuf i a.buf b.buf (w.setItChan i b.chan)
          refine .of (w' := w.setItChan i b.chan) rfl ?_
          simp only [cost, hasBuf, hj]
          cases hb : b.buf <;> simpa [hb, hij] using this
  | itMoveAssign i j =>
    simp only [step]; unfold itMoveAssign legal
    cases hi : w.it? i with
    | none => exact .illegal
    | some a =>
      dsimp only
      cases hj : w.it? j with
      | none => exact .illegal
      | some b =>
        dsimp only
        by_cases hij : i = j
        · rw [if_pos hij]; exact .illegal
        · rw [if_neg hij]
          refine Uses.ends (fun h => h) (fun h => h) (uses_res ?_ fun _ w' => .none rfl)
          have := uses_swapBuf i j a.buf b.buf ((w.setItChan i b.chan).setItChan j a.chan)
          refine .of (w' := (w.setItChan i b.chan).setItChan j a.chan) rfl ?_
          simp only [cost, hasBuf, hi, hj]
          cases ha : a.buf <;> cases hb : b.buf <;> simpa [ha, hb] using this
  | itDestroy i =>
    simp only [step]; unfold itDestroy legal
    cases w.it? i with
    | none => exact .illegal
    | some it => exact Uses.ends (fun h => h) (fun h => h) (uses_res (.of rfl (uses_dtors _ _)) fun _ w' => .none rfl)

/-- After any history, with any element operations throwing: no call that is allowed uses a destroyed object; a call waits exactly if `Blocks`; otherwise it returns exactly if none of the `cost` next
element operations throws; and if one does, the exception comes out of the call, or, for `begin()` and `++it` of `channel`, it ends the program. -/
theorem call_ends {fs : List Fault} {os : List (Op V)} {w : W V} (h : run (init fs) os = .ok () w) (o : Op V) (hl : step w o ≠ .illegal) :
    step w o ≠ .ub ∧
    (step w o = .waits ↔ Blocks w o) ∧
    ((∃ r w', step w o = .ok r w') ↔ ¬ Blocks w o ∧ ∀ f ∈ w.faults.take (cost w o), f = .ok) ∧
    ((∃ w', step w o = .threw w') ↔ ¬ Blocks w o ∧ ¬ Nothrow w o ∧ ∃ f ∈ w.faults.take (cost w o), f ≠ .ok) ∧
    (step w o = .terminated ↔ ¬ Blocks w o ∧ Nothrow w o ∧ ∃ f ∈ w.faults.take (cost w o), f ≠ .ok) := by
  have hub : step w o ≠ .ub := by
    intro hs
    refine elements_no_ub fs (os ++ [o]) ?_
    have : ∀ (l : List (Op V)) (v : W V), run v l = .ok () w → run v (l ++ [o]) = .ub := by
      intro l
      induction l with
      | nil => intro v hv; simp only [run, Out.ok.injEq, true_and] at hv; subst hv; simp [run, hs]
      | cons a l ih =>
        intro v hv
        simp only [List.cons_append, run] at hv ⊢
        split at hv <;> first | exact ih _ hv | cases hv
    exact this os _ h
  have he := ends_step w o
  generalize step w o = out at hl hub he
  cases he with
  | illegal => exact absurd rfl hl
  | ub => exact absurd rfl hub
  | waits hb => simp [hb]
  | ok hb hf => simp only [hb]; simp; exact ⟨hf, fun _ => hf, fun _ => hf⟩
  | threw hb hn hf => obtain ⟨f, h1, h2⟩ := hf; simp [hb, hn]; exact ⟨f, h1, h2⟩
  | terminated hb hn hf => obtain ⟨f, h1, h2⟩ := hf; simp [hb, hn]; exact ⟨f, h1, h2⟩

/-- Which fault of the next three it is: the queue holds an element, the third element operation of `begin()` throws. -/
example : ∃ w, run (init [.ok, .ok, .ok, .intact]) [.newChan (.queue 2), .push 0 (.args (6 : Nat))] = .ok () w ∧ cost w (.begin_ 0) = 3 ∧ step w (.begin_ 0) = .terminated :=
  ⟨_, rfl, rfl, rfl⟩
-- the same for an `exchange_channel`
example : ∃ w w', run (init [.ok, .ok, .ok, .intact]) [.newChan .exch, .push 0 (.args (6 : Nat))] = .ok () w ∧ step w (.begin_ 0) = .threw w' ∧ step w (.begin_ 0) ≠ .illegal :=
  ⟨_, _, rfl, rfl, nofun⟩
-- a third operation is not reached by `pop`
example : ∃ w r w', run (init [.ok, .ok, .ok, .intact]) [.newChan (.queue 2), .push 0 (.args (6 : Nat))] = .ok () w ∧ step w (.pop 0) = .ok r w' :=
  ⟨_, _, _, rfl, rfl⟩
-- an open channel without elements
example : ∃ w : W Nat, run (init []) [.newChan (.queue 2)] = .ok () w ∧ Blocks w (.begin_ 0) ∧ ¬ Blocks w (.push 0 (.args 3)) ∧ takesElem w 0 = true :=
  ⟨_, rfl, ⟨_, rfl, rfl, rfl⟩, by rintro ⟨ch, cap, h1, -, h3, h4⟩; cases h1; cases h3; exact absurd h4 (by decide), rfl⟩

-- with an exception in `++it` of an iterator of `channel`
example : run (init [.ok, .ok, .ok, .ok, .ok, .ok, .ok, .ok, .ok, .gutted]) demo = .terminated := by rfl

end Verif.Elements
