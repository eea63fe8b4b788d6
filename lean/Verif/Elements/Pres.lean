import Verif.Elements.Lemmas

/-!
Invariants of the objects and of the record of operations that every element operation keeps are kept by every operation of a program.
-/
namespace Verif.Elements

variable {V α β : Type}

/-- `P` holds afterwards, if the program goes on (for channel.hpp:58-282, exchange_channel.hpp:53-222). -/
def Pr (o : Out V α) (P : W V → Prop) : Prop :=
  match o with
  | .ok _ w => P w
  | .threw w => P w
  | _ => True

theorem Pr.bind {o : Out V α} {P Q : W V → Prop} {f : α → W V → Out V β} (h : Pr o P) (hq : ∀ w, P w → Q w) (hf : ∀ a w, P w → Pr (f a w) Q) : Pr (o.bind f) Q := by
  cases o with
  | ok a w => exact hf a w h
  | threw w => exact hq w h
  | _ => trivial

theorem Pr.unwind {o : Out V α} {P Q : W V → Prop} {f : W V → Out V Unit} (h : Pr o P) (hq : ∀ w, P w → Q w) (hf : ∀ w, P w → Pr (f w) Q) : Pr (o.unwind f) Q := by
  cases o with
  | ok a w => exact hq w h
  | threw w => exact Pr.bind (hf w h) (fun _ h => h) fun _ _ h => h
  | _ => trivial

theorem Pr.legal {o : Option α} {f : α → Out V β} {P : W V → Prop} (h : ∀ a, o = some a → Pr (f a) P) : Pr (Elements.legal o f) P := by
  cases o with
  | none => trivial
  | some a => exact h a rfl

theorem Pr.guard {k : Kind} {o : Out V α} {P : W V → Prop} (h : Pr o P) : Pr (guardNoexcept k o) P := by
  cases o with
  | threw w => cases k <;> first | trivial | exact h
  | ok a w => exact h
  | _ => trivial

/-- Kept by element operations, and independent of who owns what (for channel.hpp:58-282, exchange_channel.hpp:53-222). -/
structure Closed (I : W V → Prop) : Prop where
  make : ∀ v w, I w → Pr (make v w) I
  copyC : ∀ i w, I w → Pr (copyC i w) I
  moveC : ∀ i w, I w → Pr (moveC i w) I
  copyA : ∀ i j w, I w → Pr (copyA i j w) I
  moveA : ∀ i j w, I w → Pr (moveA i j w) I
  dtor : ∀ i w, I w → Pr (dtor i w) I
  frame : ∀ w b cs m its, I w → I { w with locked := b, chans := cs, mine := m, its := its }

section
variable {I : W V → Prop} (hI : Closed I)
include hI

theorem Closed.lock {w : W V} (h : I w) : I w.lock := hI.frame w true w.chans w.mine w.its h
theorem Closed.unlock {w : W V} (h : I w) : I w.unlock := hI.frame w false w.chans w.mine w.its h
theorem Closed.setBuf {w : W V} (h : I w) (c : Nat) (b : List Nat) : I (w.setBuf c b) := hI.frame w w.locked _ w.mine w.its h
theorem Closed.setItBuf {w : W V} (h : I w) (i : Nat) (b : Option Nat) : I (w.setItBuf i b) := hI.frame w w.locked w.chans w.mine _ h
theorem Closed.setItChan {w : W V} (h : I w) (i c : Nat) : I (w.setItChan i c) := hI.frame w w.locked w.chans w.mine _ h
theorem Closed.mine {w : W V} (h : I w) (m : List Nat) : I { w with mine := m } := hI.frame w w.locked w.chans m w.its h
theorem Closed.its {w : W V} (h : I w) (l : List (Option It)) : I { w with its := l } := hI.frame w w.locked w.chans w.mine l h
theorem Closed.chans {w : W V} (h : I w) (l : List Chan) : I { w with chans := l } := hI.frame w w.locked l w.mine w.its h

theorem Closed.dtors : ∀ (B : List Nat) (w : W V), I w → Pr (dtors B w) I
  | [], _, h => h
  | i :: is, w, h => (hI.dtor i w h).bind (fun _ h => h) fun _ w h => Closed.dtors is w h

theorem Closed.withLock {p : W V → Out V α} {w : W V} (h : Pr (p w.lock) I) : Pr (withLock p w) I :=
  (h.unwind (f := fun w => .ok () w.unlock) (fun _ h => h) fun _ h => hI.unlock h).bind (fun _ h => h) fun _ _ h => hI.unlock h

theorem Closed.construct (a : Arg V) (w : W V) (h : I w) : Pr (construct a w) I := by
  cases a with
  | copy i => exact hI.copyC i w h
  | move i => exact hI.moveC i w h
  | args v => exact hI.make v w h

theorem Closed.store (c : Nat) (ch : Chan) (a : Arg V) (w : W V) (h : I w) : Pr (store c ch a w) I := by
  unfold Elements.store
  split
  · exact (hI.construct a w h).bind (fun _ h => h) fun n w h => hI.setBuf h _ _
  · exact (hI.dtors _ _ (hI.setBuf h _ _)).bind (fun _ h => h) fun _ w h =>
      (hI.construct a w h).bind (fun _ h => h) fun n w h => hI.setBuf h _ _

theorem Closed.push (c : Nat) (a : Arg V) (w : W V) (h : I w) : Pr (push c a w) I := by
  refine Pr.legal fun ch _ => ?_
  split
  · exact h
  · split
    · trivial
    · exact (hI.withLock (hI.store c ch a _ (hI.lock h))).bind (fun _ h => h) fun _ _ h => h

theorem Closed.tryPush (c : Nat) (a : Arg V) (w : W V) (h : I w) : Pr (tryPush c a w) I := by
  refine Pr.legal fun ch _ => ?_
  split
  · trivial
  · split
    · exact h
    · refine hI.withLock ?_
      split
      · exact hI.lock h
      · exact (hI.store c ch a _ (hI.lock h)).bind (fun _ h => h) fun _ _ h => h

theorem Closed.tmp (t : Nat) (w : W V) (h : I w) : Pr ((Elements.moveC t w).unwind (Elements.dtor t)) I :=
  (hI.moveC t w h).unwind (fun _ h => h) fun w h => hI.dtor t w h

theorem Closed.take (c : Nat) (ch : Chan) (w : W V) (h : I w) : Pr (take c ch w) I := by
  unfold Elements.take
  split
  · exact h
  · refine Pr.bind (P := I) ?_ (fun _ h => h) fun _ _ h => h
    unfold takeFront
    refine Pr.bind ((hI.moveC _ _ (hI.lock h)).unwind (fun _ h => h) fun _ h => hI.unlock h) (fun _ h => h) fun _ w h => ?_
    refine Pr.bind (hI.dtor _ _ (hI.setBuf h _ _)) (fun _ h => h) fun _ w h => ?_
    refine Pr.bind (hI.tmp _ _ (hI.unlock h)) (fun _ h => h) fun _ w h => ?_
    exact Pr.bind (hI.dtor _ _ h) (fun _ h => h) fun _ w h => h
  · refine Pr.bind (P := I) ?_ (fun _ h => h) fun _ _ h => h
    refine hI.withLock ?_
    refine Pr.bind (hI.moveC _ _ (hI.lock h)) (fun _ h => h) fun _ w h => ?_
    refine Pr.bind (hI.dtor _ _ (hI.setBuf h _ _)) (fun _ h => h) fun _ w h => ?_
    refine Pr.bind (hI.tmp _ _ h) (fun _ h => h) fun _ w h => ?_
    exact Pr.bind (hI.dtor _ _ h) (fun _ h => h) fun _ w h => h

theorem Closed.pop (c : Nat) (w : W V) (h : I w) : Pr (pop c w) I := by
  refine Pr.legal fun ch _ => ?_
  split
  · trivial
  · exact hI.take c ch w h

theorem Closed.assignBuf (i : Nat) (b r : Option Nat) (w : W V) (h : I w) : Pr (assignBuf i b r w) I := by
  unfold Elements.assignBuf
  split
  · exact h
  · exact Pr.bind (hI.dtor _ _ (hI.setItBuf h _ _)) (fun _ h => h) fun _ _ h => h
  · exact Pr.bind (hI.tmp _ _ h) (fun _ h => h) fun n w h => hI.dtor _ _ (hI.setItBuf h _ _)
  · exact Pr.bind ((hI.moveA _ _ _ h).unwind (fun _ h => h) fun w h => hI.dtor _ _ h) (fun _ h => h) fun n w h => hI.dtor _ _ h

theorem Closed.advance (i : Nat) (w : W V) (h : I w) : Pr (advance i w) I :=
  Pr.legal fun it _ => Pr.legal fun _ _ => Pr.guard ((hI.pop it.chan w h).bind (fun _ h => h) fun r w h => hI.assignBuf i it.buf r w h)

theorem Closed.swapBuf (i j : Nat) (a b : Option Nat) (w : W V) (h : I w) : Pr (swapBuf i j a b w) I := by
  unfold Elements.swapBuf
  split
  · exact h
  · exact (hI.moveC _ _ h).bind (fun _ h => h) fun n w h => hI.dtor _ _ (hI.setItBuf (hI.setItBuf h _ _) _ _)
  · exact (hI.moveC _ _ h).bind (fun _ h => h) fun n w h => hI.dtor _ _ (hI.setItBuf (hI.setItBuf h _ _) _ _)
  · exact (hI.moveC _ _ h).bind (fun _ h => h) fun t w h =>
      Pr.bind (Pr.unwind ((hI.moveA _ _ _ h).bind (fun _ h => h) fun _ w h => hI.moveA _ _ w h) (fun _ h => h) fun w h => hI.dtor t w h) (fun _ h => h) fun _ w h => hI.dtor _ _ h

theorem Closed.step (w : W V) (h : I w) (o : Op V) : Pr (step w o) I := by
  cases o with
  | newChan k => exact hI.chans h _
  | create v => exact (hI.make v w h).bind (fun _ h => h) fun n w h => hI.mine h _
  | drop i =>
    simp only [Elements.step]
    split
    · exact (hI.dtor i _ (hI.mine h _)).bind (fun _ h => h) fun _ w h => h
    · trivial
  | push c a =>
    simp only [Elements.step]
    split
    · exact (hI.push c a w h).bind (fun _ h => h) fun _ w h => h
    · trivial
  | tryPush c a =>
    simp only [Elements.step]
    split
    · exact (hI.tryPush c a w h).bind (fun _ h => h) fun _ w h => h
    · trivial
  | pop c => exact (hI.pop c w h).bind (fun _ h => h) fun r w h => hI.mine h _
  | tryPop c => exact Pr.bind (P := I) (Pr.legal fun ch _ => hI.take c ch w h) (fun _ h => h) fun r w h => hI.mine h _
  | close c => exact Pr.legal fun _ _ => hI.chans h _
  | dropChan c => exact Pr.legal fun ch _ => (hI.dtors _ _ (hI.chans h _)).bind (fun _ h => h) fun _ w h => h
  | begin_ c =>
    refine Pr.bind (P := I) ?_ (fun _ h => h) fun _ w h => h
    exact (hI.advance _ _ (hI.its h _)).unwind (fun _ h => h) fun w h => hI.its h _
  | inc i => exact (hI.advance i w h).bind (fun _ h => h) fun _ w h => h
  | itTake i => exact Pr.bind (P := I) (Pr.legal fun it _ => Pr.legal fun b _ => hI.moveC b w h) (fun _ h => h) fun r w h => hI.mine h _
  | itCopy i =>
    refine Pr.bind (P := I) (Pr.legal fun it _ => Pr.bind (P := I) ?_ (fun _ h => h) fun b w h => hI.its h _) (fun _ h => h) fun _ w h => h
    unfold copyBuf
    split
    · exact h
    · exact (hI.copyC _ _ h).bind (fun _ h => h) fun _ w h => h
  | itMove i =>
    refine Pr.bind (P := I) (Pr.legal fun it _ => Pr.bind (P := I) ?_ (fun _ h => h) fun b w h => hI.its h _) (fun _ h => h) fun _ w h => h
    unfold moveBuf
    split
    · exact h
    · exact (hI.moveC _ _ h).bind (fun _ h => h) fun _ w h => h
  | itCopyAssign i j =>
    refine Pr.bind (P := I) (Pr.legal fun a _ => Pr.legal fun b _ => ?_) (fun _ h => h) fun _ w h => h
    split
    · exact h
    · have h' := hI.setItChan h i b.chan
      unfold copyAssignBuf
      split
      · exact h'
      · exact (hI.dtor _ _ (hI.setItBuf h' _ _)).bind (fun _ h => h) fun _ _ h => h
      · exact (hI.copyC _ _ h').bind (fun _ h => h) fun n w h => hI.setItBuf h _ _
      · exact hI.copyA _ _ _ h'
  | itMoveAssign i j =>
    refine Pr.bind (P := I) (Pr.legal fun a _ => Pr.legal fun b _ => ?_) (fun _ h => h) fun _ w h => h
    split
    · trivial
    · exact hI.swapBuf _ _ _ _ _ (hI.setItChan (hI.setItChan h _ _) _ _)
  | itDestroy i => exact Pr.bind (P := I) (Pr.legal fun it _ => hI.dtors _ _ (hI.its h _)) (fun _ h => h) fun _ w h => h

end

/-! ### Shape of the channels, and the mutex -/

/-- The channels and whether the mutex is held (for channel.hpp:58-282, exchange_channel.hpp:53-222). -/
def Kp (w : W V) (cs : List Chan) (b : Bool) : Prop := w.chans = cs ∧ w.locked = b

theorem elem_kp {cs : List Chan} {b : Bool} : ∀ {w : W V}, Kp w cs b → (∀ v, Pr (make v w) fun w' => Kp w' cs b) ∧ (∀ i, Pr (copyC i w) fun w' => Kp w' cs b) ∧
    (∀ i, Pr (moveC i w) fun w' => Kp w' cs b) ∧ (∀ i j, Pr (copyA i j w) fun w' => Kp w' cs b) ∧ (∀ i j, Pr (moveA i j w) fun w' => Kp w' cs b) ∧
    ∀ i, Pr (dtor i w) fun w' => Kp w' cs b := by
  intro w h
  have hg : ∀ i x f (w : W V), Kp w cs b → Kp (gut i x f w) cs b := by intro i x f w h; unfold gut; split <;> exact h
  have ho : ∀ y (w : W V), Kp w cs b → Kp (overwrite y w) cs b := by intro y w h; unfold overwrite; split <;> exact h
  refine ⟨fun v => ?_, fun i => ?_, fun i => ?_, fun i j => ?_, fun i j => ?_, fun i => ?_⟩
  · unfold make; dsimp only; split <;> exact h
  · unfold copyC; dsimp only
    split
    · split <;> exact h
    · trivial
  · unfold moveC; dsimp only
    split
    · split
      · exact h
      · exact hg _ _ _ _ h
    · trivial
  · unfold copyA; dsimp only
    split
    · split
      · exact ho _ { w with faults := _, cells := _ } h
      · exact h
    · trivial
  · unfold moveA; dsimp only
    split
    · split
      · exact ho _ { w with faults := _, cells := _ } h
      · exact hg _ _ _ _ h
    · trivial
  · unfold dtor
    split
    · exact h
    · trivial

theorem dtors_kp {cs : List Chan} {b : Bool} : ∀ (B : List Nat) {w : W V}, Kp w cs b → Pr (dtors B w) fun w' => Kp w' cs b
  | [], _, h => h
  | i :: is, _, h => ((elem_kp h).2.2.2.2.2 i).bind (fun _ h => h) fun _ _ h => dtors_kp is h

theorem construct_kp {cs : List Chan} {b : Bool} (a : Arg V) {w : W V} (h : Kp w cs b) : Pr (construct a w) fun w' => Kp w' cs b := by
  cases a with
  | copy i => exact (elem_kp h).2.1 i
  | move i => exact (elem_kp h).2.2.1 i
  | args v => exact (elem_kp h).1 v

/-- Exchange channels have at most one element, and channels that are gone have none (for channel.hpp:58-282, exchange_channel.hpp:53-222). -/
def Shape (cs : List Chan) : Prop := ∀ c ∈ cs, (c.kind = .exch → c.buf.length ≤ 1) ∧ (c.gone = true → c.buf = [])

theorem shape_modify {cs : List Chan} (h : Shape cs) {c : Nat} {g : Chan → Chan}
    (hg : ∀ ch, cs[c]? = some ch → ((g ch).kind = .exch → (g ch).buf.length ≤ 1) ∧ ((g ch).gone = true → (g ch).buf = [])) : Shape (cs.modify c g) := by
  intro x hx
  obtain ⟨n, hn⟩ := List.getElem?_of_mem hx
  rw [List.getElem?_modify] at hn
  cases hc : cs[n]? with
  | none => rw [hc] at hn; cases hn
  | some y =>
    rw [hc] at hn
    by_cases hcn : c = n
    · subst hcn
      simp at hn; subst hn
      exact hg y hc
    · simp [hcn] at hn; subst hn
      exact h y (List.mem_of_getElem? hc)

theorem shape_setBuf {w : W V} (h : Shape w.chans) {c : Nat} {ch : Chan} (hc : w.chans[c]? = some ch) (hg : ch.gone = false) {b : List Nat} (hb : ch.kind = .exch → b.length ≤ 1) :
    Shape (w.setBuf c b).chans :=
  shape_modify h fun ch' h' => by
    rw [hc] at h'; injection h' with h'; subst h'
    exact ⟨hb, fun h => by dsimp only at h; rw [hg] at h; cases h⟩

theorem store_shape {c : Nat} {ch : Chan} {w : W V} (hc : w.chans[c]? = some ch) (hg : ch.gone = false) (h : Shape w.chans) (a : Arg V) :
    Pr (store c ch a w) fun w' => Shape w'.chans := by
  unfold store
  split
  · rename_i cap hk
    refine (construct_kp a (w := w) ⟨rfl, rfl⟩).bind (fun w' e => by rw [e.1]; exact h) fun n w' e => ?_
    exact shape_setBuf (by rw [e.1]; exact h) (by rw [e.1]; exact hc) hg fun h => by rw [hk] at h; cases h
  · have h0 : Shape (w.setBuf c ([] : List Nat)).chans := shape_setBuf h hc hg fun _ => by simp
    refine (dtors_kp ch.buf (w := w.setBuf c []) ⟨rfl, rfl⟩).bind (fun w' e => by rw [e.1]; exact h0) fun _ w' e => ?_
    refine (construct_kp a e).bind (fun w' e => by rw [e.1]; exact h0) fun n w' e => ?_
    exact shape_setBuf (ch := { ch with buf := [] }) (by rw [e.1]; exact h0) (by rw [e.1]; exact setBuf_chan hc []) hg fun _ => by simp

/-- The channels are in order and the mutex is free (for channel.hpp:58-282, exchange_channel.hpp:53-222). -/
def Fine (w : W V) : Prop := Shape w.chans ∧ w.locked = false

theorem withLock_fine {p : W V → Out V α} {w : W V} (h : Pr (p w.lock) fun w => Shape w.chans) : Pr (withLock p w) Fine := by
  unfold withLock
  cases hp : p w.lock with
  | ok a w => rw [hp] at h; exact ⟨h, rfl⟩
  | threw w => rw [hp] at h; exact ⟨h, rfl⟩
  | _ => trivial

theorem tmp_kp {cs : List Chan} {b : Bool} (t : Nat) {w : W V} (h : Kp w cs b) : Pr ((moveC t w).unwind (dtor t)) fun w' => Kp w' cs b :=
  ((elem_kp h).2.2.1 t).unwind (fun _ h => h) fun _ h => (elem_kp h).2.2.2.2.2 t

theorem take_fine {c : Nat} {ch : Chan} {w : W V} (hc : w.chans[c]? = some ch) (hg : ch.gone = false) (h : Fine w) : Pr (take c ch w) Fine := by
  unfold take
  split
  · exact h
  · rename_i f rest hk hb
    refine Pr.bind (P := Fine) ?_ (fun _ h => h) fun _ _ h => h
    have h0 : Shape (w.setBuf c rest).chans := shape_setBuf h.1 hc hg fun h => by rw [hk] at h; cases h
    unfold takeFront
    have h1 := (elem_kp (w := w.lock) (cs := w.chans) (b := true) ⟨rfl, rfl⟩).2.2.1 f
    cases hm : moveC f w.lock with
    | ok t w1 =>
      rw [hm] at h1
      have e1 : (w1.setBuf c rest).chans = (w.setBuf c rest).chans := by unfold W.setBuf; dsimp only; rw [h1.1]
      dsimp only [Out.unwind, Out.bind]
      have h2 := (elem_kp (w := w1.setBuf c rest) (b := true) ⟨e1, h1.2⟩).2.2.2.2.2 f
      cases hd : dtor f (w1.setBuf c rest) with
      | ok _ w2 =>
        rw [hd] at h2
        refine Pr.bind (tmp_kp t (w := w2.unlock) (b := false) ⟨h2.1, rfl⟩) (fun w e => ⟨by rw [e.1]; exact h0, e.2⟩) fun r w3 e3 => ?_
        exact ((elem_kp e3).2.2.2.2.2 t).bind (fun w e => ⟨by rw [e.1]; exact h0, e.2⟩) fun _ w4 e4 => ⟨by rw [e4.1]; exact h0, e4.2⟩
      | threw w2 => unfold dtor at hd; split at hd <;> cases hd
      | _ => trivial
    | threw w1 =>
      rw [hm] at h1
      exact ⟨by show Shape w1.chans; rw [h1.1]; exact h.1, rfl⟩
    | _ => trivial
  · rename_i f rest hk hb
    refine Pr.bind (P := Fine) ?_ (fun _ h => h) fun _ _ h => h
    have h0 : Shape (w.setBuf c ([] : List Nat)).chans := shape_setBuf h.1 hc hg fun h => by simp
    refine withLock_fine ?_
    refine ((elem_kp (w := w.lock) (cs := w.chans) (b := true) ⟨rfl, rfl⟩).2.2.1 f).bind (fun w1 e => by rw [e.1]; exact h.1) fun t w1 e1 => ?_
    have e1' : (w1.setBuf c ([] : List Nat)).chans = (w.setBuf c []).chans := by unfold W.setBuf; dsimp only; rw [e1.1]
    refine ((elem_kp (w := w1.setBuf c []) (b := true) ⟨e1', e1.2⟩).2.2.2.2.2 f).bind (fun w e => by rw [e.1]; exact h0) fun _ w2 e2 => ?_
    refine (tmp_kp t e2).bind (fun w e => by rw [e.1]; exact h0) fun r w3 e3 => ?_
    exact ((elem_kp e3).2.2.2.2.2 t).bind (fun w e => by rw [e.1]; exact h0) fun _ w4 e4 => by
      show Shape w4.chans; rw [e4.1]; exact h0

theorem pop_fine {c : Nat} {w : W V} (h : Fine w) : Pr (pop c w) Fine := by
  refine Pr.legal fun ch hch => ?_
  split
  · trivial
  · exact take_fine (chan?_some hch).1 (chan?_some hch).2 h

/-- An operation that keeps the channels and the mutex keeps `Fine`. -/
theorem fine_of {o : Out V α} {w : W V} (h : Fine w) (ho : Pr o fun w' => Kp w' w.chans w.locked) : Pr o Fine := by
  cases o with
  | ok a w => exact ⟨by rw [ho.1]; exact h.1, ho.2.trans h.2⟩
  | threw w => exact ⟨by rw [ho.1]; exact h.1, ho.2.trans h.2⟩
  | _ => trivial

theorem assignBuf_kp {cs : List Chan} {b' : Bool} (i : Nat) (b r : Option Nat) {w : W V} (h : Kp w cs b') : Pr (assignBuf i b r w) fun w' => Kp w' cs b' := by
  unfold assignBuf
  split
  · exact h
  · exact ((elem_kp (w := w.setItBuf i none) h).2.2.2.2.2 _).bind (fun _ h => h) fun _ _ h => h
  · exact (tmp_kp _ h).bind (fun _ h => h) fun n w h => (elem_kp (w := w.setItBuf i (some n)) h).2.2.2.2.2 _
  · exact (((elem_kp h).2.2.2.2.1 _ _).unwind (fun _ h => h) fun w h => (elem_kp h).2.2.2.2.2 _).bind (fun _ h => h) fun n w h => (elem_kp h).2.2.2.2.2 _

theorem advance_fine {i : Nat} {w : W V} (h : Fine w) : Pr (advance i w) Fine :=
  Pr.legal fun it _ => Pr.legal fun _ _ => Pr.guard ((pop_fine h).bind (fun _ h => h) fun r _ h => fine_of h (assignBuf_kp i it.buf r ⟨rfl, rfl⟩))

theorem swapBuf_kp {cs : List Chan} {b' : Bool} (i j : Nat) (a b : Option Nat) {w : W V} (h : Kp w cs b') : Pr (swapBuf i j a b w) fun w' => Kp w' cs b' := by
  unfold swapBuf
  split
  · exact h
  · exact ((elem_kp h).2.2.1 _).bind (fun _ h => h) fun n w h => (elem_kp (w := (w.setItBuf j (some n)).setItBuf i none) h).2.2.2.2.2 _
  · exact ((elem_kp h).2.2.1 _).bind (fun _ h => h) fun n w h => (elem_kp (w := (w.setItBuf i (some n)).setItBuf j none) h).2.2.2.2.2 _
  · exact ((elem_kp h).2.2.1 _).bind (fun _ h => h) fun t w h =>
      Pr.bind (Pr.unwind (((elem_kp h).2.2.2.2.1 _ _).bind (fun _ h => h) fun _ w h => (elem_kp h).2.2.2.2.1 _ _) (fun _ h => h) fun w h => (elem_kp h).2.2.2.2.2 t)
        (fun _ h => h) fun _ w h => (elem_kp h).2.2.2.2.2 _

theorem step_fine (w : W V) (h : Fine w) (o : Op V) : Pr (step w o) Fine := by
  have k : Kp w w.chans w.locked := ⟨rfl, rfl⟩
  cases o with
  | newChan k =>
    refine ⟨fun c hc => ?_, h.2⟩
    rcases List.mem_append.1 hc with hc | hc
    · exact h.1 c hc
    · simp at hc; subst hc; simp
  | create v => exact fine_of h (((elem_kp k).1 v).bind (fun _ h => h) fun _ _ h => h)
  | drop i =>
    simp only [step]
    split
    · exact fine_of h (((elem_kp (w := { w with mine := w.mine.erase i }) k).2.2.2.2.2 i).bind (fun _ h => h) fun _ _ h => h)
    · trivial
  | push c a =>
    simp only [step]
    split
    · refine Pr.bind (P := Fine) (Pr.legal fun ch hch => ?_) (fun _ h => h) fun _ _ h => h
      split
      · exact h
      · split
        · trivial
        · exact (withLock_fine (store_shape (w := w.lock) (chan?_some hch).1 (chan?_some hch).2 h.1 a)).bind (fun _ h => h) fun _ _ h => h
    · trivial
  | tryPush c a =>
    simp only [step]
    split
    · refine Pr.bind (P := Fine) (Pr.legal fun ch hch => ?_) (fun _ h => h) fun _ _ h => h
      split
      · trivial
      · split
        · exact h
        · refine withLock_fine ?_
          split
          · exact h.1
          · exact (store_shape (w := w.lock) (chan?_some hch).1 (chan?_some hch).2 h.1 a).bind (fun _ h => h) fun _ _ h => h
    · trivial
  | pop c => exact (pop_fine h).bind (fun _ h => h) fun r w h => h
  | tryPop c => exact Pr.bind (P := Fine) (Pr.legal fun ch hch => take_fine (chan?_some hch).1 (chan?_some hch).2 h) (fun _ h => h) fun r w h => h
  | close c => exact Pr.legal fun ch hch => ⟨shape_modify h.1 fun ch' h' => h.1 ch' (List.mem_of_getElem? h'), h.2⟩
  | dropChan c =>
    have h' : Fine { w with chans := w.chans.modify c fun ch => { ch with buf := [], gone := true } } := ⟨shape_modify h.1 fun _ _ => by simp, h.2⟩
    exact Pr.legal fun ch _ => (fine_of h' (dtors_kp _ ⟨rfl, rfl⟩)).bind (fun _ h => h) fun _ w h => h
  | begin_ c =>
    refine Pr.bind (P := Fine) ?_ (fun _ h => h) fun _ w h => h
    exact (advance_fine (w := { w with its := w.its ++ [some ⟨c, none⟩] }) h).unwind (fun _ h => h) fun w h => h
  | inc i => exact (advance_fine h).bind (fun _ h => h) fun _ w h => h
  | itTake i => exact Pr.bind (P := Fine) (Pr.legal fun it _ => Pr.legal fun b _ => fine_of h ((elem_kp k).2.2.1 b)) (fun _ h => h) fun r w h => h
  | itCopy i =>
    refine Pr.bind (P := Fine) (Pr.legal fun it _ => Pr.bind (P := Fine) ?_ (fun _ h => h) fun b w h => h) (fun _ h => h) fun _ w h => h
    unfold copyBuf
    split
    · exact h
    · exact (fine_of h ((elem_kp k).2.1 _)).bind (fun _ h => h) fun _ w h => h
  | itMove i =>
    refine Pr.bind (P := Fine) (Pr.legal fun it _ => Pr.bind (P := Fine) ?_ (fun _ h => h) fun b w h => h) (fun _ h => h) fun _ w h => h
    unfold moveBuf
    split
    · exact h
    · exact (fine_of h ((elem_kp k).2.2.1 _)).bind (fun _ h => h) fun _ w h => h
  | itCopyAssign i j =>
    refine Pr.bind (P := Fine) (Pr.legal fun a _ => Pr.legal fun b _ => ?_) (fun _ h => h) fun _ w h => h
    split
    · exact h
    · unfold copyAssignBuf
      split
      · exact h
      · exact (fine_of h ((elem_kp (w := (w.setItChan i b.chan).setItBuf i none) k).2.2.2.2.2 _)).bind (fun _ h => h) fun _ _ h => h
      · exact (fine_of h ((elem_kp (w := w.setItChan i b.chan) k).2.1 _)).bind (fun _ h => h) fun n w h => h
      · exact fine_of h ((elem_kp (w := w.setItChan i b.chan) k).2.2.2.1 _ _)
  | itMoveAssign i j =>
    refine Pr.bind (P := Fine) (Pr.legal fun a _ => Pr.legal fun b _ => ?_) (fun _ h => h) fun _ w h => h
    split
    · trivial
    · exact fine_of h (swapBuf_kp _ _ _ _ (w := (w.setItChan i b.chan).setItChan j a.chan) k)
  | itDestroy i => exact Pr.bind (P := Fine) (Pr.legal fun it _ => fine_of h (dtors_kp _ (w := { w with its := w.its.set i none }) k)) (fun _ h => h) fun _ w h => h

end Verif.Elements
