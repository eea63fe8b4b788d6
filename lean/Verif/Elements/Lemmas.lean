import Verif.Elements.Model

/-!
Ownership of element objects, counted: every live object is in exactly one place.
-/
namespace Verif.Elements

variable {V α β : Type}

/-! ### Outcomes -/

/-- `Q` holds after normal return and `E` after an exception; no destroyed object is used. -/
def Sp (o : Out V α) (Q : α → W V → Prop) (E : W V → Prop) : Prop :=
  match o with
  | .ok a w => Q a w
  | .threw w => E w
  | .ub => False
  | _ => True

theorem Sp.mono {o : Out V α} {Q Q' : α → W V → Prop} {E E' : W V → Prop} (h : Sp o Q E) (hq : ∀ a w, Q a w → Q' a w) (he : ∀ w, E w → E' w) :
    Sp o Q' E' := by
  cases o with
  | ok a w => exact hq a w h
  | threw w => exact he w h
  | ub => exact h
  | _ => trivial

theorem Sp.bind {o : Out V α} {Q : α → W V → Prop} {Q' : β → W V → Prop} {E : W V → Prop} {f : α → W V → Out V β} (h : Sp o Q E)
    (hf : ∀ a w, Q a w → Sp (f a w) Q' E) : Sp (o.bind f) Q' E := by
  cases o with
  | ok a w => exact hf a w h
  | threw w => exact h
  | ub => exact h
  | _ => trivial

theorem Sp.unwind {o : Out V α} {Q : α → W V → Prop} {E E' : W V → Prop} {f : W V → Out V Unit} (h : Sp o Q E)
    (hf : ∀ w, E w → Sp (f w) (fun _ w => E' w) E') : Sp (o.unwind f) Q E' := by
  cases o with
  | ok a w => exact h
  | threw w => exact Sp.bind (hf w h) fun _ w hw => hw
  | ub => exact h
  | _ => trivial

theorem Sp.legal {o : Option α} {f : α → Out V β} {Q : β → W V → Prop} {E : W V → Prop} (h : ∀ a, o = some a → Sp (f a) Q E) : Sp (Elements.legal o f) Q E := by
  cases o with
  | none => trivial
  | some a => exact h a rfl

/-! ### Counting -/

/-- Is the object alive? -/
def alive (w : W V) (i : Nat) : Nat :=
  match w.cells[i]? with
  | some (some _) => 1
  | _ => 0

/-- The object in the buffer of an iterator. -/
def held (o : Option It) : List Nat :=
  match o with
  | some it => it.buf.toList
  | none => []

/-- In how many places is the object? -/
def places (w : W V) (i : Nat) : Nat :=
  w.mine.count i + (w.chans.map fun c => c.buf.count i).sum + (w.its.map fun o => (held o).count i).sum

/-- Every live object is in exactly one place, or in the list `L` of objects of the running function; the others are nowhere. -/
def Own (w : W V) (L : List Nat) : Prop := ∀ i, L.count i + places w i = alive w i

/-- Channels, iterators and objects of the program are the same. -/
def Same (w w' : W V) : Prop := w'.chans = w.chans ∧ w'.mine = w.mine ∧ w'.its = w.its

theorem Same.refl (w : W V) : Same w w := ⟨rfl, rfl, rfl⟩

theorem Same.trans {a b c : W V} (h : Same a b) (h' : Same b c) : Same a c :=
  ⟨h'.1.trans h.1, h'.2.1.trans h.2.1, h'.2.2.trans h.2.2⟩

theorem Same.places {w w' : W V} (h : Same w w') (i : Nat) : places w' i = places w i := by
  simp [Elements.places, h.1, h.2.1, h.2.2]

theorem alive_le (w : W V) (i : Nat) : alive w i ≤ 1 := by
  unfold alive; split <;> simp

theorem Own.cell {w : W V} {L : List Nat} (h : Own w L) {i : Nat} (hi : 0 < L.count i + Elements.places w i) : ∃ x, w.cells[i]? = some (some x) := by
  have := h i
  unfold alive at this
  split at this
  · rename_i x hx; exact ⟨x, hx⟩
  · omega

theorem Own.lt {w : W V} {L : List Nat} (h : Own w L) {i : Nat} (hi : w.cells.length ≤ i) : L.count i + Elements.places w i = 0 := by
  have := h i
  unfold alive at this
  rw [List.getElem?_eq_none hi] at this
  exact this

theorem Own.perm {w : W V} {L L' : List Nat} (h : Own w L) (hp : ∀ i, L'.count i = L.count i) : Own w L' := fun i => by rw [hp]; exact h i

/-! ### Element operations -/

theorem own_set {w w' : W V} {L : List Nat} (h : Own w L) (hs : Same w w') {j : Nat} {y : Option V} (hj : ∃ x, w.cells[j]? = some (some x))
    (hc : w'.cells = w.cells.set j (some y)) : Own w' L := by
  intro i
  rw [hs.places, h i]
  unfold alive
  rw [hc, List.getElem?_set]
  obtain ⟨x, hx⟩ := hj
  have hlt := (List.getElem?_eq_some_iff.1 hx).1
  by_cases hij : j = i
  · subst hij; rw [if_pos rfl, if_pos hlt, hx]
  · rw [if_neg hij]

theorem own_append {w w' : W V} {L : List Nat} (h : Own w L) (hs : Same w w') {y : Option V} (hc : w'.cells = w.cells ++ [some y]) :
    Own w' (w.cells.length :: L) := by
  intro i
  rw [hs.places, List.count_cons]
  by_cases hi : i = w.cells.length
  · subst hi
    have := h.lt (Nat.le_refl _)
    have ha : alive w' w.cells.length = 1 := by unfold alive; rw [hc]; simp
    simp; omega
  · have hne : (w.cells.length == i) = false := by simp; omega
    rw [hne]
    have := h i
    have ha : alive w' i = alive w i := by
      unfold alive; rw [hc]
      by_cases hlt : i < w.cells.length
      · rw [List.getElem?_append_left hlt]
      · rw [List.getElem?_eq_none (by simp; omega), List.getElem?_eq_none (by omega)]
    simp; omega

theorem make_own {w : W V} {L : List Nat} (h : Own w L) (v : V) :
    Sp (make v w) (fun n w' => Own w' (n :: L) ∧ Same w w') (fun w' => Own w' L ∧ Same w w') := by
  unfold make
  dsimp only
  split
  · exact ⟨own_append h ⟨rfl, rfl, rfl⟩ rfl, rfl, rfl, rfl⟩
  · exact ⟨h, rfl, rfl, rfl⟩

theorem copyC_own {w : W V} {L : List Nat} (h : Own w L) {i : Nat} (hi : 0 < L.count i + places w i) :
    Sp (copyC i w) (fun n w' => Own w' (n :: L) ∧ Same w w') (fun w' => Own w' L ∧ Same w w') := by
  obtain ⟨x, hx⟩ := h.cell hi
  unfold copyC
  rw [hx]
  dsimp only
  split
  · exact ⟨own_append h ⟨rfl, rfl, rfl⟩ rfl, rfl, rfl, rfl⟩
  · exact ⟨h, rfl, rfl, rfl⟩

theorem gut_own {w : W V} {L : List Nat} (h : Own w L) {i : Nat} {x : Option V} (hi : ∃ x, w.cells[i]? = some (some x)) (f : Fault) :
    Own (gut i x f w) L ∧ Same w (gut i x f w) := by
  unfold gut
  split
  · exact ⟨own_set h ⟨rfl, rfl, rfl⟩ hi rfl, rfl, rfl, rfl⟩
  · exact ⟨h, rfl, rfl, rfl⟩

theorem moveC_own {w : W V} {L : List Nat} (h : Own w L) {i : Nat} (hi : 0 < L.count i + places w i) :
    Sp (moveC i w) (fun n w' => Own w' (n :: L) ∧ Same w w') (fun w' => Own w' L ∧ Same w w') := by
  obtain ⟨x, hx⟩ := h.cell hi
  unfold moveC
  rw [hx]
  dsimp only
  split
  · have h1 : Own { w with cells := w.cells.set i (some none) } L := own_set h ⟨rfl, rfl, rfl⟩ ⟨x, hx⟩ rfl
    have h2 := own_append (w' := ({ w with faults := w.faults.tail, cells := w.cells.set i (some none) ++ [some x] }.act (.moveC i w.cells.length))) h1 ⟨rfl, rfl, rfl⟩ (y := x) rfl
    rw [List.length_set] at h2
    exact ⟨h2, rfl, rfl, rfl⟩
  · exact gut_own (w := { w with faults := w.faults.tail }) h ⟨x, hx⟩ _

theorem overwrite_own {w : W V} {L : List Nat} (h : Own w L) (y : Option V) : Own (overwrite y w) L ∧ Same w (overwrite y w) := by
  unfold overwrite; split <;> exact ⟨h, rfl, rfl, rfl⟩

theorem copyA_own {w : W V} {L : List Nat} (h : Own w L) {i j : Nat} (hi : 0 < L.count i + places w i) (hj : 0 < L.count j + places w j) :
    Sp (copyA i j w) (fun _ w' => Own w' L ∧ Same w w') (fun w' => Own w' L ∧ Same w w') := by
  obtain ⟨x, hx⟩ := h.cell hi
  obtain ⟨y, hy⟩ := h.cell hj
  unfold copyA
  rw [hx, hy]
  dsimp only
  split
  · exact overwrite_own (w := { w with faults := w.faults.tail, cells := w.cells.set i (some y) }) (own_set h ⟨rfl, rfl, rfl⟩ ⟨x, hx⟩ rfl) x
  · exact ⟨h, rfl, rfl, rfl⟩

theorem moveA_own {w : W V} {L : List Nat} (h : Own w L) {i j : Nat} (hi : 0 < L.count i + places w i) (hj : 0 < L.count j + places w j) :
    Sp (moveA i j w) (fun _ w' => Own w' L ∧ Same w w') (fun w' => Own w' L ∧ Same w w') := by
  obtain ⟨x, hx⟩ := h.cell hi
  obtain ⟨y, hy⟩ := h.cell hj
  unfold moveA
  rw [hx, hy]
  dsimp only
  split
  · have h1 : Own { w with cells := w.cells.set i (some y) } L := own_set h ⟨rfl, rfl, rfl⟩ ⟨x, hx⟩ rfl
    have hj' : ∃ z, (w.cells.set i (some y))[j]? = some (some z) := by
      rw [List.getElem?_set]
      split
      · rw [if_pos (List.getElem?_eq_some_iff.1 hx).1]; exact ⟨_, rfl⟩
      · exact ⟨_, hy⟩
    exact overwrite_own (w := { w with faults := w.faults.tail, cells := (w.cells.set i (some y)).set j (some none) }) (own_set h1 ⟨rfl, rfl, rfl⟩ hj' rfl) x
  · exact gut_own (w := { w with faults := w.faults.tail }) h ⟨y, hy⟩ _

theorem dtor_own {w : W V} {L : List Nat} {i : Nat} (h : Own w (i :: L)) :
    Sp (dtor i w) (fun _ w' => Own w' L ∧ Same w w') (fun _ => False) := by
  obtain ⟨x, hx⟩ := h.cell (i := i) (by simp; omega)
  unfold dtor
  rw [hx]
  refine ⟨fun k => ?_, rfl, rfl, rfl⟩
  have h1 := h k
  have h2 := alive_le w k
  have h3 : places ({ w with cells := w.cells.set i none }.act (.dtor i x)) k = places w k := rfl
  rw [h3]
  rw [List.count_cons] at h1
  have hlt := (List.getElem?_eq_some_iff.1 hx).1
  by_cases hk : i = k
  · subst hk
    have ha : alive ({ w with cells := w.cells.set i none }.act (.dtor i x)) i = 0 := by
      unfold alive W.act; dsimp only; rw [List.getElem?_set]; simp [hlt]
    simp at h1; omega
  · have ha : alive ({ w with cells := w.cells.set i none }.act (.dtor i x)) k = alive w k := by
      unfold alive W.act; dsimp only; rw [List.getElem?_set, if_neg hk]
    have : (i == k) = false := by simpa using hk
    rw [this] at h1
    rw [ha]; simpa using h1

theorem dtors_own {w : W V} {L : List Nat} : ∀ {B : List Nat} , Own w (B ++ L) → Sp (dtors B w) (fun _ w' => Own w' L ∧ Same w w') (fun _ => False)
  | [], h => ⟨h, Same.refl w⟩
  | i :: is, h => (dtor_own (L := is ++ L) h).bind fun _ w' hw =>
    (dtors_own (B := is) hw.1).mono (fun _ _ h2 => ⟨h2.1, hw.2.trans h2.2⟩) (fun _ h => h)

/-! ### Members -/

theorem sum_modify {γ : Type} (l : List γ) (c : Nat) (g : γ → γ) (m : γ → Nat) {x : γ} (hx : l[c]? = some x) :
    ((l.modify c g).map m).sum + m x = (l.map m).sum + m (g x) := by
  induction l generalizing c with
  | nil => simp at hx
  | cons y l ih =>
    cases c with
    | zero => simp at hx; subst hx; simp; omega
    | succ c =>
      simp at hx
      have := ih c hx
      simp; omega

theorem sum_set {γ : Type} (l : List γ) (c : Nat) (y : γ) (m : γ → Nat) {x : γ} (hx : l[c]? = some x) :
    ((l.set c y).map m).sum + m x = (l.map m).sum + m y := by
  induction l generalizing c with
  | nil => simp at hx
  | cons z l ih =>
    cases c with
    | zero => simp at hx; subst hx; simp; omega
    | succ c =>
      simp at hx
      have := ih c hx
      simp [-List.map_set]; omega

theorem sum_le {γ : Type} (l : List γ) (c : Nat) (m : γ → Nat) {x : γ} (hx : l[c]? = some x) : m x ≤ (l.map m).sum := by
  induction l generalizing c with
  | nil => simp at hx
  | cons y l ih =>
    cases c with
    | zero => simp at hx; subst hx; simp
    | succ c => simp at hx; have := ih c hx; simp; omega

theorem places_setBuf {w : W V} {c : Nat} {ch : Chan} (hc : w.chans[c]? = some ch) (b : List Nat) (i : Nat) :
    places (w.setBuf c b) i + ch.buf.count i = places w i + b.count i := by
  have := sum_modify w.chans c (fun ch => { ch with buf := b }) (fun c => c.buf.count i) hc
  unfold places W.setBuf
  dsimp only at this ⊢
  omega

theorem places_setItBuf {w : W V} {j : Nat} {it : It} (hj : w.its[j]? = some (some it)) (b : Option Nat) (i : Nat) :
    places (w.setItBuf j b) i + it.buf.toList.count i = places w i + b.toList.count i := by
  have := sum_modify w.its j (fun o => o.map fun it => { it with buf := b }) (fun o => (held o).count i) hj
  unfold places W.setItBuf
  simp only [held, Option.map] at this ⊢
  omega

theorem places_setItChan (w : W V) (j c i : Nat) : places (w.setItChan j c) i = places w i := by
  unfold places W.setItChan
  dsimp only
  congr 2
  induction w.its generalizing j with
  | nil => simp
  | cons o l ih => cases j <;> cases o <;> simp_all [held]

theorem own_setBuf {w : W V} {c : Nat} {ch : Chan} (hc : w.chans[c]? = some ch) {b L L' : List Nat} (h : Own w L)
    (hb : ∀ i, L'.count i + b.count i = L.count i + ch.buf.count i) : Own (w.setBuf c b) L' := by
  intro i
  have h1 := places_setBuf hc b i
  have h2 := h i
  have h3 := hb i
  have h4 : alive (w.setBuf c b) i = alive w i := rfl
  omega

theorem own_setItBuf {w : W V} {j : Nat} {it : It} (hj : w.its[j]? = some (some it)) {b : Option Nat} {L L' : List Nat} (h : Own w L)
    (hb : ∀ i, L'.count i + b.toList.count i = L.count i + it.buf.toList.count i) : Own (w.setItBuf j b) L' := by
  intro i
  have h1 := places_setItBuf hj b i
  have h2 := h i
  have h3 := hb i
  have h4 : alive (w.setItBuf j b) i = alive w i := rfl
  omega

theorem own_setItChan {w : W V} {L : List Nat} (h : Own w L) (j c : Nat) : Own (w.setItChan j c) L := fun i => by
  rw [places_setItChan]; exact h i

theorem own_lock {w : W V} {L : List Nat} (h : Own w L) : Own w.lock L := h
theorem own_unlock {w : W V} {L : List Nat} (h : Own w L) : Own w.unlock L := h

theorem chan?_some {w : W V} {c : Nat} {ch : Chan} (h : w.chan? c = some ch) : w.chans[c]? = some ch ∧ ch.gone = false := by
  unfold W.chan? at h
  split at h
  · split at h
    · cases h
    · rename_i h1 h2; injection h with h; subst h; exact ⟨h1, by simpa using h2⟩
  · cases h

theorem it?_some {w : W V} {i : Nat} {it : It} (h : w.it? i = some it) : w.its[i]? = some (some it) := by
  unfold W.it? at h
  split at h
  · rename_i h1; injection h with h; subst h; exact h1
  · cases h

theorem in_chan {w : W V} {c : Nat} {ch : Chan} (hc : w.chans[c]? = some ch) {i : Nat} (hi : i ∈ ch.buf) : 0 < places w i := by
  have h1 := sum_le w.chans c (fun c => c.buf.count i) hc
  have h2 := List.count_pos_iff.2 hi
  unfold places; omega

theorem in_it {w : W V} {j : Nat} {it : It} (hj : w.its[j]? = some (some it)) {i : Nat} (hi : it.buf = some i) : 0 < places w i := by
  have h1 := sum_le w.its j (fun o => (held o).count i) hj
  have h2 : 0 < (held (some it)).count i := by simp [held, hi]
  unfold places; omega

theorem in_mine {w : W V} {i : Nat} (hi : i ∈ w.mine) : 0 < places w i := by
  have h2 := List.count_pos_iff.2 hi
  unfold places; omega

theorem withLock_own {p : W V → Out V α} {w : W V} {Q : α → W V → Prop} {E : W V → Prop} (h : Sp (p w.lock) (fun a w => Q a w.unlock) (fun w => E w.unlock)) :
    Sp (withLock p w) Q E := by
  unfold withLock
  refine Sp.bind (Sp.unwind (E' := E) h fun w hw => hw) fun a w hw => hw

/-! ### Member functions -/

theorem Own.same {w w' : W V} {c : Nat} {ch : Chan} (h : Same w w') (hc : w.chans[c]? = some ch) : w'.chans[c]? = some ch := by
  rw [h.1]; exact hc

/-- The arguments exist. -/
theorem construct_own {w : W V} {L : List Nat} (h : Own w L) {a : Arg V} (ha : ∀ i, a = .copy i ∨ a = .move i → 0 < L.count i + places w i) :
    Sp (construct a w) (fun n w' => Own w' (n :: L) ∧ Same w w') (fun w' => Own w' L ∧ Same w w') := by
  cases a with
  | copy i => exact copyC_own h (ha i (.inl rfl))
  | move i => exact moveC_own h (ha i (.inr rfl))
  | args v => exact make_own h v

theorem setBuf_chan {w : W V} {c : Nat} {ch : Chan} (hc : w.chans[c]? = some ch) (b : List Nat) : (w.setBuf c b).chans[c]? = some { ch with buf := b } := by
  unfold W.setBuf; simp [hc]

theorem arg_places {a : Arg V} {w : W V} (ha : a.ok w = true) : ∀ i, a = .copy i ∨ a = .move i → i ∈ w.mine := by
  rintro i (rfl | rfl) <;> simpa [Arg.ok] using ha

theorem store_own {w : W V} (h : Own w []) {c : Nat} {ch : Chan} (hc : w.chans[c]? = some ch) {a : Arg V} (ha : a.ok w = true) :
    Sp (store c ch a w) (fun _ w' => Own w' []) (fun w' => Own w' []) := by
  have ha := arg_places ha
  unfold store
  split
  · refine Sp.bind ((construct_own h (a := a) fun i hi => ?_).mono (fun _ _ h => h) fun _ h => h.1) fun n w' hw => ?_
    · have := in_mine (ha i hi); omega
    · refine own_setBuf (w := w') (Own.same hw.2 hc) hw.1 fun i => ?_
      simp [List.count_append, List.count_cons]; omega
  · have h1 : Own (w.setBuf c []) (ch.buf ++ []) := own_setBuf hc h fun i => by simp
    refine Sp.bind ((dtors_own h1).mono (fun _ _ h => h) fun _ h => h.elim) fun _ w1 hw => ?_
    refine Sp.bind ((construct_own hw.1 (a := a) fun i hi => ?_).mono (fun _ _ h => h) fun _ h => h.1) fun n w' hw' => ?_
    · have h2 : i ∈ w1.mine := by rw [hw.2.2.1]; exact ha i hi
      have := in_mine h2; omega
    · refine own_setBuf (w := w') (Own.same hw'.2 (Own.same hw.2 (setBuf_chan hc []))) hw'.1 fun i => ?_
      simp

theorem push_own {w : W V} (h : Own w []) (c : Nat) {a : Arg V} (ha : a.ok w = true) :
    Sp (push c a w) (fun _ w' => Own w' []) (fun w' => Own w' []) := by
  refine Sp.legal fun ch hch => ?_
  obtain ⟨hc, _⟩ := chan?_some hch
  split
  · exact h
  · split
    · trivial
    · refine Sp.bind (withLock_own (Q := fun _ w => Own w []) (E := fun w => Own w []) ?_) fun _ w hw => hw
      exact store_own (w := w.lock) h hc ha

theorem tryPush_own {w : W V} (h : Own w []) (c : Nat) {a : Arg V} (ha : a.ok w = true) :
    Sp (tryPush c a w) (fun _ w' => Own w' []) (fun w' => Own w' []) := by
  refine Sp.legal fun ch hch => ?_
  obtain ⟨hc, _⟩ := chan?_some hch
  split
  · trivial
  · split
    · exact h
    · refine withLock_own ?_
      split
      · exact h
      · exact Sp.bind (store_own (w := w.lock) h hc ha) fun _ w hw => hw

theorem moveC_tmp {w : W V} {t : Nat} {L : List Nat} (h : Own w (t :: L)) :
    Sp ((moveC t w).unwind (dtor t)) (fun n w' => Own w' (t :: n :: L) ∧ Same w w') (fun w' => Own w' L ∧ Same w w') := by
  refine Sp.unwind ((moveC_own h (i := t) (by simp; omega)).mono (fun n w' hw => ⟨hw.1.perm fun i => ?_, hw.2⟩) fun _ h => h) fun w1 hw => ?_
  · simp [List.count_cons]; omega
  · exact (dtor_own hw.1).mono (fun _ _ h => ⟨h.1, hw.2.trans h.2⟩) fun _ h => h.elim

theorem takeFront_own {w : W V} (h : Own w []) {c : Nat} {ch : Chan} (hc : w.chans[c]? = some ch) {f : Nat} {rest : List Nat} (hb : ch.buf = f :: rest) :
    Sp (takeFront c f rest w) (fun r w' => Own w' [r] ∧ w'.its = w.its) (fun w' => Own w' [] ∧ w'.its = w.its) := by
  unfold takeFront
  have hf : 0 < ([] : List Nat).count f + places w f := by have := in_chan hc (i := f) (by simp [hb]); omega
  refine Sp.bind (Sp.unwind (moveC_own (w := w.lock) h hf) fun w1 hw => ?_) fun ret w1 hw => ?_
  · exact ⟨hw.1, hw.2.2.2⟩
  · have h1 : Own (w1.setBuf c rest) (f :: [ret]) := own_setBuf (Own.same hw.2 (w := w.lock) hc) hw.1 fun i => by
      simp [hb, List.count_cons]; omega
    refine Sp.bind ((dtor_own h1).mono (fun _ _ h => h) fun _ h => h.elim) fun _ w2 hw2 => ?_
    have hi2 : w2.its = w.its := hw2.2.2.2.trans hw.2.2.2
    refine Sp.bind ((moveC_tmp (w := w2.unlock) hw2.1).mono (fun _ _ h => h) fun w3 h => ⟨h.1, h.2.2.2.trans hi2⟩) fun r w3 hw3 => ?_
    exact Sp.bind ((dtor_own hw3.1).mono (fun _ _ h => h) fun _ h => h.elim) fun _ w4 hw4 => ⟨hw4.1, hw4.2.2.2.trans (hw3.2.2.2.trans hi2)⟩

theorem takeSlot_own {w : W V} (h : Own w []) {c : Nat} {ch : Chan} (hc : w.chans[c]? = some ch) {f : Nat} (hb : ch.buf = [f]) :
    Sp (takeSlot c f w) (fun r w' => Own w' [r] ∧ w'.its = w.its) (fun w' => Own w' [] ∧ w'.its = w.its) := by
  unfold takeSlot
  have hf : 0 < ([] : List Nat).count f + places w f := by have := in_chan hc (i := f) (by simp [hb]); omega
  refine withLock_own ?_
  refine Sp.bind ((moveC_own (w := w.lock) h hf).mono (fun _ _ h => h) fun w' h => ⟨h.1, h.2.2.2⟩) fun ret w1 hw => ?_
  have h1 : Own (w1.setBuf c []) (f :: [ret]) := own_setBuf (Own.same hw.2 (w := w.lock) hc) hw.1 fun i => by
    simp [hb, List.count_cons]
  refine Sp.bind ((dtor_own h1).mono (fun _ _ h => h) fun _ h => h.elim) fun _ w2 hw2 => ?_
  have hi2 : w2.its = w.its := hw2.2.2.2.trans hw.2.2.2
  refine Sp.bind ((moveC_tmp (w := w2) hw2.1).mono (fun _ _ h => h) fun w3 h => ⟨h.1, h.2.2.2.trans hi2⟩) fun r w3 hw3 => ?_
  exact Sp.bind ((dtor_own hw3.1).mono (fun _ _ h => h) fun _ h => h.elim) fun _ w4 hw4 => ⟨hw4.1, hw4.2.2.2.trans (hw3.2.2.2.trans hi2)⟩

/-- An exchange channel has at most one element. -/
def Single (w : W V) : Prop := ∀ c ∈ w.chans, c.kind = .exch → c.buf.length ≤ 1

theorem take_own {w : W V} (h : Own w []) (hs : Single w) {c : Nat} {ch : Chan} (hc : w.chans[c]? = some ch) :
    Sp (take c ch w) (fun r w' => Own w' r.toList ∧ w'.its = w.its) (fun w' => Own w' [] ∧ w'.its = w.its) := by
  unfold take
  split
  · exact ⟨h, rfl⟩
  · rename_i hk hb
    exact Sp.bind (takeFront_own h hc hb) fun r w hw => hw
  · rename_i f rest hk hb
    have := hs ch (List.mem_of_getElem? hc) hk
    rw [hb] at this
    have : rest = [] := by cases rest <;> simp_all
    subst this
    exact Sp.bind (takeSlot_own h hc hb) fun r w hw => hw

theorem pop_own {w : W V} (h : Own w []) (hs : Single w) (c : Nat) :
    Sp (pop c w) (fun r w' => Own w' r.toList ∧ w'.its = w.its) (fun w' => Own w' [] ∧ w'.its = w.its) := by
  refine Sp.legal fun ch hch => ?_
  split
  · trivial
  · exact take_own h hs (chan?_some hch).1

theorem tryPop_own {w : W V} (h : Own w []) (hs : Single w) (c : Nat) :
    Sp (tryPop c w) (fun r w' => Own w' r.toList ∧ w'.its = w.its) (fun w' => Own w' [] ∧ w'.its = w.its) :=
  Sp.legal fun _ hch => take_own h hs (chan?_some hch).1

/-! ### Iterators -/

theorem assignBuf_own {w : W V} {i : Nat} {it : It} (hi : w.its[i]? = some (some it)) {r : Option Nat} (h : Own w r.toList) :
    Sp (assignBuf i it.buf r w) (fun _ w' => Own w' [] ∧ w'.its.length = w.its.length) (fun w' => Own w' [] ∧ w'.its = w.its) := by
  unfold assignBuf
  split
  · exact ⟨h, rfl⟩
  · rename_i b hb
    have h1 : Own (w.setItBuf i none) (b :: []) := own_setItBuf hi h fun i => by simp [hb]
    exact Sp.bind ((dtor_own h1).mono (fun _ _ h => h) fun _ h => h.elim) fun _ w' hw => ⟨hw.1, by rw [hw.2.2.2]; simp [W.setItBuf]⟩
  · rename_i r hb
    refine Sp.bind ((moveC_tmp (L := []) h).mono (fun _ _ h => h) fun w' hw => ⟨hw.1, hw.2.2.2⟩) fun n w1 hw => ?_
    have h1 : Own (w1.setItBuf i (some n)) (r :: []) := own_setItBuf (it := it) (by rw [hw.2.2.2]; exact hi) hw.1 fun i => by simp [hb, List.count_cons]; omega
    exact (dtor_own h1).mono (fun _ w' h => ⟨h.1, by rw [h.2.2.2]; simp [W.setItBuf, hw.2.2.2]⟩) fun _ h => h.elim
  · rename_i b r hb
    refine Sp.bind (Q := fun _ w' => Own w' [r] ∧ Same w w') (Sp.unwind (E := fun w' => Own w' [r] ∧ Same w w') ?_ fun w1 hw => ?_) fun _ w1 hw => ?_
    · refine moveA_own h ?_ (by simp; omega)
      have := in_it hi hb; omega
    · exact (dtor_own hw.1).mono (fun _ _ h => ⟨h.1, (hw.2.trans h.2).2.2⟩) fun _ h => h.elim
    · exact (dtor_own hw.1).mono (fun _ w' h => ⟨h.1, by rw [h.2.2.2, hw.2.2.2]⟩) fun _ h => h.elim

theorem guard_own {k : Kind} {o : Out V α} {Q : α → W V → Prop} {E : W V → Prop} (h : Sp o Q E) : Sp (guardNoexcept k o) Q E := by
  cases o with
  | threw w => cases k <;> first | trivial | exact h
  | ok a w => exact h
  | ub => exact h
  | _ => trivial

theorem advance_own {w : W V} (h : Own w []) (hs : Single w) (i : Nat) :
    Sp (advance i w) (fun _ w' => Own w' []) (fun w' => Own w' [] ∧ w'.its = w.its) := by
  refine Sp.legal fun it hit => Sp.legal fun ch hch => guard_own ?_
  refine Sp.bind (pop_own h hs it.chan) fun r w' hw => ?_
  refine (assignBuf_own (w := w') (it := it) (i := i) ?_ hw.1).mono (fun _ _ h => h.1) fun w2 h2 => ⟨h2.1, h2.2.trans hw.2⟩
  rw [hw.2]; exact it?_some hit

theorem own_newIt {w : W V} {L : List Nat} {it : It} (h : Own w L) {L' : List Nat} (hb : ∀ i, L'.count i + it.buf.toList.count i = L.count i) :
    Own { w with its := w.its ++ [some it] } L' := by
  intro i
  have h1 := h i
  have h2 := hb i
  have h3 : alive { w with its := w.its ++ [some it] } i = alive w i := rfl
  have h4 : places { w with its := w.its ++ [some it] } i = places w i + it.buf.toList.count i := by
    unfold places; simp [held]; omega
  omega

theorem begin_own {w : W V} (h : Own w []) (hs : Single w) (c : Nat) :
    Sp (begin_ c w) (fun _ w' => Own w' []) (fun w' => Own w' []) := by
  unfold begin_
  refine Sp.unwind (advance_own (own_newIt (it := ⟨c, none⟩) h (L' := []) fun i => by simp) hs _) fun w' hw => ?_
  intro i
  have h1 := hw.1 i
  have h2 : alive w'.dropLast i = alive w' i := rfl
  have h3 : places w'.dropLast i = places w' i := by
    unfold places W.dropLast; dsimp only; rw [hw.2]; simp [held]
  omega

theorem itCopy_own {w : W V} (h : Own w []) (j : Nat) : Sp (itCopy j w) (fun _ w' => Own w' []) (fun w' => Own w' []) := by
  refine Sp.legal fun it hit => ?_
  have hi := it?_some hit
  refine Sp.bind (Q := fun b w' => Own w' b.toList) ?_ fun b w' hw => ?_
  · unfold copyBuf
    split
    · exact h
    · rename_i b hb
      refine Sp.bind ((copyC_own h (i := b) ?_).mono (fun _ _ h => h) fun _ h => h.1) fun n w' hw => hw.1
      have := in_it hi hb; omega
  · exact own_newIt (it := ⟨it.chan, b⟩) hw fun i => by simp

theorem itMove_own {w : W V} (h : Own w []) (j : Nat) : Sp (itMove j w) (fun _ w' => Own w' []) (fun w' => Own w' []) := by
  refine Sp.legal fun it hit => ?_
  have hi := it?_some hit
  refine Sp.bind (Q := fun b w' => Own w' b.toList) ?_ fun b w' hw => ?_
  · unfold moveBuf
    split
    · exact h
    · rename_i b hb
      refine Sp.bind ((moveC_own h (i := b) ?_).mono (fun _ _ h => h) fun _ h => h.1) fun n w' hw => hw.1
      have := in_it hi hb; omega
  · exact own_newIt (it := ⟨it.chan, b⟩) hw fun i => by simp

theorem setItChan_it {w : W V} {i : Nat} {it : It} (hi : w.its[i]? = some (some it)) (j c : Nat) :
    ∃ it', (w.setItChan j c).its[i]? = some (some it') ∧ it'.buf = it.buf := by
  unfold W.setItChan
  dsimp only
  rw [List.getElem?_modify]
  by_cases hj : j = i
  · subst hj; simp [hi]
  · simp [hj, hi]

theorem itCopyAssign_own {w : W V} (h : Own w []) (i j : Nat) : Sp (itCopyAssign i j w) (fun _ w' => Own w' []) (fun w' => Own w' []) := by
  refine Sp.legal fun a ha => Sp.legal fun b hb => ?_
  split
  · exact h
  · obtain ⟨a', ha', hab⟩ := setItChan_it (it?_some ha) i b.chan
    obtain ⟨b', hb', hbb⟩ := setItChan_it (it?_some hb) i b.chan
    have h' := own_setItChan h i b.chan
    rw [← hab, ← hbb]
    generalize w.setItChan i b.chan = w' at *
    unfold copyAssignBuf
    split
    · exact h'
    · rename_i x hx _
      have h1 : Own (w'.setItBuf i none) (x :: []) := own_setItBuf ha' h' fun i => by simp [hx]
      exact Sp.bind ((dtor_own h1).mono (fun _ _ h => h) fun _ h => h.elim) fun _ w' hw => hw.1
    · rename_i x hx hx'
      refine Sp.bind ((copyC_own h' (i := x) ?_).mono (fun _ _ h => h) fun _ h => h.1) fun n w1 hw => ?_
      · have := in_it hb' hx'; omega
      · exact own_setItBuf (it := a') (by rw [hw.2.2.2]; exact ha') hw.1 fun i => by simp [hx]
    · rename_i x y hx hy
      refine (copyA_own h' ?_ ?_).mono (fun _ _ h => h.1) fun _ h => h.1
      · have := in_it ha' hx; omega
      · have := in_it hb' hy; omega

theorem setItBuf_ne {w : W V} {i j : Nat} (hij : i ≠ j) {it : It} (hi : w.its[i]? = some (some it)) (b : Option Nat) :
    (w.setItBuf j b).its[i]? = some (some it) := by
  unfold W.setItBuf
  dsimp only
  rw [List.getElem?_modify, hi]
  simp [Ne.symm hij]

theorem swapBuf_own {w : W V} (h : Own w []) {i j : Nat} (hij : i ≠ j) {a b : It} (ha : w.its[i]? = some (some a)) (hb : w.its[j]? = some (some b)) :
    Sp (swapBuf i j a.buf b.buf w) (fun _ w' => Own w' []) (fun w' => Own w' []) := by
  unfold swapBuf
  split
  · exact h
  · rename_i x hx hy
    refine Sp.bind ((moveC_own h (i := x) ?_).mono (fun _ _ h => h) fun _ h => h.1) fun n w1 hw => ?_
    · have := in_it ha hx; omega
    · have h1 : Own (w1.setItBuf j (some n)) [] := own_setItBuf (it := b) (by rw [hw.2.2.2]; exact hb) hw.1 fun i => by simp [hy]
      have h2 : Own ((w1.setItBuf j (some n)).setItBuf i none) (x :: []) :=
        own_setItBuf (it := a) (setItBuf_ne hij (by rw [hw.2.2.2]; exact ha) _) h1 fun i => by simp [hx]
      exact (dtor_own h2).mono (fun _ _ h => h.1) fun _ h => h.elim
  · rename_i x hx hy
    refine Sp.bind ((moveC_own h (i := x) ?_).mono (fun _ _ h => h) fun _ h => h.1) fun n w1 hw => ?_
    · have := in_it hb hy; omega
    · have h1 : Own (w1.setItBuf i (some n)) [] := own_setItBuf (it := a) (by rw [hw.2.2.2]; exact ha) hw.1 fun i => by simp [hx]
      have h2 : Own ((w1.setItBuf i (some n)).setItBuf j none) (x :: []) :=
        own_setItBuf (it := b) (setItBuf_ne (Ne.symm hij) (by rw [hw.2.2.2]; exact hb) _) h1 fun i => by simp [hy]
      exact (dtor_own h2).mono (fun _ _ h => h.1) fun _ h => h.elim
  · rename_i x y hx hy
    have px := in_it ha hx
    have py := in_it hb hy
    refine Sp.bind ((moveC_own h (i := x) (by omega)).mono (fun _ _ h => h) fun _ h => h.1) fun t w1 hw => ?_
    refine Sp.bind (Q := fun _ w' => Own w' [t]) (Sp.unwind (E := fun w' => Own w' [t]) ?_ fun w2 hw2 => ?_) fun _ w2 hw2 => ?_
    · refine Sp.bind (Q := fun _ w' => Own w' [t] ∧ Same w1 w') ?_ fun _ w2 hw2 => ?_
      · refine (moveA_own hw.1 ?_ ?_).mono (fun _ _ h => h) fun _ h => h.1
        · rw [hw.2.places]; omega
        · rw [hw.2.places]; omega
      · refine (moveA_own hw2.1 ?_ ?_).mono (fun _ _ h => h.1) fun _ h => h.1
        · rw [hw2.2.places, hw.2.places]; omega
        · simp; omega
    · exact (dtor_own hw2).mono (fun _ _ h => h.1) fun _ h => h.elim
    · exact (dtor_own hw2).mono (fun _ _ h => h.1) fun _ h => h.elim

theorem itMoveAssign_own {w : W V} (h : Own w []) (i j : Nat) : Sp (itMoveAssign i j w) (fun _ w' => Own w' []) (fun w' => Own w' []) := by
  refine Sp.legal fun a ha => Sp.legal fun b hb => ?_
  split
  · trivial
  · rename_i hij
    obtain ⟨a1, ha1, hab1⟩ := setItChan_it (it?_some ha) i b.chan
    obtain ⟨b1, hb1, hbb1⟩ := setItChan_it (it?_some hb) i b.chan
    obtain ⟨a2, ha2, hab2⟩ := setItChan_it ha1 j a.chan
    obtain ⟨b2, hb2, hbb2⟩ := setItChan_it hb1 j a.chan
    rw [← hab1, ← hbb1, ← hab2, ← hbb2]
    exact swapBuf_own (own_setItChan (own_setItChan h _ _) _ _) hij ha2 hb2

theorem itDestroy_own {w : W V} (h : Own w []) (i : Nat) : Sp (itDestroy i w) (fun _ w' => Own w' []) (fun w' => Own w' []) := by
  refine Sp.legal fun it hit => ?_
  have hi := it?_some hit
  have h1 : Own { w with its := w.its.set i none } (it.buf.toList ++ []) := by
    intro k
    have h1 := h k
    have h2 := sum_set w.its i none (fun o => (held o).count k) hi
    have h4 : alive { w with its := w.its.set i none } k = alive w k := rfl
    have h5 : (held (some it)).count k = it.buf.toList.count k := rfl
    have h6 : (held none).count k = 0 := rfl
    simp only [List.append_nil, List.count_nil] at h1 ⊢
    unfold places at h1 ⊢
    dsimp only
    omega
  exact (dtors_own h1).mono (fun _ _ h => h.1) fun _ h => h.elim

theorem itTake_own {w : W V} (h : Own w []) (i : Nat) : Sp (itTake i w) (fun r w' => Own w' [r]) (fun w' => Own w' []) := by
  refine Sp.legal fun it hit => Sp.legal fun b hb => ?_
  refine (moveC_own h (i := b) ?_).mono (fun _ _ h => h.1) fun _ h => h.1
  have := in_it (it?_some hit) hb; omega

theorem own_mine {w : W V} {L : List Nat} (h : Own w L) : Own { w with mine := L ++ w.mine } [] := by
  intro i
  have h1 := h i
  have h2 : alive { w with mine := L ++ w.mine } i = alive w i := rfl
  unfold places at *
  simp only [List.count_append, List.count_nil]
  omega

theorem own_chans {w : W V} {L : List Nat} (h : Own w L) {cs : List Chan} (hc : ∀ i, (cs.map fun c => c.buf.count i).sum = (w.chans.map fun c => c.buf.count i).sum) :
    Own { w with chans := cs } L := by
  intro i
  have h1 := h i
  have h2 : alive { w with chans := cs } i = alive w i := rfl
  unfold places at *
  dsimp only
  rw [hc]; omega

theorem step_own {w : W V} (h : Own w []) (hs : Single w) (o : Op V) : Sp (step w o) (fun _ w' => Own w' []) (fun w' => Own w' []) := by
  cases o with
  | newChan k => exact own_chans h fun i => by simp
  | create v => exact Sp.bind ((make_own h v).mono (fun _ _ h => h) fun _ h => h.1) fun n w' hw => own_mine (L := [n]) hw.1
  | drop i =>
    simp only [step]
    split
    · rename_i hm
      have h1 : Own { w with mine := w.mine.erase i } (i :: []) := by
        intro k
        have h1 := h k
        have h2 : alive { w with mine := w.mine.erase i } k = alive w k := rfl
        have h3 := List.count_pos_iff.2 hm
        have h4 := List.count_erase (a := k) (b := i) (l := w.mine)
        unfold places at *
        dsimp only
        rw [List.count_cons]
        by_cases hk : i = k
        · subst hk; simp at h4 ⊢; simp at h1; omega
        · have e1 : (i == k) = false := by simpa using hk
          rw [e1] at h4 ⊢
          simp at h4 ⊢; simp at h1; omega
      exact Sp.bind ((dtor_own h1).mono (fun _ _ h => h) fun _ h => h.elim) fun _ w hw => hw.1
    · trivial
  | push c a =>
    simp only [step]
    split
    · rename_i ha; exact Sp.bind (push_own h c ha) fun _ w hw => hw
    · trivial
  | tryPush c a =>
    simp only [step]
    split
    · rename_i ha; exact Sp.bind (tryPush_own h c ha) fun _ w hw => hw
    · trivial
  | pop c => exact Sp.bind ((pop_own h hs c).mono (fun _ _ h => h) fun _ h => h.1) fun r w hw => own_mine hw.1
  | tryPop c => exact Sp.bind ((tryPop_own h hs c).mono (fun _ _ h => h) fun _ h => h.1) fun r w hw => own_mine hw.1
  | close c =>
    refine Sp.legal fun ch hch => own_chans h fun i => ?_
    have := sum_modify w.chans c (fun ch => { ch with closed := true }) (fun c => c.buf.count i) (chan?_some hch).1
    dsimp only at this; omega
  | dropChan c =>
    refine Sp.legal fun ch hch => ?_
    have h1 : Own { w with chans := w.chans.modify c fun ch => { ch with buf := [], gone := true } } (ch.buf ++ []) := by
      intro i
      have h1 := h i
      have h2 := sum_modify w.chans c (fun ch => { ch with buf := [], gone := true }) (fun c => c.buf.count i) (chan?_some hch).1
      have h3 : alive { w with chans := w.chans.modify c fun ch => { ch with buf := [], gone := true } } i = alive w i := rfl
      unfold places at *
      simp at h2 h1 ⊢
      omega
    exact Sp.bind ((dtors_own h1).mono (fun _ _ h => h) fun _ h => h.elim) fun _ w hw => hw.1
  | begin_ c => exact Sp.bind (begin_own h hs c) fun _ w hw => hw
  | inc i => exact Sp.bind ((advance_own h hs i).mono (fun _ _ h => h) fun _ h => h.1) fun _ w hw => hw
  | itTake i => exact Sp.bind (itTake_own h i) fun r w hw => own_mine (L := [r]) hw
  | itCopy i => exact Sp.bind (itCopy_own h i) fun _ w hw => hw
  | itMove i => exact Sp.bind (itMove_own h i) fun _ w hw => hw
  | itCopyAssign i j => exact Sp.bind (itCopyAssign_own h i j) fun _ w hw => hw
  | itMoveAssign i j => exact Sp.bind (itMoveAssign_own h i j) fun _ w hw => hw
  | itDestroy i => exact Sp.bind (itDestroy_own h i) fun _ w hw => hw

end Verif.Elements
