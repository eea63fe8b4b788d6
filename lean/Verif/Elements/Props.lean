import Verif.Elements.Pres

/-!
C90: element objects in `channel` and `exchange_channel`. No history of calls uses a destroyed object, leaks one or destroys one twice, and no value is duplicated or disappears, whichever element
operations throw.
-/
namespace Verif.Elements

variable {V : Type}

/-! ### Specification -/

/-- All places where there are objects: the program itself, the channels, the buffers of the iterators. -/
def owned (w : W V) : List Nat :=
  w.mine ++ w.chans.flatMap (·.buf) ++ w.its.flatMap fun o => match o with
    | some it => it.buf.toList
    | none => []

/-- The object with number `i` exists. -/
def Live (w : W V) (i : Nat) : Prop := ∃ x, w.cells[i]? = some (some x)

/-- Does this operation construct object `i`? -/
def builds (i : Nat) : Act V → Bool
  | .make n _ => n == i
  | .copyC _ n _ => n == i
  | .moveC _ n => n == i
  | _ => false

/-- Does this operation destroy object `i`? -/
def kills (i : Nat) : Act V → Bool
  | .dtor j _ => j == i
  | _ => false

/-- The value that an operation brings into being: of a construction from arguments, or a copy. -/
def created : Act V → Option V
  | .make _ v => some v
  | .copyC _ _ v => v
  | .copyA _ _ v => v
  | _ => none

/-- The value that an operation ends. -/
def ended : Act V → Option V
  | .dtor _ v => v
  | .lost v => some v
  | _ => none

/-- What was done since the beginning. -/
def acts (w : W V) : List (Act V) := w.log.map (·.2)

/-! ### From counting to lists -/

theorem count_flatMap {α : Type} (f : α → List Nat) (i : Nat) : ∀ l : List α, (l.flatMap f).count i = (l.map fun a => (f a).count i).sum
  | [] => rfl
  | a :: l => by simp [List.flatMap_cons, List.count_append, count_flatMap f i l]

theorem count_owned (w : W V) (i : Nat) : (owned w).count i = places w i := by
  unfold owned places
  rw [List.count_append, List.count_append, count_flatMap, count_flatMap]
  rfl

theorem live_iff (w : W V) (i : Nat) : Live w i ↔ alive w i = 1 := by
  unfold Live alive
  constructor
  · rintro ⟨x, hx⟩; rw [hx]
  · intro h
    split at h
    · rename_i x hx; exact ⟨x, hx⟩
    · cases h

/-- Induction over a run. -/
theorem run_ind {I : W V → Prop} (hI : ∀ w o, I w → Sp (step w o) (fun _ w' => I w') I) : ∀ (os : List (Op V)) (w : W V), I w → Sp (run w os) (fun _ w' => I w') fun _ => True
  | [], w, h => h
  | o :: os, w, h => by
    have h1 := hI w o h
    unfold run
    cases hs : step w o with
    | ok a w1 => rw [hs] at h1; exact run_ind hI os w1 h1
    | threw w1 => rw [hs] at h1; exact run_ind hI os w1 h1
    | ub => rw [hs] at h1; exact h1
    | _ => trivial

theorem Sp.and {α : Type} {o : Out V α} {P R : W V → Prop} (h : Sp o (fun _ w => P w) P) (h' : Pr o R) : Sp o (fun _ w => P w ∧ R w) fun w => P w ∧ R w := by
  cases o with
  | ok a w => exact ⟨h, h'⟩
  | threw w => exact ⟨h, h'⟩
  | ub => exact h
  | _ => trivial

/-- All invariants together. -/
theorem run_all {R : W V → Prop} (hR : Closed R) {w : W V} (h : (Own w [] ∧ Fine w) ∧ R w) (os : List (Op V)) :
    Sp (run w os) (fun _ w' => (Own w' [] ∧ Fine w') ∧ R w') fun _ => True :=
  run_ind (I := fun w => (Own w [] ∧ Fine w) ∧ R w)
    (fun w o h => (Sp.and (P := fun w => Own w [] ∧ Fine w) (Sp.and (P := fun w => Own w []) (step_own h.1.1 (fun c hc => (h.1.2.1 c hc).1) o) (step_fine w h.1.2 o)) (hR.step w h.2 o))) os w h

theorem init_own (fs : List Fault) : Own (init fs : W V) [] := fun _ => rfl

theorem init_fine (fs : List Fault) : Fine (init fs : W V) := ⟨(fun c hc => by cases hc), rfl⟩

theorem closed_true : Closed (fun _ : W V => True) := by
  constructor <;> intros <;> first | trivial | (unfold Pr; split <;> trivial)

theorem run_own (fs : List Fault) (os : List (Op V)) : Sp (run (init fs) os) (fun _ w => Own w [] ∧ Fine w) fun _ => True :=
  (run_all closed_true ⟨⟨init_own fs, init_fine fs⟩, trivial⟩ os).mono (fun _ _ h => h.1) fun _ h => h

/-! ### No object is used after its end, none is leaked -/

/-- No history of calls, whatever operations of the elements throw, uses an object that does not exist (any more). -/
theorem elements_no_ub (fs : List Fault) (os : List (Op V)) : run (init fs) os ≠ .ub := by
  intro h
  have := run_own fs os
  rw [h] at this
  exact this

/-- After any history every object that exists is in exactly one place, and what the program, the channels and the iterators have are objects that exist. -/
theorem elements_owned {fs : List Fault} {os : List (Op V)} {w : W V} (h : run (init fs) os = .ok () w) :
    (owned w).Nodup ∧ ∀ i, i ∈ owned w ↔ Live w i := by
  have := run_own fs os
  rw [h] at this
  have ho : ∀ i, (owned w).count i = alive w i := fun i => by rw [count_owned]; simpa using this.1 i
  refine ⟨List.nodup_iff_count.2 fun i => by rw [ho]; exact alive_le w i, fun i => ?_⟩
  rw [live_iff, ← ho, ← List.count_pos_iff]
  have := alive_le w i
  rw [← ho] at this
  omega

/-- The mutex is free between the calls, whichever operation threw. -/
theorem elements_unlocked {fs : List Fault} {os : List (Op V)} {w : W V} (h : run (init fs) os = .ok () w) : w.locked = false := by
  have := run_own fs os
  rw [h] at this
  exact this.2.2

/-! ### Constructions and destructions -/

/-- How often `p` holds in the log. -/
def cnt (p : Act V → Bool) (w : W V) : Nat := (acts w).countP p

theorem cnt_act (p : Act V → Bool) (w : W V) (a : Act V) : cnt p (w.act a) = cnt p w + if p a then 1 else 0 := by
  simp [cnt, acts, W.act, List.countP_append, List.countP_cons]

/-- Each object below the number of objects was constructed once, and destroyed once if it does not exist any more; the others were not constructed yet. -/
def LogI (w : W V) : Prop := ∀ i,
  cnt (builds i) w = (if i < w.cells.length then 1 else 0) ∧ cnt (kills i) w + alive w i = cnt (builds i) w

theorem alive_lt {w : W V} {i : Nat} {x : Option V} (h : w.cells[i]? = some (some x)) : i < w.cells.length := (List.getElem?_eq_some_iff.1 h).1

theorem logI_same {w w' : W V} (h : LogI w) (hl : ∀ i, cnt (builds i) w' = cnt (builds i) w) (hk : ∀ i, cnt (kills i) w' = cnt (kills i) w) (hc : w'.cells.length = w.cells.length)
    (ha : ∀ i, alive w' i = alive w i) : LogI w' := fun i => by
  rw [hl, hk, hc, ha]; exact h i

theorem logI_new {w w' : W V} {a : Act V} {y : Option V} {cs : List (Option (Option V))} (h : LogI w) (hcs : cs.length = w.cells.length) (hal : ∀ i : Nat, (∃ x, cs[i]? = some (some x)) ↔ Live w i)
    (hb : ∀ i, builds i a = (w.cells.length == i)) (hk : ∀ i, kills i a = false) (hw : w'.cells = cs ++ [some y]) (hlog : w'.log = w.log ++ [(w.locked, a)]) : LogI w' := by
  intro i
  have hcb : cnt (builds i) w' = cnt (builds i) w + if w.cells.length == i then 1 else 0 := by
    rw [← hb]; simp [cnt, acts, hlog, List.countP_append, List.countP_cons]
  have hck : cnt (kills i) w' = cnt (kills i) w := by
    simp [cnt, acts, hlog, List.countP_append, hk]
  have hlen : w'.cells.length = w.cells.length + 1 := by rw [hw]; simp [hcs]
  obtain ⟨h1, h2⟩ := h i
  rw [hcb, hck, hlen]
  by_cases hi : w.cells.length = i
  · have ha : alive w' i = 1 := by
      unfold alive; rw [hw, ← hi, ← hcs, List.getElem?_append_right (Nat.le_refl _)]; simp
    have h0 : alive w i = 0 := by unfold alive; rw [← hi, List.getElem?_eq_none (Nat.le_refl _)]
    rw [ha]
    rw [h0] at h2
    simp only [hi, beq_self_eq_true, if_true] at *
    rw [if_neg (Nat.lt_irrefl _)] at h1
    rw [if_pos (Nat.lt_succ_self _)]
    omega
  · have ha : alive w' i = alive w i := by
      have e : w'.cells[i]? = cs[i]? ∨ ((w'.cells[i]? = none) ∧ cs[i]? = none) := by
        rw [hw]
        by_cases hlt : i < cs.length
        · left; rw [List.getElem?_append_left hlt]
        · right; exact ⟨List.getElem?_eq_none (by simp; omega), List.getElem?_eq_none (by omega)⟩
      have e' : (∃ x, w'.cells[i]? = some (some x)) ↔ ∃ x, cs[i]? = some (some x) := by
        rcases e with e | ⟨e, e'⟩
        · rw [e]
        · rw [e, e']
      have e'' : Live w' i ↔ Live w i := e'.trans (hal i)
      rw [live_iff, live_iff] at e''
      have := alive_le w i; have := alive_le w' i
      omega
    rw [ha]
    have : (w.cells.length == i) = false := by simp [hi]
    simp only [this, Bool.false_eq_true, if_false]
    have hii : (i < w.cells.length + 1) ↔ i < w.cells.length := by omega
    simp only [hii]
    exact ⟨h1, h2⟩

theorem alive_set_some {w w' : W V} {j : Nat} {x y : Option V} (hj : w.cells[j]? = some (some x)) (hw : w'.cells = w.cells.set j (some y)) (i : Nat) : alive w' i = alive w i := by
  unfold alive
  rw [hw, List.getElem?_set]
  by_cases hij : j = i
  · subst hij; rw [if_pos rfl, if_pos (alive_lt hj), hj]
  · rw [if_neg hij]

theorem live_set_some {w : W V} {j : Nat} {x y : Option V} (hj : w.cells[j]? = some (some x)) (i : Nat) : (∃ x, (w.cells.set j (some y))[i]? = some (some x)) ↔ Live w i := by
  have := alive_set_some (w' := { w with cells := w.cells.set j (some y) }) hj rfl i
  exact (live_iff { w with cells := w.cells.set j (some y) } i).trans (by rw [this, live_iff])

theorem cnt_log {p : Act V → Bool} {w w' : W V} (h : w'.log = w.log) : cnt p w' = cnt p w := by simp [cnt, acts, h]

theorem logI_gut {w : W V} (h : LogI w) {j : Nat} {x : Option V} (hj : w.cells[j]? = some (some x)) (f : Fault) : LogI (gut j x f w) := by
  unfold gut
  split
  · exact logI_same h (fun i => by rw [cnt_act]; rfl) (fun i => by rw [cnt_act]; rfl) (by simp [W.act]) (alive_set_some hj rfl)
  · exact h

theorem logI_overwrite {w : W V} (h : LogI w) (y : Option V) : LogI (overwrite y w) := by
  unfold overwrite
  split
  · exact logI_same h (fun i => by rw [cnt_act]; rfl) (fun i => by rw [cnt_act]; rfl) rfl fun _ => rfl
  · exact h

theorem closed_log : Closed (LogI (V := V)) := by
  refine ⟨fun v w h => ?_, fun i w h => ?_, fun i w h => ?_, fun i j w h => ?_, fun i j w h => ?_, fun i w h => ?_, fun w b cs m its h => ?_⟩
  · unfold make; dsimp only
    split
    · exact logI_new h (cs := w.cells) rfl (fun _ => Iff.rfl) (fun _ => rfl) (fun _ => rfl) rfl rfl
    · exact h
  · unfold copyC; dsimp only
    split
    · split
      · exact logI_new h (cs := w.cells) rfl (fun _ => Iff.rfl) (fun _ => rfl) (fun _ => rfl) rfl rfl
      · exact h
    · trivial
  · unfold moveC; dsimp only
    split
    · rename_i x hx
      split
      · exact logI_new h (cs := w.cells.set i (some none)) (by simp) (live_set_some hx) (fun _ => rfl) (fun _ => rfl) rfl rfl
      · exact logI_gut (w := { w with faults := w.faults.tail }) h hx _
    · trivial
  · unfold copyA; dsimp only
    split
    · rename_i y x hy hx
      split
      · refine logI_same (w := overwrite y { w with faults := w.faults.tail, cells := w.cells.set i (some x) }) (logI_overwrite ?_ y) (fun i => by rw [cnt_act]; rfl) (fun i => by rw [cnt_act]; rfl) rfl fun _ => rfl
        exact logI_same h (fun i => rfl) (fun i => rfl) (by simp) (alive_set_some hy rfl)
      · exact h
    · trivial
  · unfold moveA; dsimp only
    split
    · rename_i y x hy hx
      split
      · refine logI_same (w := overwrite y { w with faults := w.faults.tail, cells := (w.cells.set i (some x)).set j (some none) }) (logI_overwrite ?_ y) (fun i => by rw [cnt_act]; rfl) (fun i => by rw [cnt_act]; rfl) rfl fun _ => rfl
        refine logI_same h (fun i => rfl) (fun i => rfl) (by simp) fun k => ?_
        have hx' : ∃ z, (w.cells.set i (some x))[j]? = some (some z) := (live_set_some hy j).2 ⟨x, hx⟩
        obtain ⟨z, hz⟩ := hx'
        exact (alive_set_some (w := { w with cells := w.cells.set i (some x) }) hz rfl k).trans (alive_set_some hy rfl k)
      · exact logI_gut (w := { w with faults := w.faults.tail }) h hx _
    · trivial
  · unfold dtor
    split
    · rename_i x hx
      intro k
      obtain ⟨h1, h2⟩ := h k
      rw [cnt_act, cnt_act]
      have e1 : cnt (builds k) { w with cells := w.cells.set i none } = cnt (builds k) w := rfl
      have e2 : cnt (kills k) { w with cells := w.cells.set i none } = cnt (kills k) w := rfl
      rw [e1, e2]
      refine ⟨by simpa [builds, W.act] using h1, ?_⟩
      simp only [builds, kills, Bool.false_eq_true, if_false]
      by_cases hik : i = k
      · subst hik
        have ha : alive w i = 1 := (live_iff w i).1 ⟨x, hx⟩
        have ha' : alive ({ w with cells := w.cells.set i none }.act (Act.dtor i x)) i = 0 := by
          unfold alive W.act; dsimp only; rw [List.getElem?_set, if_pos rfl, if_pos (alive_lt hx)]
        rw [ha'] ; rw [ha] at h2; simp; omega
      · have ha' : alive ({ w with cells := w.cells.set i none }.act (Act.dtor i x)) k = alive w k := by
          unfold alive W.act; dsimp only; rw [List.getElem?_set, if_neg hik]
        rw [ha']
        simpa [hik] using h2
    · trivial
  · exact h

/-- Every object is constructed at most once, destroyed at most once, never destroyed without having been constructed, and exists exactly from its construction to its destruction. -/
theorem elements_lifetime {fs : List Fault} {os : List (Op V)} {w : W V} (h : run (init fs) os = .ok () w) (i : Nat) :
    (acts w).countP (builds i) ≤ 1 ∧ (acts w).countP (kills i) ≤ (acts w).countP (builds i) ∧
    (Live w i ↔ (acts w).countP (builds i) = 1 ∧ (acts w).countP (kills i) = 0) := by
  have := run_all (V := V) closed_log (w := init fs) ⟨⟨init_own fs, init_fine fs⟩, fun i => ⟨rfl, rfl⟩⟩ os
  rw [h] at this
  obtain ⟨h1, h2⟩ := this.2 i
  have ha := alive_le w i
  rw [live_iff]
  unfold cnt at *
  by_cases hi : i < w.cells.length
  · rw [if_pos hi] at h1; omega
  · rw [if_neg hi] at h1; omega

/-- Nothing is leaked: once the program gave up its own objects, the channels and the iterators, every object that was ever constructed was destroyed exactly once. -/
theorem elements_no_leak {fs : List Fault} {os : List (Op V)} {w : W V} (h : run (init fs) os = .ok () w)
    (hm : w.mine = []) (hc : ∀ c ∈ w.chans, c.gone = true) (hi : ∀ o ∈ w.its, o = none) :
    ∀ i, ¬ Live w i ∧ (acts w).countP (kills i) = (acts w).countP (builds i) := by
  intro i
  have hl : ¬ Live w i := by
    rw [← (elements_owned h).2 i]
    have := run_own fs os
    rw [h] at this
    have hs := this.2.1
    unfold owned
    simp only [hm, List.nil_append, List.mem_append, List.mem_flatMap, not_or, not_exists, not_and]
    constructor
    · intro c hcm
      rw [(hs c hcm).2 (hc c hcm)]; simp
    · intro o ho
      rw [hi o ho]; simp
  have hli := elements_lifetime h i
  refine ⟨hl, ?_⟩
  have : ¬ ((acts w).countP (builds i) = 1 ∧ (acts w).countP (kills i) = 0) := fun hh => hl (hli.2.2.2 hh)
  omega

/-! ### Values -/

section
variable [DecidableEq V]

/-- How many objects hold the value? -/
def holders (v : V) (w : W V) : Nat := w.cells.count (some (some v))

/-- How often `f` yields `v` in the log. -/
def vals (f : Act V → Option V) (v : V) (w : W V) : Nat := ((acts w).filterMap f).count v

/-- 1 if the value is `v`. -/
def one (v : V) (x : Option V) : Nat := if x = some v then 1 else 0

theorem vals_act (f : Act V → Option V) (v : V) (w : W V) (a : Act V) : vals f v (w.act a) = vals f v w + one v (f a) := by
  unfold vals acts W.act one
  simp only [List.map_append, List.map_cons, List.map_nil, List.filterMap_append, List.count_append]
  cases h : f a with
  | none => simp [h]
  | some u => simp [h, List.count_cons]

theorem count_set_cell (v : V) : ∀ (l : List (Option (Option V))) (j : Nat) {x : Option V} (y : Option (Option V)), l[j]? = some (some x) →
    (l.set j y).count (some (some v)) + one v x = l.count (some (some v)) + one v y.join
  | [], j, x, y, h => by cases h
  | a :: l, 0, x, y, h => by
    simp only [List.getElem?_cons_zero, Option.some.injEq] at h
    subst h
    have e : ∀ z : Option (Option V), (if z == some (some v) then 1 else 0 : Nat) = one v z.join := by
      intro z
      rcases z with _ | _ | z <;> simp [one]
    simp only [List.set_cons_zero, List.count_cons, e]
    simp only [Option.join]
    have : (some x : Option (Option V)).bind id = x := rfl
    rw [this]
    omega
  | a :: l, j + 1, x, y, h => by
    simp only [List.getElem?_cons_succ] at h
    simp only [List.set_cons_succ, List.count_cons]
    have := count_set_cell v l j y h
    omega

/-- Values brought into being are held or ended. -/
def ValI (w : W V) : Prop := ∀ v, vals created v w = holders v w + vals ended v w

theorem valI_gut {w : W V} (h : ValI w) {j : Nat} {x : Option V} (hj : w.cells[j]? = some (some x)) (f : Fault) : ValI (gut j x f w) := by
  unfold gut
  split
  · rename_i u
    intro v
    rw [vals_act, vals_act]
    have h1 := h v
    have h2 := count_set_cell v w.cells j (some none) hj
    have e1 : vals created v { w with cells := w.cells.set j (some none) } = vals created v w := rfl
    have e2 : vals ended v { w with cells := w.cells.set j (some none) } = vals ended v w := rfl
    have e3 : holders v ({ w with cells := w.cells.set j (some none) }.act (Act.lost u)) = (w.cells.set j (some none)).count (some (some v)) := rfl
    rw [e1, e2, e3]
    unfold holders at h1
    simp [created, ended, one] at *
    omega
  · exact h

theorem holders_append (v : V) (cs : List (Option (Option V))) (x : Option V) : (cs ++ [some x]).count (some (some v)) = cs.count (some (some v)) + one v x := by
  rw [List.count_append]
  cases x <;> simp [one, List.count_cons]

theorem vals_overwrite_c (v : V) (y : Option V) (w : W V) : vals created v (overwrite y w) = vals created v w := by
  cases y with
  | none => rfl
  | some u => unfold overwrite; dsimp only; rw [vals_act]; rfl

theorem vals_overwrite_e (v : V) (y : Option V) (w : W V) : vals ended v (overwrite y w) = vals ended v w + one v y := by
  cases y with
  | none => rfl
  | some u => unfold overwrite; dsimp only; rw [vals_act]; rfl

theorem holders_overwrite (v : V) (y : Option V) (w : W V) : holders v (overwrite y w) = holders v w := by
  cases y <;> rfl

omit [DecidableEq V] in
theorem one_none [DecidableEq V] (v : V) : one v none = 0 := by simp [one]

theorem closed_val : Closed (ValI (V := V)) := by
  refine ⟨fun u w h => ?_, fun i w h => ?_, fun i w h => ?_, fun i j w h => ?_, fun i j w h => ?_, fun i w h => ?_, fun w b cs m its h => ?_⟩
  · unfold make; dsimp only
    split
    · intro v
      rw [vals_act, vals_act]
      have h1 := h v
      have h2 := holders_append v w.cells (some u)
      have e1 : ∀ f, vals f v ({ w with faults := w.faults.tail, cells := w.cells ++ [some (some u)] }) = vals f v w := fun _ => rfl
      unfold holders W.act at *
      dsimp only at *
      rw [e1, e1, h2]
      simp only [created, ended, one_none]
      omega
    · exact h
  · unfold copyC; dsimp only
    split
    · rename_i x hx
      split
      · intro v
        rw [vals_act, vals_act]
        have h1 := h v
        have h2 := holders_append v w.cells x
        have e1 : ∀ f, vals f v ({ w with faults := w.faults.tail, cells := w.cells ++ [some x] }) = vals f v w := fun _ => rfl
        unfold holders W.act at *
        dsimp only at *
        rw [e1, e1, h2]
        simp only [created, ended, one_none]
        omega
      · exact h
    · trivial
  · unfold moveC; dsimp only
    split
    · rename_i x hx
      split
      · intro v
        rw [vals_act, vals_act]
        have h1 := h v
        have h2 := holders_append v (w.cells.set i (some none)) x
        have h3 := count_set_cell v w.cells i (some none) hx
        have e1 : ∀ f, vals f v ({ w with faults := w.faults.tail, cells := w.cells.set i (some none) ++ [some x] }) = vals f v w := fun _ => rfl
        have e2 : one v (some (none : Option V)).join = 0 := one_none v
        unfold holders W.act at *
        dsimp only at *
        rw [e1, e1, h2]
        simp only [created, ended, one_none]
        omega
      · exact valI_gut (w := { w with faults := w.faults.tail }) h hx _
    · trivial
  · unfold copyA; dsimp only
    split
    · rename_i y x hy hx
      split
      · intro v
        rw [vals_act, vals_act, vals_overwrite_c, vals_overwrite_e]
        have h1 := h v
        have h3 := count_set_cell v w.cells i (some x) hy
        have e1 : ∀ f, vals f v ({ w with faults := w.faults.tail, cells := w.cells.set i (some x) }) = vals f v w := fun _ => rfl
        have e2 : one v (some x).join = one v x := rfl
        have e3 := holders_overwrite v y { w with faults := w.faults.tail, cells := w.cells.set i (some x) }
        have e4 : ∀ (w : W V) a, holders v (w.act a) = holders v w := fun _ _ => rfl
        rw [e1, e1, e4, e3]
        unfold holders at *
        simp only [created, ended, one_none]
        omega
      · exact h
    · trivial
  · unfold moveA; dsimp only
    split
    · rename_i y x hy hx
      split
      · intro v
        rw [vals_act, vals_act, vals_overwrite_c, vals_overwrite_e]
        have h1 := h v
        have h3 := count_set_cell v w.cells i (some x) hy
        have hz : (w.cells.set i (some x))[j]? = some (some x) := by
          rw [List.getElem?_set]
          split
          · rw [if_pos (alive_lt hy)]
          · exact hx
        have h4 := count_set_cell v _ j (some none) hz
        have e1 : ∀ f, vals f v ({ w with faults := w.faults.tail, cells := (w.cells.set i (some x)).set j (some none) }) = vals f v w := fun _ => rfl
        have e2 : one v (some x).join = one v x := rfl
        have e5 : one v (some (none : Option V)).join = 0 := one_none v
        have e3 := holders_overwrite v y { w with faults := w.faults.tail, cells := (w.cells.set i (some x)).set j (some none) }
        have e4 : ∀ (w : W V) a, holders v (w.act a) = holders v w := fun _ _ => rfl
        rw [e1, e1, e4, e3]
        unfold holders at *
        simp only [created, ended, one_none]
        omega
      · exact valI_gut (w := { w with faults := w.faults.tail }) h hx _
    · trivial
  · unfold dtor
    split
    · rename_i x hx
      intro v
      rw [vals_act, vals_act]
      have h1 := h v
      have h3 := count_set_cell v w.cells i none hx
      have e1 : ∀ f, vals f v ({ w with cells := w.cells.set i none }) = vals f v w := fun _ => rfl
      have e5 : one v (none : Option (Option V)).join = 0 := one_none v
      have e4 : ∀ (w : W V) a, holders v (w.act a) = holders v w := fun _ _ => rfl
      rw [e1, e1, e4]
      unfold holders at *
      simp only [created, ended, one_none]
      omega
    · trivial
  · exact h

/-- No value is duplicated and none disappears: after any history, a value was brought into being (by a construction from arguments or by a copy) exactly as often as there are objects that hold it
plus the times it ended (its object was destroyed or assigned to, or an operation that threw took it along). -/
theorem elements_values {fs : List Fault} {os : List (Op V)} {w : W V} (h : run (init fs) os = .ok () w) (v : V) :
    ((acts w).filterMap created).count v = w.cells.count (some (some v)) + ((acts w).filterMap ended).count v := by
  have := run_all (V := V) closed_val (w := init fs) ⟨⟨init_own fs, init_fine fs⟩, fun v => rfl⟩ os
  rw [h] at this
  exact this.2 v
end

/-! ### Single calls -/

/-- A `push` or `emplace` that returns `false` did nothing: the argument is untouched, no element operation was performed. -/
theorem push_refused {c : Nat} {a : Arg V} {w w' : W V} (h : push c a w = .ok false w') : w' = w := by
  unfold push legal at h
  split at h
  · dsimp only at h
    split at h
    · injection h with _ h; exact h.symm
    · split at h
      · cases h
      · cases hp : withLock (store c _ a) w with
        | ok b w1 => rw [hp] at h; injection h with h _; cases h
        | _ => rw [hp] at h; cases h
  · cases h

/-- The same for `try_push` and `try_emplace`. -/
theorem tryPush_refused {c : Nat} {a : Arg V} {w w' : W V} (hl : w.locked = false) (h : tryPush c a w = .ok false w') : w' = w := by
  unfold tryPush legal at h
  split at h
  · rename_i ch _
    dsimp only at h
    split at h
    · cases h
    · split at h
      · injection h with _ h; exact h.symm
      · by_cases hf : ch.full = true
        · simp only [hf, if_true] at h
          injection h with _ h
          rw [← h]
          cases w; cases hl; rfl
        · simp only [hf, withLock, Bool.false_eq_true, if_false] at h
          cases hs : store c ch a w.lock with
          | ok b w1 => rw [hs] at h; injection h with h _; cases h
          | _ => rw [hs] at h; cases h
  · cases h

/-- The buffer of a channel after `setBuf`. -/
theorem chan_setBuf {w : W V} {c : Nat} {ch : Chan} (h : w.chan? c = some ch) (b : List Nat) : (w.setBuf c b).chan? c = some { ch with buf := b } := by
  have := chan?_some h
  unfold W.chan? W.setBuf
  simp [this.1, this.2]

theorem cells_chan {w w' : W V} (h : w'.chans = w.chans) (c : Nat) : w'.chan? c = w.chan? c := by unfold W.chan?; rw [h]

/-- `push(std::move(x))` that returns `true` performs exactly one element operation: the move construction of the new last element from `x`, with the mutex held. -/
theorem push_move_queue {c cap i : Nat} {ch : Chan} {x : Option V} {w : W V} (hc : w.chan? c = some ch) (hk : ch.kind = .queue cap) (ho : ch.closed = false) (hf : ch.buf.length < cap)
    (hi : w.cells[i]? = some (some x)) (hq : w.fault = .ok) :
    ∃ w', push c (.move i) w = .ok true w' ∧ w'.log = w.log ++ [(true, .moveC i w.cells.length)] ∧ w'.cells[i]? = some (some none) ∧
      w'.cells[w.cells.length]? = some (some x) ∧ w'.chan? c = some { ch with buf := ch.buf ++ [w.cells.length] } := by
  have hfull : ch.full = false := by unfold Chan.full; rw [hk]; simp; omega
  have hm : moveC i w.lock = .ok w.cells.length ({ w.lock with faults := w.faults.tail, cells := w.cells.set i (some none) ++ [some x] }.act (.moveC i w.cells.length)) := by
    unfold moveC
    have : w.lock.cells[i]? = some (some x) := hi
    have e : w.lock.fault = .ok := hq
    rw [this]; simp only [e]; rfl
  refine ⟨_, by
    unfold push legal
    rw [hc]; dsimp only
    rw [ho, hfull]
    simp only [Bool.false_eq_true, if_false, withLock, store, hk, construct]
    rw [hm]
    rfl, rfl, ?_, ?_, ?_⟩
  · show (w.cells.set i (some none) ++ [some x])[i]? = _
    rw [List.getElem?_append_left (by simpa using alive_lt hi), List.getElem?_set, if_pos rfl, if_pos (alive_lt hi)]
  · show (w.cells.set i (some none) ++ [some x])[w.cells.length]? = _
    rw [List.getElem?_append_right (by simp)]; simp
  · exact chan_setBuf (w := { w with locked := false, log := _, faults := w.faults.tail, cells := w.cells.set i (some none) ++ [some x] }) hc _

/-- `push(x)` that returns `true` copies `x` exactly once, with the mutex held, and leaves `x` alone. -/
theorem push_copy_queue {c cap i : Nat} {ch : Chan} {x : Option V} {w : W V} (hc : w.chan? c = some ch) (hk : ch.kind = .queue cap) (ho : ch.closed = false) (hf : ch.buf.length < cap)
    (hi : w.cells[i]? = some (some x)) (hq : w.fault = .ok) :
    ∃ w', push c (.copy i) w = .ok true w' ∧ w'.log = w.log ++ [(true, .copyC i w.cells.length x)] ∧ w'.cells = w.cells ++ [some x] ∧
      w'.chan? c = some { ch with buf := ch.buf ++ [w.cells.length] } := by
  have hfull : ch.full = false := by unfold Chan.full; rw [hk]; simp; omega
  have hm : copyC i w.lock = .ok w.cells.length ({ w.lock with faults := w.faults.tail, cells := w.cells ++ [some x] }.act (.copyC i w.cells.length x)) := by
    unfold copyC
    have : w.lock.cells[i]? = some (some x) := hi
    have e : w.lock.fault = .ok := hq
    rw [this]; simp only [e]; rfl
  refine ⟨_, by
    unfold push legal
    rw [hc]; dsimp only
    rw [ho, hfull]
    simp only [Bool.false_eq_true, if_false, withLock, store, hk, construct]
    rw [hm]
    rfl, rfl, rfl, ?_⟩
  exact chan_setBuf (w := { w with locked := false, log := _, faults := w.faults.tail, cells := w.cells ++ [some x] }) hc _

theorem construct_threw {a : Arg V} {w w' : W V} (h : construct a w = .threw w') :
    w'.chans = w.chans ∧ w'.mine = w.mine ∧ w'.its = w.its ∧ (∀ i, Live w' i ↔ Live w i) ∧ ((∀ i, a ≠ .move i) → w'.cells = w.cells ∧ w'.log = w.log) := by
  cases a with
  | args v =>
    unfold construct make at h; dsimp only at h
    split at h
    · cases h
    · injection h with h; subst h; exact ⟨rfl, rfl, rfl, fun _ => Iff.rfl, fun _ => ⟨rfl, rfl⟩⟩
  | copy i =>
    unfold construct copyC at h; dsimp only at h
    split at h
    · split at h
      · cases h
      · injection h with h; subst h; exact ⟨rfl, rfl, rfl, fun _ => Iff.rfl, fun _ => ⟨rfl, rfl⟩⟩
    · cases h
  | move i =>
    unfold construct moveC at h; dsimp only at h
    split at h
    · rename_i x hx
      split at h
      · cases h
      · injection h with h; subst h
        unfold gut
        split
        · exact ⟨rfl, rfl, rfl, fun k => live_set_some hx k, fun h => absurd rfl (h i)⟩
        · exact ⟨rfl, rfl, rfl, fun _ => Iff.rfl, fun h => absurd rfl (h i)⟩
    · cases h

/-- If a `push` or `emplace` of `channel` throws, the channel is as before, no object is more or less, and unless the argument was to be moved no object changed. -/
theorem push_threw_queue {c cap : Nat} {a : Arg V} {ch : Chan} {w w' : W V} (hc : w.chan? c = some ch) (hk : ch.kind = .queue cap) (h : push c a w = .threw w') :
    w'.chans = w.chans ∧ (∀ i, Live w' i ↔ Live w i) ∧ ((∀ i, a ≠ .move i) → w'.cells = w.cells ∧ w'.log = w.log) := by
  unfold push legal at h
  rw [hc] at h; dsimp only at h
  split at h
  · cases h
  · split at h
    · cases h
    · simp only [withLock, store, hk] at h
      cases hs : construct a w.lock with
      | ok n w1 => rw [hs] at h; cases h
      | threw w1 =>
        rw [hs] at h
        injection h with h
        obtain ⟨h1, h2, h3, h4, h5⟩ := construct_threw hs
        subst h
        exact ⟨h1, h4, h5⟩
      | _ => rw [hs] at h; cases h

/-- The same is false for `exchange_channel`: the old value is destroyed before the new one is constructed, so that an exception leaves the channel empty. -/
theorem push_threw_exch {c f : Nat} {a : Arg V} {ch : Chan} {w w' : W V} (hc : w.chan? c = some ch) (hk : ch.kind = .exch) (hb : ch.buf = [f]) (h : push c a w = .threw w') :
    w'.chan? c = some { ch with buf := [] } ∧ ¬ Live w' f := by
  unfold push legal at h
  rw [hc] at h; dsimp only at h
  split at h
  · cases h
  · split at h
    · cases h
    · simp only [withLock, store, hk, hb, dtors] at h
      cases hd : dtor f (w.lock.setBuf c []) with
      | ok n w1 =>
        rw [hd] at h
        dsimp only [Out.bind] at h
        have hw1 : w1.chans = (w.setBuf c []).chans ∧ ¬ Live w1 f := by
          unfold dtor at hd
          split at hd
          · rename_i x hx
            injection hd with _ hd; subst hd
            refine ⟨rfl, fun ⟨y, hy⟩ => ?_⟩
            have : (w.cells.set f none)[f]? = some (some y) := hy
            rw [List.getElem?_set, if_pos rfl, if_pos (alive_lt (w := w) hx)] at this
            cases this
          · cases hd
        cases hs : construct a w1 with
        | ok n w2 => rw [hs] at h; cases h
        | threw w2 =>
          rw [hs] at h
          injection h with h
          obtain ⟨h1, _, _, h4, _⟩ := construct_threw hs
          subst h
          exact ⟨(cells_chan (h1.trans hw1.1) c).trans (chan_setBuf hc []), fun hl => hw1.2 ((h4 f).1 hl)⟩
        | _ => rw [hs] at h; cases h
      | threw w1 => unfold dtor at hd; split at hd <;> cases hd
      | _ => rw [hd] at h; cases h

/-- No operation is going to throw. -/
def Quiet (w : W V) : Prop := ∀ f ∈ w.faults, f = .ok

theorem Quiet.ok {w : W V} (h : Quiet w) : w.fault = .ok := by
  unfold W.fault
  cases hf : w.faults with
  | nil => rfl
  | cons a l => exact h a (by rw [hf]; exact List.mem_cons_self)

theorem moveC_ok {i : Nat} {x : Option V} {w : W V} (hi : w.cells[i]? = some (some x)) (hq : w.fault = .ok) :
    moveC i w = .ok w.cells.length { w with faults := w.faults.tail, cells := w.cells.set i (some none) ++ [some x], log := w.log ++ [(w.locked, .moveC i w.cells.length)] } := by
  unfold moveC
  rw [hi]; simp only [hq]; rfl

theorem moveA_ok {i j : Nat} {x y : Option V} {w : W V} (hi : w.cells[i]? = some (some y)) (hj : w.cells[j]? = some (some x)) (hq : w.fault = .ok) :
    ∃ l, moveA i j w = .ok () { w with faults := w.faults.tail, cells := (w.cells.set i (some x)).set j (some none), log := l } := by
  unfold moveA
  rw [hi, hj]; simp only [hq]
  unfold overwrite
  cases y <;> exact ⟨_, rfl⟩

theorem dtor_ok {i : Nat} {x : Option V} {w : W V} (hi : w.cells[i]? = some (some x)) :
    dtor i w = .ok () { w with cells := w.cells.set i none, log := w.log ++ [(w.locked, .dtor i x)] } := by
  unfold dtor
  rw [hi]; rfl

theorem Quiet.tail {w : W V} (h : Quiet w) : ∀ f ∈ w.faults.tail, f = .ok := fun f hf => h f (List.mem_of_mem_tail hf)

theorem fault_of {w : W V} (h : ∀ f ∈ w.faults, f = .ok) : w.fault = .ok := Quiet.ok h

theorem set_app (l : List (Option (Option V))) (x y : Option (Option V)) : (l ++ [x]).set l.length y = l ++ [y] := by
  rw [List.set_append_right _ _ (Nat.le_refl _), Nat.sub_self]; rfl

theorem get_app (l : List (Option (Option V))) (x : Option (Option V)) : (l ++ [x])[l.length]? = some x := by
  rw [List.getElem?_append_right (Nat.le_refl _), Nat.sub_self]; rfl

/-- A `pop` of `channel` that returns an element moves it twice and copies it never: out of the queue with the mutex held, where the moved-from object is then destroyed, and into the result without the
mutex. The element comes from the front, and no other object is touched. -/
theorem pop_queue {c cap f : Nat} {rest : List Nat} {ch : Chan} {x : Option V} {w : W V} (hc : w.chan? c = some ch) (hk : ch.kind = .queue cap) (hb : ch.buf = f :: rest)
    (hf : w.cells[f]? = some (some x)) (hq : Quiet w) :
    ∃ w', pop c w = .ok (some (w.cells.length + 1)) w' ∧
      w'.log = w.log ++ [(true, .moveC f w.cells.length), (true, .dtor f none), (false, .moveC w.cells.length (w.cells.length + 1)), (false, .dtor w.cells.length none)] ∧
      w'.cells = w.cells.set f none ++ [none, some x] ∧ w'.chan? c = some { ch with buf := rest } := by
  have hlt := alive_lt hf
  have h1 : moveC f w.lock = _ := moveC_ok (w := w.lock) hf hq.ok
  have hfc : (w.cells.set f (some none) ++ [some x])[f]? = some (some none) := by
    rw [List.getElem?_append_left (by simpa using hlt), List.getElem?_set, if_pos rfl, if_pos hlt]
  have hse : (w.cells.set f (some none) ++ [some x]).set f none = w.cells.set f none ++ [some x] := by
    rw [List.set_append_left _ _ (by simpa using hlt), List.set_set]
  have hlen : (w.cells.set f (none : Option (Option V))).length = w.cells.length := by simp
  refine ⟨_, by
    unfold pop legal
    rw [hc]; dsimp only
    rw [if_neg (by rw [hb]; simp)]
    unfold take
    rw [hk, hb]; dsimp only
    unfold takeFront
    rw [h1]; dsimp only [Out.unwind, Out.bind]
    rw [dtor_ok (x := none) (by exact hfc)]; dsimp only [Out.bind, W.setBuf, W.lock, W.unlock]
    rw [hse]
    rw [moveC_ok (x := x) (by dsimp only; rw [← hlen]; exact get_app _ _) (fault_of (by exact Quiet.tail hq))]
    dsimp only [Out.unwind, Out.bind, W.unlock, W.lock]
    rw [dtor_ok (x := none) (by
      dsimp only
      rw [← hlen, set_app, List.getElem?_append_left (by simp), get_app])]
    dsimp only [Out.bind]
    rw [show (w.cells.set f none ++ [some x]).length = w.cells.length + 1 by simp], ?_, ?_, ?_⟩
  · simp
  · dsimp only
    rw [← hlen, set_app, List.set_append_left _ _ (by simp), set_app]
    simp
  · have := chan_setBuf (w := w) hc rest
    exact this

/-- A `pop` of `exchange_channel` does the same, all of it with the mutex held. -/
theorem pop_exch {c f : Nat} {ch : Chan} {x : Option V} {w : W V} (hc : w.chan? c = some ch) (hk : ch.kind = .exch) (hb : ch.buf = [f])
    (hf : w.cells[f]? = some (some x)) (hq : Quiet w) :
    ∃ w', pop c w = .ok (some (w.cells.length + 1)) w' ∧
      w'.log = w.log ++ [(true, .moveC f w.cells.length), (true, .dtor f none), (true, .moveC w.cells.length (w.cells.length + 1)), (true, .dtor w.cells.length none)] ∧
      w'.cells = w.cells.set f none ++ [none, some x] ∧ w'.chan? c = some { ch with buf := [] } := by
  have hlt := alive_lt hf
  have h1 : moveC f w.lock = _ := moveC_ok (w := w.lock) hf hq.ok
  have hfc : (w.cells.set f (some none) ++ [some x])[f]? = some (some none) := by
    rw [List.getElem?_append_left (by simpa using hlt), List.getElem?_set, if_pos rfl, if_pos hlt]
  have hse : (w.cells.set f (some none) ++ [some x]).set f none = w.cells.set f none ++ [some x] := by
    rw [List.set_append_left _ _ (by simpa using hlt), List.set_set]
  have hlen : (w.cells.set f (none : Option (Option V))).length = w.cells.length := by simp
  refine ⟨_, by
    unfold pop legal
    rw [hc]; dsimp only
    rw [if_neg (by rw [hb]; simp)]
    unfold take
    rw [hk, hb]; dsimp only
    unfold takeSlot withLock
    dsimp only
    rw [h1]; dsimp only [Out.bind]
    rw [dtor_ok (x := none) (by exact hfc)]; dsimp only [Out.bind, W.setBuf, W.lock, W.unlock]
    rw [hse]
    rw [moveC_ok (x := x) (by dsimp only; rw [← hlen]; exact get_app _ _) (fault_of (by exact Quiet.tail hq))]
    dsimp only [Out.unwind, Out.bind, W.unlock, W.lock]
    rw [dtor_ok (x := none) (by
      dsimp only
      rw [← hlen, set_app, List.getElem?_append_left (by simp), get_app])]
    dsimp only [Out.bind]
    rw [show (w.cells.set f none ++ [some x]).length = w.cells.length + 1 by simp], ?_, ?_, ?_⟩
  · simp
  · dsimp only
    rw [← hlen, set_app, List.set_append_left _ _ (by simp), set_app]
    simp
  · have := chan_setBuf (w := w) hc []
    exact this

/-! ### Iterators -/

/-- Increment of and construction of an iterator of `channel` never throw: the exception of a move of the element terminates the program. -/
theorem channel_iterator_never_throws {i : Nat} {it : It} {ch : Chan} {cap : Nat} {w w' : W V} (hi : w.it? i = some it) (hc : w.chan? it.chan = some ch) (hk : ch.kind = .queue cap) :
    advance i w ≠ .threw w' := by
  unfold advance legal
  rw [hi]; dsimp only
  rw [hc]; dsimp only
  rw [hk]
  intro h
  unfold guardNoexcept at h
  split at h
  · cases h
  · rename_i hn; exact hn _ h

/-- After the move of an iterator the old one is not an end iterator: it has the same object as before, moved from. The new one has the value. -/
theorem moved_iterator {j b : Nat} {it : It} {x : Option V} {w : W V} (hj : w.it? j = some it) (hb : it.buf = some b) (hx : w.cells[b]? = some (some x)) (hq : Quiet w) :
    ∃ w', itMove j w = .ok () w' ∧ w'.it? j = some it ∧ w'.cells[b]? = some (some none) ∧ w'.it? w.its.length = some ⟨it.chan, some w.cells.length⟩ ∧
      w'.cells[w.cells.length]? = some (some x) := by
  have hlt := alive_lt hx
  refine ⟨_, by
    unfold itMove legal
    rw [hj]; dsimp only
    rw [hb]; unfold moveBuf; dsimp only
    rw [moveC_ok hx hq.ok]; dsimp only [Out.bind], ?_, ?_, ?_, ?_⟩
  · unfold W.it? at *
    dsimp only
    rw [List.getElem?_append_left]
    · exact hj
    · exact Nat.lt_of_not_le fun h => by rw [List.getElem?_eq_none h] at hj; cases hj
  · show (w.cells.set b (some none) ++ [some x])[b]? = _
    rw [List.getElem?_append_left (by simpa using hlt), List.getElem?_set, if_pos rfl, if_pos hlt]
  · unfold W.it?; dsimp only
    rw [List.getElem?_append_right (Nat.le_refl _)]; simp
  · show (w.cells.set b (some none) ++ [some x])[w.cells.length]? = _
    rw [List.getElem?_append_right (by simp)]; simp

/-- Move assignment between two iterators that both have an element swaps the elements and the channels. -/
theorem move_assigned_iterators {i j a b : Nat} {ci cj : Nat} {x y : Option V} {w : W V} (hij : i ≠ j) (hi : w.it? i = some ⟨ci, some a⟩) (hj : w.it? j = some ⟨cj, some b⟩) (hab : a ≠ b)
    (ha : w.cells[a]? = some (some x)) (hb : w.cells[b]? = some (some y)) (hq : Quiet w) :
    ∃ w', itMoveAssign i j w = .ok () w' ∧ w'.it? i = some ⟨cj, some a⟩ ∧ w'.it? j = some ⟨ci, some b⟩ ∧ w'.cells[a]? = some (some y) ∧ w'.cells[b]? = some (some x) ∧
      ∀ k, k ≠ a → k ≠ b → k < w.cells.length → w'.cells[k]? = w.cells[k]? := by
  have hla := alive_lt ha
  have hlb := alive_lt hb
  have hits : ∀ k it, w.it? k = some it → w.its[k]? = some (some it) := by
    intro k it h; unfold W.it? at h; split at h
    · rename_i h'; injection h with h; rw [h', h]
    · cases h
  obtain ⟨l1, e1⟩ := moveA_ok (i := a) (j := b) (x := y) (y := none)
    (w := ⟨w.cells.set a (some none) ++ [some x], w.log ++ [(w.locked, .moveC a w.cells.length)], w.faults.tail, w.locked, w.chans, w.mine, ((w.setItChan i cj).setItChan j ci).its⟩)
    (by dsimp only; rw [List.getElem?_append_left (by simpa using hla), List.getElem?_set, if_pos rfl, if_pos hla])
    (by dsimp only; rw [List.getElem?_append_left (by simpa using hlb), List.getElem?_set, if_neg hab, hb]) (fault_of (by exact hq.tail))
  obtain ⟨l2, e2⟩ := moveA_ok (i := b) (j := w.cells.length) (x := x) (y := none)
    (w := ⟨((w.cells.set a (some none) ++ [some x]).set a (some y)).set b (some none), l1, w.faults.tail.tail, w.locked, w.chans, w.mine, ((w.setItChan i cj).setItChan j ci).its⟩)
    (by dsimp only; rw [List.getElem?_set, if_pos rfl, if_pos (by simp; omega)])
    (by dsimp only; rw [List.getElem?_set, if_neg (by omega), List.getElem?_set, if_neg (by omega), List.getElem?_append_right (by simp)]; simp)
    (fault_of (by exact fun f hf => hq.tail f (List.mem_of_mem_tail hf)))
  refine ⟨_, by
    unfold itMoveAssign legal
    rw [hi]; dsimp only
    rw [hj]; dsimp only
    rw [if_neg hij]
    unfold swapBuf
    dsimp only
    rw [moveC_ok (w := (w.setItChan i cj).setItChan j ci) (x := x) ha hq.ok]
    dsimp only [Out.bind]
    rw [show ((w.setItChan i cj).setItChan j ci).cells = w.cells from rfl, show ((w.setItChan i cj).setItChan j ci).log = w.log from rfl,
      show ((w.setItChan i cj).setItChan j ci).faults = w.faults from rfl, show ((w.setItChan i cj).setItChan j ci).locked = w.locked from rfl,
      show ((w.setItChan i cj).setItChan j ci).chans = w.chans from rfl, show ((w.setItChan i cj).setItChan j ci).mine = w.mine from rfl, e1]
    dsimp only [Out.bind]
    rw [e2]
    dsimp only [Out.unwind, Out.bind]
    rw [dtor_ok (x := none) (by dsimp only; rw [List.getElem?_set, if_pos rfl, if_pos (by simp)])], ?_, ?_, ?_, ?_, ?_⟩
  · have := hits i _ hi
    simp [W.it?, W.setItChan, List.getElem?_modify, this, Ne.symm hij]
  · have := hits j _ hj
    simp [W.it?, W.setItChan, List.getElem?_modify, this, hij]
  · dsimp only
    rw [List.getElem?_set, if_neg (by omega), List.getElem?_set, if_neg (by omega), List.getElem?_set, if_neg (Ne.symm hab), List.getElem?_set, if_neg (Ne.symm hab),
      List.getElem?_set, if_pos rfl, if_pos (by simp; omega)]
  · dsimp only
    rw [List.getElem?_set, if_neg (by omega), List.getElem?_set, if_neg (by omega), List.getElem?_set, if_pos rfl, if_pos (by simp; omega)]
  · intro k hka hkb hk
    dsimp only
    rw [List.getElem?_set, if_neg (by omega), List.getElem?_set, if_neg (by omega), List.getElem?_set, if_neg (Ne.symm hkb), List.getElem?_set, if_neg (Ne.symm hkb),
      List.getElem?_set, if_neg (Ne.symm hka), List.getElem?_append_left (by simpa using hk), List.getElem?_set, if_neg (Ne.symm hka)]

/-! ### Exceptions in `pop` and in assignments of iterators -/

theorem moveC_cases {i : Nat} {x : Option V} {w : W V} (hi : w.cells[i]? = some (some x)) :
    (∃ w1, moveC i w = .ok w.cells.length w1 ∧ w1.cells = w.cells.set i (some none) ++ [some x] ∧ w1.chans = w.chans) ∨
    ∃ w1 z, moveC i w = .threw w1 ∧ w1.cells = w.cells.set i (some z) ∧ w1.chans = w.chans := by
  unfold moveC
  rw [hi]; dsimp only
  split
  · exact .inl ⟨_, rfl, rfl, rfl⟩
  · right
    unfold gut
    split
    · exact ⟨_, none, rfl, rfl, rfl⟩
    · obtain ⟨hlt, hx⟩ := List.getElem?_eq_some_iff.1 hi
      refine ⟨_, (w.cells[i]).join, rfl, ?_, rfl⟩
      dsimp only
      rw [hx]
      rw [Option.join_some, ← hx, List.set_getElem_self]

/-- If a `pop` of `channel` throws, the front element is still there, or it was removed and destroyed. -/
theorem pop_threw_queue {c cap f : Nat} {rest : List Nat} {ch : Chan} {x : Option V} {w w' : W V} (hc : w.chan? c = some ch) (hk : ch.kind = .queue cap) (hb : ch.buf = f :: rest)
    (hf : w.cells[f]? = some (some x)) (h : pop c w = .threw w') :
    (w'.chan? c = some ch ∧ ∀ i, Live w' i ↔ Live w i) ∨ (w'.chan? c = some { ch with buf := rest } ∧ ∀ i, Live w' i ↔ Live w i ∧ i ≠ f) := by
  have hlt := alive_lt hf
  have hlen : ∀ y, (w.cells.set f (y : Option (Option V))).length = w.cells.length := by simp
  unfold pop legal at h
  rw [hc] at h; dsimp only at h
  rw [if_neg (by rw [hb]; simp)] at h
  unfold take at h
  rw [hk, hb] at h; dsimp only at h
  unfold takeFront at h
  rcases moveC_cases (w := w.lock) hf with ⟨w1, h1, hc1, hh1⟩ | ⟨w1, z, h1, hc1, hh1⟩
  · right
    rw [h1] at h; dsimp only [Out.unwind, Out.bind] at h
    have hfc : (w.cells.set f (some none) ++ [some x])[f]? = some (some none) := by
      rw [List.getElem?_append_left (by simpa using hlt), List.getElem?_set, if_pos rfl, if_pos hlt]
    have hse : (w.cells.set f (some none) ++ [some x]).set f none = w.cells.set f none ++ [some x] := by
      rw [List.set_append_left _ _ (by simpa using hlt), List.set_set]
    have hd : dtor f (w1.setBuf c rest) = _ := dtor_ok (x := none) (by show w1.cells[f]? = _; rw [hc1]; exact hfc)
    rw [hd] at h; dsimp only [Out.bind] at h
    generalize hw2 : ({ w1.setBuf c rest with cells := (w1.setBuf c rest).cells.set f none, log := _ } : W V) = w2 at h
    have hcells2 : w2.cells = w.cells.set f none ++ [some x] := by rw [← hw2, ← hse]; dsimp only [W.setBuf]; rw [hc1]; rfl
    have hchans2 : w2.chans = (w.setBuf c rest).chans := by rw [← hw2]; dsimp only [W.setBuf]; rw [hh1]; rfl
    have hget : w2.unlock.cells[w.lock.cells.length]? = some (some x) := by
      show w2.cells[w.cells.length]? = _
      rw [hcells2, ← hlen none]; exact get_app _ _
    rcases moveC_cases hget with ⟨w3, h3, hc3, hh3⟩ | ⟨w3, z, h3, hc3, hh3⟩
    · rw [h3] at h; dsimp only [Out.unwind, Out.bind] at h
      have hd2 : ∃ w4, dtor w.lock.cells.length w3 = .ok () w4 := by
        refine ⟨_, dtor_ok (x := none) ?_⟩
        rw [hc3, List.getElem?_append_left (by simpa using alive_lt hget), List.getElem?_set, if_pos rfl, if_pos (alive_lt hget)]
      obtain ⟨w4, hd2⟩ := hd2
      rw [hd2] at h
      cases h
    · rw [h3] at h; dsimp only [Out.unwind, Out.bind] at h
      have hc3' : w3.cells = w.cells.set f none ++ [some z] := by
        rw [hc3]; show w2.cells.set w.cells.length _ = _; rw [hcells2, ← hlen none, set_app]
      have hd2 : dtor w.lock.cells.length w3 = _ := dtor_ok (x := z) (by rw [hc3', show w.lock.cells.length = (w.cells.set f none).length from (hlen none).symm, get_app])
      rw [hd2] at h
      dsimp only at h
      injection h with h
      subst h
      refine ⟨(cells_chan (w := w.setBuf c rest) (by exact hh3.trans hchans2) c).trans (chan_setBuf hc rest), fun i => ?_⟩
      unfold Live
      have e : w3.cells.set w.lock.cells.length none = w.cells.set f none ++ [none] := by
        rw [hc3', show w.lock.cells.length = (w.cells.set f none).length from (hlen none).symm, set_app]
      dsimp only
      rw [e]
      by_cases hi : i < w.cells.length
      · rw [List.getElem?_append_left (by simpa using hi), List.getElem?_set]
        by_cases hfi : f = i
        · subst hfi; simp [hlt]
        · rw [if_neg hfi]
          exact ⟨fun h => ⟨h, Ne.symm hfi⟩, fun h => h.1⟩
      · constructor
        · rintro ⟨y, hy⟩
          rw [List.getElem?_append_right (by simp; omega)] at hy
          exfalso
          cases hz : i - (w.cells.set f none).length with
          | zero => rw [hz] at hy; cases hy
          | succ n => rw [hz] at hy; cases hy
        · rintro ⟨⟨y, hy⟩, _⟩
          exact absurd (alive_lt hy) hi
  · left
    rw [h1] at h; dsimp only [Out.unwind, Out.bind] at h
    injection h with h
    subst h
    refine ⟨(cells_chan (w := w) (by exact hh1) c).trans hc, fun i => ?_⟩
    show (∃ y, w1.cells[i]? = _) ↔ _
    rw [hc1]
    exact live_set_some hf i

/-! ### Claims that are false -/

/-- A `channel` of capacity 1 with element 7. -/
def one7 (fs : List Fault) : W Nat :=
  ⟨[some (some 7)], [], fs, false, [⟨.queue 1, [0], false, false⟩], [], []⟩

/-- A `pop` that throws may lose the element, even if a throwing move leaves its source as it was: it was already taken out when it is moved into the result. -/
theorem pop_strong_refuted : ¬ ∀ (w w' : W Nat) (c : Nat), (∀ f ∈ w.faults, f ≠ .gutted) → pop c w = .threw w' → w'.chan? c = w.chan? c := by
  intro h
  have := h (one7 [.ok, .intact]) _ 0 (by decide) (by rfl)
  exact absurd this (by decide)

/-- An assignment of iterators that throws leaves an iterator with the channel of the one and the element of the other. -/
theorem copy_assign_strong_refuted : ¬ ∀ (w w' : W Nat) (i j : Nat), itCopyAssign i j w = .threw w' → w'.it? i = w.it? i := by
  intro h
  have := h ⟨[some (some 1), some (some 2)], [], [.intact], false, [⟨.queue 1, [], false, false⟩, ⟨.queue 1, [], false, false⟩], [], [some ⟨0, some 0⟩, some ⟨1, some 1⟩]⟩ _ 0 1 (by rfl)
  exact absurd this (by decide)

/-- Not all user code runs without the mutex: a constructor, a move constructor or a destructor of the element that uses the same channel waits for a mutex its own thread has. -/
theorem user_code_unlocked_refuted : ¬ ∀ (w w' : W Nat) (o : Op Nat) (r : Res), w.log = [] → step w o = .ok r w' → ∀ e ∈ w'.log, e.1 = false := by
  intro h
  have := h (one7 []) _ (.pop 0) _ rfl (by rfl)
  exact absurd (this _ List.mem_cons_self) (by decide)

/-! ### Examples -/

/-- A history with both channels, iterators and copies, after which everything was given up. -/
def demo : List (Op Nat) :=
  [.newChan (.queue 2), .newChan .exch, .create 5, .push 0 (.move 0), .push 0 (.args 6), .tryPush 0 (.args 7), .push 1 (.args 8), .push 1 (.args 9), .begin_ 0, .itCopy 0, .inc 0, .itMove 0,
    .itMoveAssign 0 1, .itCopyAssign 2 1, .tryPop 1, .close 0, .inc 0, .drop 0, .itDestroy 0, .itDestroy 1, .itDestroy 2, .dropChan 0, .dropChan 1, .drop 14]

/-- The end of a run. -/
def final (o : Out Nat Unit) : Option (W Nat) :=
  match o with
  | .ok _ w => some w
  | _ => none

example : (final (run (init []) demo)).map (fun w => (w.mine, w.chans.all (·.gone), w.its.all (·.isNone), w.cells.length)) = some ([], true, true, 15) := by decide
-- with an exception in the first `push` of the exchange channel
example : (final (run (init [.ok, .ok, .ok, .intact]) (demo.take 8))).map (fun w => (owned w, w.log.length)) = some ([0, 1, 2, 3], 4) := by decide
-- the queue of capacity 1 is full
example : ∃ w', tryPush 0 (.args 3) (one7 []) = .ok false w' := ⟨_, rfl⟩
example : ∃ w', push 0 (.args 3) { one7 [] with chans := [⟨.queue 1, [0], true, false⟩] } = .ok false w' := ⟨_, rfl⟩
-- room for the element
example : ∃ w', push 0 (.move 0) ({ one7 [] with chans := [⟨.queue 1, [], false, false⟩], mine := [0] } : W Nat) = .ok true w' ∧ w'.cells = [some none, some (some 7)] := ⟨_, rfl, rfl⟩
example : ∃ w', push 0 (.copy 0) ({ one7 [] with chans := [⟨.queue 1, [], false, false⟩], mine := [0] } : W Nat) = .ok true w' ∧ w'.cells = [some (some 7), some (some 7)] := ⟨_, rfl, rfl⟩
example : ∃ w', push 0 (.args 3) ({ one7 [.intact] with chans := [⟨.queue 2, [0], false, false⟩] } : W Nat) = .threw w' := ⟨_, rfl⟩
example : ∃ w', push 0 (.args 3) ({ one7 [.intact] with chans := [⟨.exch, [0], false, false⟩] } : W Nat) = .threw w' ∧ w'.cells = [none] := ⟨_, rfl, rfl⟩
example : ∃ w', pop 0 (one7 []) = .ok (some 2) w' ∧ w'.cells = [none, none, some (some 7)] := ⟨_, rfl, rfl⟩
example : ∃ w', pop 0 ({ one7 [] with chans := [⟨.exch, [0], false, false⟩] } : W Nat) = .ok (some 2) w' ∧ w'.cells = [none, none, some (some 7)] := ⟨_, rfl, rfl⟩
example : ∃ w', pop 0 (one7 [.gutted]) = .threw w' ∧ w'.cells = [some none] := ⟨_, rfl, rfl⟩
example : ∃ w', pop 0 (one7 [.ok, .intact]) = .threw w' ∧ w'.cells = [none, none] := ⟨_, rfl, rfl⟩
/-- Two iterators with elements. -/
def two (fs : List Fault) : W Nat := ⟨[some (some 1), some (some 2)], [], fs, false, [⟨.queue 1, [], true, false⟩, ⟨.queue 1, [], false, false⟩], [], [some ⟨0, some 0⟩, some ⟨1, some 1⟩]⟩
example : Quiet (two []) ∧ (two []).it? 0 = some ⟨0, some 0⟩ ∧ (two []).it? 1 = some ⟨1, some 1⟩ := ⟨(fun f hf => by cases hf), rfl, rfl⟩
example : ∃ w', itMoveAssign 0 1 (two []) = .ok () w' ∧ w'.cells = [some (some 2), some (some 1), none] := ⟨_, rfl, rfl⟩
example : ∃ w', itMove 0 (two []) = .ok () w' ∧ w'.cells = [some none, some (some 2), some (some 1)] := ⟨_, rfl, rfl⟩
example : ∃ w', advance 0 (two []) = .ok () w' ∧ w'.it? 0 = some ⟨0, none⟩ := ⟨_, rfl, rfl⟩

/-! ### Further single calls -/

/-- A closed channel takes nothing: `push`, `emplace` and, where there are any, `try_push` and `try_emplace` return `false` and do nothing, not even with their argument. -/
theorem closed_takes_nothing {c : Nat} {a : Arg V} {ch : Chan} {w : W V} (hc : w.chan? c = some ch) (ho : ch.closed = true) :
    push c a w = .ok false w ∧ (∀ cap, ch.kind = .queue cap → tryPush c a w = .ok false w) := by
  refine ⟨?_, fun cap hk => ?_⟩
  · unfold push legal
    rw [hc]; dsimp only
    rw [ho]; rfl
  · unfold tryPush legal
    rw [hc]; dsimp only
    rw [if_neg (by rw [hk]; simp), ho]; rfl

example : push 0 (.args 5) (two []) = .ok false (two []) := (closed_takes_nothing (ch := ⟨.queue 1, [], true, false⟩) rfl rfl).1

/-- A full queue takes nothing: `push` waits, `try_push` returns `false` and does nothing. -/
theorem full_takes_nothing {c cap : Nat} {a : Arg V} {ch : Chan} {w : W V} (hc : w.chan? c = some ch) (hk : ch.kind = .queue cap) (ho : ch.closed = false)
    (hf : cap ≤ ch.buf.length) : push c a w = .waits ∧ (w.locked = false → tryPush c a w = .ok false w) := by
  have hfull : ch.full = true := by unfold Chan.full; rw [hk]; simp; omega
  refine ⟨?_, fun hl => ?_⟩
  · unfold push legal
    rw [hc]; dsimp only
    rw [ho, hfull]; rfl
  · unfold tryPush legal
    rw [hc]; dsimp only
    rw [if_neg (by rw [hk]; simp), ho, hfull]
    simp only [Bool.false_eq_true, if_false, if_true]
    unfold withLock
    simp only [Out.unwind, Out.bind, W.lock, W.unlock]
    obtain ⟨a1, a2, a3, a4, a5, a6, a7⟩ := w
    simp only at hl
    subst hl; rfl

/-- `emplace(args...)` on an open channel with room constructs the new last element in place, once and with the mutex held, and returns `true`. -/
theorem emplace_queue {c cap : Nat} {v : V} {ch : Chan} {w : W V} (hc : w.chan? c = some ch) (hk : ch.kind = .queue cap) (ho : ch.closed = false)
    (hf : ch.buf.length < cap) (hq : w.fault = .ok) :
    ∃ w', step w (.push c (.args v)) = .ok (.bool true) w' ∧ step w (.tryPush c (.args v)) = .ok (.bool true) w' ∧
      w'.log = w.log ++ [(true, .make w.cells.length v)] ∧ w'.cells = w.cells ++ [some (some v)] ∧
      w'.chan? c = some { ch with buf := ch.buf ++ [w.cells.length] } := by
  have hfull : ch.full = false := by unfold Chan.full; rw [hk]; simp; omega
  have hm : make v w.lock = .ok w.cells.length ({ w.lock with faults := w.faults.tail, cells := w.cells ++ [some (some v)] }.act (.make w.cells.length v)) := by
    unfold make
    have e : w.lock.fault = .ok := hq
    simp only [e]; rfl
  refine ⟨({ w with locked := false, log := w.log ++ [(true, Act.make w.cells.length v)], faults := w.faults.tail, cells := w.cells ++ [some (some v)] } : W V).setBuf c
      (ch.buf ++ [w.cells.length]), ?_, ?_, rfl, rfl, ?_⟩
  · simp only [step, Arg.ok, if_true]
    unfold push legal
    rw [hc]; dsimp only
    rw [ho, hfull]
    simp only [Bool.false_eq_true, if_false, withLock, store, hk, construct]
    rw [hm]; rfl
  · simp only [step, Arg.ok, if_true]
    unfold tryPush legal
    rw [hc]; dsimp only
    rw [if_neg (by rw [hk]; simp), ho, hfull]
    simp only [Bool.false_eq_true, if_false, withLock, store, hk, construct]
    rw [hm]; rfl
  · exact chan_setBuf (w := { w with locked := false, log := _, faults := w.faults.tail, cells := w.cells ++ [some (some v)] }) hc _

example : (one7 []).chan? 0 = some ⟨.queue 1, [0], false, false⟩ ∧ 1 ≤ [0].length := ⟨rfl, by decide⟩

/-- `try_push` on an open channel with room does what `push` does. -/
theorem tryPush_eq_push {c cap : Nat} {a : Arg V} {ch : Chan} {w : W V} (hc : w.chan? c = some ch) (hk : ch.kind = .queue cap) (ho : ch.closed = false) (hf : ch.buf.length < cap) :
    tryPush c a w = push c a w := by
  have hfull : ch.full = false := by unfold Chan.full; rw [hk]; simp; omega
  unfold tryPush push legal
  rw [hc]; dsimp only
  rw [if_neg (by rw [hk]; simp), ho, hfull]
  simp only [Bool.false_eq_true, if_false]
  unfold withLock
  dsimp only
  cases store c ch a w.lock <;> rfl

/-- `pop` and `try_pop` do the same if there is an element, be the channel closed or not. -/
theorem tryPop_eq_pop {c : Nat} {ch : Chan} {w : W V} (hc : w.chan? c = some ch) (hb : ch.buf ≠ [] ∨ ch.closed = true) : tryPop c w = pop c w := by
  unfold tryPop pop legal
  rw [hc]; dsimp only
  rw [if_neg]
  rintro ⟨h1, h2⟩
  rcases hb with hb | hb
  · exact hb h1
  · rw [h2] at hb; cases hb

/-- `push(std::move(x))` of `exchange_channel` destroys the old value, if there is one, and then move-constructs the new one, both with the mutex held. -/
theorem push_move_exch {c i : Nat} {old : Option Nat} {ch : Chan} {x : Option V} {w : W V} (hc : w.chan? c = some ch) (hk : ch.kind = .exch) (ho : ch.closed = false) (hb : ch.buf = old.toList)
    (hold : ∀ f, old = some f → f ≠ i ∧ Live w f) (hi : w.cells[i]? = some (some x)) (hq : w.fault = .ok) :
    ∃ w', push c (.move i) w = .ok true w' ∧ w'.log.map (·.1) = w.log.map (·.1) ++ old.toList.map (fun _ => true) ++ [true] ∧
      (acts w').filter (kills i) = (acts w).filter (kills i) ∧ (∃ l, acts w' = acts w ++ l ++ [.moveC i w.cells.length] ∧ l.length = old.toList.length ∧ ∀ f, old = some f → ∃ y, l = [.dtor f y]) ∧
      w'.cells[i]? = some (some none) ∧ w'.cells[w.cells.length]? = some (some x) ∧ w'.chan? c = some { ch with buf := [w.cells.length] } ∧ (∀ f, old = some f → ¬ Live w' f) := by
  have hlt := alive_lt hi
  have hfull : ch.full = false := by unfold Chan.full; rw [hk]
  have hcc := chan_setBuf (w := w) hc []
  cases old with
  | none =>
    have hm : moveC i (w.lock.setBuf c []) = _ := moveC_ok (w := w.lock.setBuf c []) hi hq
    refine ⟨_, by
      unfold push legal
      rw [hc]; dsimp only
      rw [ho, hfull]
      simp only [Bool.false_eq_true, if_false, withLock, store, hk, construct, hb, Option.toList, dtors, Out.bind]
      rw [hm]
      dsimp only [Out.unwind, Out.bind], ?_, ?_, ?_, ?_, ?_, ?_, ?_⟩
    · simp [W.unlock, W.setBuf, W.lock]
    · simp [acts, W.unlock, W.setBuf, W.lock, kills]
    · exact ⟨[], by simp [acts, W.unlock, W.setBuf, W.lock], rfl, fun _ h => by cases h⟩
    · show (w.cells.set i (some none) ++ [some x])[i]? = _
      rw [List.getElem?_append_left (by simpa using hlt), List.getElem?_set, if_pos rfl, if_pos hlt]
    · show (w.cells.set i (some none) ++ [some x])[w.cells.length]? = _
      rw [List.getElem?_append_right (by simp)]; simp
    · exact chan_setBuf (w := { w.setBuf c [] with locked := false, log := _, faults := w.faults.tail, cells := w.cells.set i (some none) ++ [some x] }) hcc _
    · intro f h; cases h
  | some f =>
    obtain ⟨hfi, y, hy⟩ := hold f rfl
    have hlf := alive_lt hy
    have hd : dtor f (w.lock.setBuf c []) = _ := dtor_ok (w := w.lock.setBuf c []) hy
    have hi' : (w.cells.set f none)[i]? = some (some x) := by rw [List.getElem?_set, if_neg hfi, hi]
    have hm : moveC i { w.lock.setBuf c [] with cells := (w.lock.setBuf c []).cells.set f none, log := (w.lock.setBuf c []).log ++ [((w.lock.setBuf c []).locked, .dtor f y)] } = _ :=
      moveC_ok (w := { w.lock.setBuf c [] with cells := (w.lock.setBuf c []).cells.set f none, log := _ }) hi' hq
    refine ⟨_, by
      unfold push legal
      rw [hc]; dsimp only
      rw [ho, hfull]
      simp only [Bool.false_eq_true, if_false, withLock, store, hk, construct, hb, Option.toList, dtors, Out.bind]
      rw [hd]
      dsimp only [Out.bind]
      rw [hm]
      dsimp only [Out.unwind, Out.bind], ?_, ?_, ?_, ?_, ?_, ?_, ?_⟩
    · simp [W.unlock, W.setBuf, W.lock]
    · simp [acts, W.unlock, W.setBuf, W.lock, kills, hfi]
    · exact ⟨[.dtor f y], by simp [acts, W.unlock, W.setBuf, W.lock], rfl, fun _ h => by injection h with h; subst h; exact ⟨y, rfl⟩⟩
    · show ((w.cells.set f none).set i (some none) ++ [some x])[i]? = _
      rw [List.getElem?_append_left (by simpa using hlt), List.getElem?_set, if_pos rfl, if_pos (by simpa using hlt)]
    · show ((w.cells.set f none).set i (some none) ++ [some x])[w.cells.length]? = _
      rw [List.getElem?_append_right (by simp)]; simp
    · have e : (w.cells.set f (none : Option (Option V))).length = w.cells.length := by simp
      have := chan_setBuf (w := { w.setBuf c [] with locked := false, log := w.log, faults := w.faults.tail, cells := (w.cells.set f none).set i (some none) ++ [some x] }) hcc [w.cells.length]
      dsimp only [W.setBuf, W.lock, W.unlock] at this ⊢
      rw [e]
      exact this
    · intro f' h
      injection h with h; subst h
      rintro ⟨z, hz⟩
      have hz' : ((w.cells.set f none).set i (some none) ++ [some x])[f]? = some (some z) := hz
      rw [List.getElem?_append_left (by simpa using hlf), List.getElem?_set, if_neg (Ne.symm hfi), List.getElem?_set, if_pos rfl, if_pos hlf] at hz'
      cases hz'

/-! ### What iterators show -/

/-- The channel of an iterator, and its element: `none` for an end iterator, the value (`none` when moved from) otherwise. -/
def shows (w : W V) (i : Nat) : Option (Nat × Option (Option V)) :=
  (w.it? i).map fun it => (it.chan, it.buf.bind fun b => (w.cells[b]?).join)

theorem it?_iff {w : W V} {i : Nat} {it : It} : w.it? i = some it ↔ w.its[i]? = some (some it) := by
  unfold W.it?
  split
  · rename_i h; rw [h]; simp
  · rename_i h
    constructor
    · intro h'; cases h'
    · intro h'; exact absurd h' (h it)

theorem it?_of {w : W V} {i : Nat} {it : It} (h : w.its[i]? = some (some it)) : w.it? i = some it := it?_iff.2 h

theorem it?_lt {w : W V} {i : Nat} {it : It} (h : w.it? i = some it) : i < w.its.length := (List.getElem?_eq_some_iff.1 (it?_iff.1 h)).1

/-- A copy of an iterator shows the same as the original, which is as before. -/
theorem copied_iterator {j : Nat} {it : It} {w : W V} (hj : w.it? j = some it) (hl : ∀ b, it.buf = some b → Live w b) (hq : Quiet w) :
    ∃ w', itCopy j w = .ok () w' ∧ shows w' j = shows w j ∧ shows w' w.its.length = shows w j := by
  have hlt := it?_lt hj
  cases hb : it.buf with
  | none =>
    refine ⟨_, by unfold itCopy legal; rw [hj]; dsimp only; rw [hb]; rfl, ?_, ?_⟩
    · unfold shows
      have : ({ w with its := w.its ++ [some ⟨it.chan, none⟩] } : W V).it? j = some it := it?_iff.2 (by dsimp only; rw [List.getElem?_append_left hlt]; exact it?_iff.1 hj)
      rw [this, hj]
    · unfold shows
      have : ({ w with its := w.its ++ [some ⟨it.chan, none⟩] } : W V).it? w.its.length = some ⟨it.chan, none⟩ := it?_iff.2 (by dsimp only; rw [List.getElem?_append_right (Nat.le_refl _)]; simp)
      rw [this, hj]; simp [hb]
  | some b =>
    obtain ⟨x, hx⟩ := hl b hb
    have hm : copyC b w = .ok w.cells.length { w with faults := w.faults.tail, cells := w.cells ++ [some x], log := w.log ++ [(w.locked, .copyC b w.cells.length x)] } := by
      unfold copyC
      rw [hx]; simp only [hq.ok]; rfl
    refine ⟨_, by unfold itCopy legal; rw [hj]; dsimp only; rw [hb]; unfold copyBuf; dsimp only; rw [hm]; rfl, ?_, ?_⟩
    · unfold shows
      rw [hj, it?_of (it := it) (by dsimp only; rw [List.getElem?_append_left hlt]; exact it?_iff.1 hj)]
      simp [hb, List.getElem?_append_left (alive_lt hx)]
    · unfold shows
      rw [hj, it?_of (it := ⟨it.chan, some w.cells.length⟩) (by dsimp only; rw [List.getElem?_append_right (Nat.le_refl _)]; simp)]
      simp [hb, hx]

theorem shows_of {w : W V} {i : Nat} {it : It} (h : w.it? i = some it) : shows w i = some (it.chan, it.buf.bind fun b => (w.cells[b]?).join) := by
  unfold shows; rw [h]; rfl

theorem it?_its {w w' : W V} (h : w'.its = w.its) (i : Nat) : w'.it? i = w.it? i := by unfold W.it?; rw [h]

theorem shows_at {w w0 : W V} {i : Nat} {it : It} (h : w0.it? i = some it) (hs : w.its = w0.its) : shows w i = some (it.chan, it.buf.bind fun b => (w.cells[b]?).join) :=
  shows_of (by rw [it?_its hs]; exact h)

theorem it?_setItBuf {w : W V} {i : Nat} {it : It} (h : w.it? i = some it) (b : Option Nat) : (w.setItBuf i b).it? i = some { it with buf := b } :=
  it?_iff.2 (by have := it?_iff.1 h; simp [W.setItBuf, this])

theorem it?_setItBuf_ne {w : W V} {i j : Nat} (h : i ≠ j) (b : Option Nat) : (w.setItBuf i b).it? j = w.it? j := by
  unfold W.it? W.setItBuf; simp [h]

theorem it?_setItChan {w : W V} {i : Nat} {it : It} (h : w.it? i = some it) (c : Nat) : (w.setItChan i c).it? i = some { it with chan := c } :=
  it?_iff.2 (by have := it?_iff.1 h; simp [W.setItChan, this])

theorem it?_setItChan_ne {w : W V} {i j : Nat} (h : i ≠ j) (c : Nat) : (w.setItChan i c).it? j = w.it? j := by
  unfold W.it? W.setItChan; simp [h]

/-- After copy assignment, also from an end iterator, to an end iterator or of an iterator to itself, both iterators show what the source showed. -/
theorem copy_assigned_iterator {i j : Nat} {a b : It} {w : W V} (hi : w.it? i = some a) (hj : w.it? j = some b) (hla : ∀ k, a.buf = some k → Live w k) (hlb : ∀ k, b.buf = some k → Live w k)
    (hab : i ≠ j → ∀ k, a.buf = some k → b.buf ≠ some k) (hq : Quiet w) :
    ∃ w', itCopyAssign i j w = .ok () w' ∧ shows w' i = shows w j ∧ shows w' j = shows w j := by
  by_cases hij : i = j
  · subst hij
    refine ⟨w, by unfold itCopyAssign legal; rw [hi]; simp, rfl, rfl⟩
  have hi' : (w.setItChan i b.chan).it? i = some { a with chan := b.chan } := it?_setItChan hi _
  have hj' : (w.setItChan i b.chan).it? j = some b := (it?_setItChan_ne hij _).trans hj
  have start : itCopyAssign i j w = copyAssignBuf i a.buf b.buf (w.setItChan i b.chan) := by
    unfold itCopyAssign legal
    rw [hi]; dsimp only; rw [hj]; dsimp only; rw [if_neg hij]
  cases ha : a.buf with
  | none =>
    cases hb : b.buf with
    | none =>
      refine ⟨_, by rw [start, ha, hb]; rfl, ?_, ?_⟩
      · rw [shows_of hi', shows_of hj, ha, hb]; rfl
      · rw [shows_of hj', shows_of hj, hb]; rfl
    | some k =>
      obtain ⟨x, hx⟩ := hlb k hb
      have hm : copyC k (w.setItChan i b.chan) = .ok w.cells.length { w.setItChan i b.chan with faults := w.faults.tail, cells := w.cells ++ [some x], log := w.log ++ [(w.locked, .copyC k w.cells.length x)] } := by
        unfold copyC
        have : (w.setItChan i b.chan).cells[k]? = some (some x) := hx
        have e : (w.setItChan i b.chan).fault = .ok := hq.ok
        rw [this]; simp only [e]; rfl
      refine ⟨_, by rw [start, ha, hb]; unfold copyAssignBuf; dsimp only; rw [hm]; rfl, ?_, ?_⟩
      · rw [shows_of (it?_setItBuf (w := { w.setItChan i b.chan with faults := w.faults.tail, cells := w.cells ++ [some x], log := w.log ++ [(w.locked, .copyC k w.cells.length x)] }) hi' _), shows_of hj, hb]
        simp [W.setItBuf, hx]
      · rw [shows_of ((it?_setItBuf_ne (w := { w.setItChan i b.chan with faults := w.faults.tail, cells := w.cells ++ [some x], log := w.log ++ [(w.locked, .copyC k w.cells.length x)] }) hij _).trans hj'), shows_of hj, hb]
        simp [W.setItBuf, List.getElem?_append_left (alive_lt hx)]
  | some m =>
    obtain ⟨y, hy⟩ := hla m ha
    cases hb : b.buf with
    | none =>
      have hd : dtor m ((w.setItChan i b.chan).setItBuf i none) = _ := dtor_ok (w := (w.setItChan i b.chan).setItBuf i none) hy
      refine ⟨_, by rw [start, ha, hb]; unfold copyAssignBuf; dsimp only; rw [hd]; rfl, ?_, ?_⟩
      · refine (shows_at (it := ⟨b.chan, none⟩) (it?_setItBuf (w := w.setItChan i b.chan) hi' none) (by rfl)).trans ?_
        rw [shows_of hj, hb]; rfl
      · refine (shows_at (it := b) ((it?_setItBuf_ne (w := w.setItChan i b.chan) hij none).trans hj') (by rfl)).trans ?_
        rw [shows_of hj, hb]; rfl
    | some k =>
      obtain ⟨x, hx⟩ := hlb k hb
      have hmk : m ≠ k := fun h => hab hij m ha (by rw [hb, h])
      have hm : ∃ l, copyA m k (w.setItChan i b.chan) = .ok () { w.setItChan i b.chan with faults := w.faults.tail, cells := w.cells.set m (some x), log := l } := by
        unfold copyA
        have h1 : (w.setItChan i b.chan).cells[k]? = some (some x) := hx
        have h2 : (w.setItChan i b.chan).cells[m]? = some (some y) := hy
        have e : (w.setItChan i b.chan).fault = .ok := hq.ok
        rw [h1, h2]; simp only [e]
        unfold overwrite
        cases y <;> exact ⟨_, rfl⟩
      obtain ⟨l, hm⟩ := hm
      refine ⟨_, by rw [start, ha, hb]; exact hm, ?_, ?_⟩
      · refine (shows_at (it := ⟨b.chan, some m⟩) (w0 := w.setItChan i b.chan) (by rw [hi', ha]) (by rfl)).trans ?_
        rw [shows_of hj, hb]
        simp [List.getElem?_set, alive_lt hy, hx]
      · refine (shows_at (it := b) hj' (by rfl)).trans ?_
        rw [shows_of hj, hb]
        simp [List.getElem?_set, hmk]

/-- Move assignment swaps what the iterators show, also if one of them or both are end iterators. -/
theorem move_assigned_iterator {i j : Nat} {a b : It} {w : W V} (hij : i ≠ j) (hi : w.it? i = some a) (hj : w.it? j = some b) (hla : ∀ k, a.buf = some k → Live w k) (hlb : ∀ k, b.buf = some k → Live w k)
    (hab : ∀ k, a.buf = some k → b.buf ≠ some k) (hq : Quiet w) :
    ∃ w', itMoveAssign i j w = .ok () w' ∧ shows w' i = shows w j ∧ shows w' j = shows w i := by
  have hi' : ((w.setItChan i b.chan).setItChan j a.chan).it? i = some { a with chan := b.chan } := (it?_setItChan_ne (Ne.symm hij) _).trans (it?_setItChan hi _)
  have hj' : ((w.setItChan i b.chan).setItChan j a.chan).it? j = some { b with chan := a.chan } := it?_setItChan ((it?_setItChan_ne hij _).trans hj) _
  have start : itMoveAssign i j w = swapBuf i j a.buf b.buf ((w.setItChan i b.chan).setItChan j a.chan) := by
    unfold itMoveAssign legal
    rw [hi]; dsimp only; rw [hj]; dsimp only; rw [if_neg hij]
  have hji : j ≠ i := Ne.symm hij
  cases ha : a.buf with
  | none =>
    cases hb : b.buf with
    | none =>
      refine ⟨_, by rw [start, ha, hb]; rfl, ?_, ?_⟩
      · rw [shows_of hi', shows_of hj, ha, hb]; rfl
      · rw [shows_of hj', shows_of hi, ha, hb]; rfl
    | some k =>
      obtain ⟨x, hx⟩ := hlb k hb
      have hm : moveC k ((w.setItChan i b.chan).setItChan j a.chan) = _ := moveC_ok (w := (w.setItChan i b.chan).setItChan j a.chan) hx hq.ok
      have hlt := alive_lt hx
      have hd := dtor_ok (i := k) (x := none)
        (w := (({ (w.setItChan i b.chan).setItChan j a.chan with faults := w.faults.tail, cells := w.cells.set k (some none) ++ [some x], log := w.log ++ [(w.locked, .moveC k w.cells.length)] } : W V).setItBuf i (some w.cells.length)).setItBuf j none)
        (by show (w.cells.set k (some none) ++ [some x])[k]? = _
            rw [List.getElem?_append_left (by simpa using hlt), List.getElem?_set, if_pos rfl, if_pos hlt])
      refine ⟨_, by rw [start, ha, hb]; unfold swapBuf; dsimp only; rw [hm]; exact hd, ?_, ?_⟩
      · have e := (it?_setItBuf_ne (w := ({ (w.setItChan i b.chan).setItChan j a.chan with faults := w.faults.tail, cells := w.cells.set k (some none) ++ [some x], log := w.log ++ [(w.locked, .moveC k w.cells.length)] } : W V).setItBuf i (some w.cells.length)) hji none).trans
          (it?_setItBuf (w := { (w.setItChan i b.chan).setItChan j a.chan with faults := w.faults.tail, cells := w.cells.set k (some none) ++ [some x], log := w.log ++ [(w.locked, .moveC k w.cells.length)] }) hi' (some w.cells.length))
        refine (shows_at (it := ⟨b.chan, some w.cells.length⟩) e (by rfl)).trans ?_
        rw [shows_of hj, hb]
        have hn : k ≠ w.cells.length := by omega
        simp [W.setItBuf, hx, List.getElem?_set, hn]
      · have e := it?_setItBuf (w := ({ (w.setItChan i b.chan).setItChan j a.chan with faults := w.faults.tail, cells := w.cells.set k (some none) ++ [some x], log := w.log ++ [(w.locked, .moveC k w.cells.length)] } : W V).setItBuf i (some w.cells.length))
          ((it?_setItBuf_ne (w := { (w.setItChan i b.chan).setItChan j a.chan with faults := w.faults.tail, cells := w.cells.set k (some none) ++ [some x], log := w.log ++ [(w.locked, .moveC k w.cells.length)] }) hij (some w.cells.length)).trans hj') none
        refine (shows_at (it := ⟨a.chan, none⟩) e (by rfl)).trans ?_
        rw [shows_of hi, ha]
        rfl
  | some m =>
    obtain ⟨y, hy⟩ := hla m ha
    have hlt := alive_lt hy
    cases hb : b.buf with
    | none =>
      have hm : moveC m ((w.setItChan i b.chan).setItChan j a.chan) = _ := moveC_ok (w := (w.setItChan i b.chan).setItChan j a.chan) hy hq.ok
      have hd := dtor_ok (i := m) (x := none)
        (w := (({ (w.setItChan i b.chan).setItChan j a.chan with faults := w.faults.tail, cells := w.cells.set m (some none) ++ [some y], log := w.log ++ [(w.locked, .moveC m w.cells.length)] } : W V).setItBuf j (some w.cells.length)).setItBuf i none)
        (by show (w.cells.set m (some none) ++ [some y])[m]? = _
            rw [List.getElem?_append_left (by simpa using hlt), List.getElem?_set, if_pos rfl, if_pos hlt])
      refine ⟨_, by rw [start, ha, hb]; unfold swapBuf; dsimp only; rw [hm]; exact hd, ?_, ?_⟩
      · have e := it?_setItBuf (w := ({ (w.setItChan i b.chan).setItChan j a.chan with faults := w.faults.tail, cells := w.cells.set m (some none) ++ [some y], log := w.log ++ [(w.locked, .moveC m w.cells.length)] } : W V).setItBuf j (some w.cells.length))
          ((it?_setItBuf_ne (w := { (w.setItChan i b.chan).setItChan j a.chan with faults := w.faults.tail, cells := w.cells.set m (some none) ++ [some y], log := w.log ++ [(w.locked, .moveC m w.cells.length)] }) hji (some w.cells.length)).trans hi') none
        refine (shows_at (it := ⟨b.chan, none⟩) e (by rfl)).trans ?_
        rw [shows_of hj, hb]
        rfl
      · have e := (it?_setItBuf_ne (w := ({ (w.setItChan i b.chan).setItChan j a.chan with faults := w.faults.tail, cells := w.cells.set m (some none) ++ [some y], log := w.log ++ [(w.locked, .moveC m w.cells.length)] } : W V).setItBuf j (some w.cells.length)) hij none).trans
          (it?_setItBuf (w := { (w.setItChan i b.chan).setItChan j a.chan with faults := w.faults.tail, cells := w.cells.set m (some none) ++ [some y], log := w.log ++ [(w.locked, .moveC m w.cells.length)] }) hj' (some w.cells.length))
        refine (shows_at (it := ⟨a.chan, some w.cells.length⟩) e (by rfl)).trans ?_
        rw [shows_of hi, ha]
        have hn : m ≠ w.cells.length := by omega
        simp [W.setItBuf, hy, List.getElem?_set, hn]
    | some k =>
      obtain ⟨x, hx⟩ := hlb k hb
      obtain ⟨w', h1, h2, h3, h4, h5, _⟩ := move_assigned_iterators (ci := a.chan) (cj := b.chan) (a := m) (b := k) hij (by rw [hi, ← ha]) (by rw [hj, ← hb]) (fun h => hab m ha (by rw [hb, h])) hy hx hq
      refine ⟨w', h1, ?_, ?_⟩
      · rw [shows_of h2, shows_of hj, hb]; simp [h4, hx]
      · rw [shows_of h3, shows_of hi, ha]; simp [h5, hy]

/-- Moving out of an iterator yields its value; the iterator stays where it is, with a moved-from element. -/
theorem taken_from_iterator {i b : Nat} {it : It} {x : Option V} {w : W V} (hi : w.it? i = some it) (hb : it.buf = some b) (hx : w.cells[b]? = some (some x)) (hq : Quiet w) :
    ∃ w', itTake i w = .ok w.cells.length w' ∧ w'.cells[w.cells.length]? = some (some x) ∧ shows w' i = some (it.chan, some none) := by
  have hlt := alive_lt hx
  refine ⟨_, by unfold itTake legal; rw [hi]; dsimp only; rw [hb]; exact moveC_ok hx hq.ok, ?_, ?_⟩
  · dsimp only
    rw [List.getElem?_append_right (by simp)]; simp
  · refine (shows_at hi (by rfl)).trans ?_
    rw [hb]
    simp [List.getElem?_append_left, hlt]

example : shows (two []) 0 = some (0, some (some 1)) ∧ shows (two []) 1 = some (1, some (some 2)) := ⟨rfl, rfl⟩
example : ∃ w', itCopyAssign 0 1 (two []) = .ok () w' ∧ shows w' 0 = some (1, some (some 2)) := ⟨_, rfl, rfl⟩
example : ∃ w', itCopy 1 (two []) = .ok () w' ∧ shows w' 2 = some (1, some (some 2)) := ⟨_, rfl, rfl⟩
example : ∃ w', itTake 1 (two []) = .ok 2 w' ∧ shows w' 1 = some (1, some none) := ⟨_, rfl, rfl⟩
example : ∃ w', push 0 (.move 1) (⟨[some (some 7), some (some 8)], [], [], false, [⟨.exch, [0], false, false⟩], [1], []⟩ : W Nat) = .ok true w' ∧ w'.cells = [none, some none, some (some 8)] := ⟨_, rfl, rfl⟩
example : ∃ w', tryPush 0 (.args 4) ({ one7 [] with chans := [⟨.queue 2, [0], false, false⟩] } : W Nat) = .ok true w' := ⟨_, rfl⟩
example : ∃ w', tryPop 0 ({ one7 [] with chans := [⟨.queue 1, [0], true, false⟩] } : W Nat) = .ok (some 2) w' := ⟨_, rfl⟩

/-! ### An iterator whose constructor throws -/

theorem elem_its {l : List (Option It)} {w : W V} (h : w.its = l) : (∀ i, Pr (moveC i w) fun w' => w'.its = l) ∧ ∀ i, Pr (dtor i w) fun w' => w'.its = l := by
  refine ⟨fun i => ?_, fun i => ?_⟩
  · unfold moveC; dsimp only
    split
    · split
      · exact h
      · unfold gut; split <;> exact h
    · trivial
  · unfold dtor
    split
    · exact h
    · trivial

theorem take_its {c : Nat} {ch : Chan} {l : List (Option It)} {w : W V} (h : w.its = l) : Pr (take c ch w) fun w' => w'.its = l := by
  unfold take
  split
  · exact h
  · refine Pr.bind (P := fun w' => w'.its = l) ?_ (fun _ h => h) fun _ _ h => h
    unfold takeFront
    refine Pr.bind (((elem_its (w := w.lock) h).1 _).unwind (f := fun w => .ok () w.unlock) (fun _ h => h) fun _ h => h) (fun _ h => h) fun _ w h => ?_
    refine ((elem_its (w := w.setBuf c _) h).2 _).bind (fun _ h => h) fun _ w h => ?_
    refine Pr.bind (((elem_its (w := w.unlock) h).1 _).unwind (fun _ h => h) fun w h => (elem_its h).2 _) (fun _ h => h) fun _ w h => ?_
    exact ((elem_its h).2 _).bind (fun _ h => h) fun _ w h => h
  · refine Pr.bind (P := fun w' => w'.its = l) ?_ (fun _ h => h) fun _ _ h => h
    refine Pr.bind (Pr.unwind (P := fun w' => w'.its = l) ?_ (f := fun w => .ok () w.unlock) (fun _ h => h) fun _ h => h) (fun _ h => h) fun _ w h => h
    refine ((elem_its (w := w.lock) h).1 _).bind (fun _ h => h) fun _ w h => ?_
    refine ((elem_its (w := w.setBuf c _) h).2 _).bind (fun _ h => h) fun _ w h => ?_
    refine Pr.bind (((elem_its h).1 _).unwind (fun _ h => h) fun w h => (elem_its h).2 _) (fun _ h => h) fun _ w h => ?_
    exact ((elem_its h).2 _).bind (fun _ h => h) fun _ w h => h

/-- If `begin()` throws there is no new iterator, and the others are as before. -/
theorem begin_threw {c : Nat} {w w' : W V} (h : begin_ c w = .threw w') : w'.its = w.its := by
  unfold begin_ at h
  cases ha : advance w.its.length { w with its := w.its ++ [some ⟨c, none⟩] } with
  | threw w1 =>
    rw [ha] at h
    injection h with h
    subst h
    suffices w1.its = w.its ++ [some ⟨c, none⟩] by
      show w1.its.dropLast = _; rw [this, List.dropLast_concat]
    unfold advance legal at ha
    rw [it?_of (it := ⟨c, none⟩) (by dsimp only; rw [List.getElem?_append_right (Nat.le_refl _)]; simp)] at ha
    dsimp only at ha
    split at ha
    · rename_i ch hch
      have hp : Pr (pop c { w with its := w.its ++ [some ⟨c, none⟩] }) fun w' => w'.its = w.its ++ [some ⟨c, none⟩] := by
        refine Pr.legal fun ch _ => ?_
        split
        · trivial
        · exact take_its rfl
      cases hpop : pop c { w with its := w.its ++ [some ⟨c, none⟩] } with
      | ok r w2 =>
        rw [hpop] at hp ha
        have hr : Sp (assignBuf w.its.length none r w2) (fun _ _ => True) (fun w' => w'.its = w.its ++ [some ⟨c, none⟩]) ∨ assignBuf w.its.length none r w2 = .ub := by
          cases r with
          | none => exact .inl trivial
          | some r =>
            have hm := ((elem_its hp).1 r).unwind (fun _ h => h) fun w h => (elem_its h).2 r
            unfold assignBuf; dsimp only
            cases hmv : (moveC r w2).unwind (dtor r) with
            | ok n w3 =>
              dsimp only [Out.bind]
              cases hd : dtor r (w3.setItBuf w.its.length (some n)) with
              | threw w4 => unfold dtor at hd; split at hd <;> cases hd
              | ub => exact .inr rfl
              | _ => exact .inl trivial
            | threw w3 => rw [hmv] at hm; exact .inl hm
            | ub => exact .inr rfl
            | _ => exact .inl trivial
        dsimp only [Out.bind] at ha
        rcases hr with hr | hr
        · cases hb : assignBuf w.its.length none r w2 with
          | threw w3 =>
            rw [hb] at ha hr
            unfold guardNoexcept at ha
            dsimp only at ha
            split at ha
            · cases ha
            · injection ha with ha; subst ha; exact hr
          | _ => rw [hb] at ha; cases ha
        · rw [hr] at ha; cases ha
      | threw w2 =>
        rw [hpop] at hp ha
        unfold guardNoexcept at ha
        dsimp only [Out.bind] at ha
        split at ha
        · cases ha
        · injection ha with ha; subst ha; exact hp
      | _ => rw [hpop] at ha; cases ha
    · cases ha
  | _ => rw [ha] at h; cases h

example : ∃ w', begin_ 0 ({ one7 [.intact] with chans := [⟨.exch, [0], false, false⟩] } : W Nat) = .threw w' := ⟨_, rfl⟩

/-! ### The hypotheses of the theorems on single calls, met by small programs -/

/-- A channel of capacity 2 with the element 7, and an object 8 of the program. -/
def room (fs : List Fault) : W Nat := ⟨[some (some 7), some (some 8)], [], fs, false, [⟨.queue 2, [0], false, false⟩], [1], []⟩

/-- The same with an exchange channel. -/
def swapRoom (fs : List Fault) : W Nat := { room fs with chans := [⟨.exch, [0], false, false⟩] }

theorem quiet_nil {w : W V} (h : w.faults = []) : Quiet w := fun f hf => by rw [h] at hf; cases hf

example : ∃ w, run (init []) demo = .ok () w ∧ w.mine = [] ∧ (∀ c ∈ w.chans, c.gone = true) ∧ ∀ o ∈ w.its, o = none := ⟨_, rfl, by decide, by decide, by decide⟩
example (w : W Nat) (h : run (init []) demo = .ok () w) (hm : w.mine = []) (hc : ∀ c ∈ w.chans, c.gone = true) (hi : ∀ o ∈ w.its, o = none) : ¬ Live w 3 :=
  (elements_no_leak h hm hc hi 3).1
example (w' : W Nat) (h : push 0 (.args 3) { one7 [] with chans := [⟨.queue 1, [0], true, false⟩] } = .ok false w') : w'.cells = [some (some 7)] := by
  rw [push_refused h]; rfl
example (w' : W Nat) (h : tryPush 0 (.args 3) (one7 []) = .ok false w') : w' = one7 [] := tryPush_refused rfl h
example : ∃ w', push 0 (.move 1) (room []) = .ok true w' ∧ w'.cells = [some (some 7), some none, some (some 8)] := by
  obtain ⟨w', h, h1⟩ := push_move_queue (c := 0) (cap := 2) (i := 1) (ch := ⟨.queue 2, [0], false, false⟩) (x := some 8) (w := room []) rfl rfl rfl (by decide) rfl rfl
  exact ⟨w', h, by cases h; rfl⟩
example : ∃ w', push 0 (.copy 1) (room []) = .ok true w' ∧ w'.cells = [some (some 7), some (some 8), some (some 8)] := by
  obtain ⟨w', h, -, h2, -⟩ := push_copy_queue (c := 0) (cap := 2) (i := 1) (ch := ⟨.queue 2, [0], false, false⟩) (x := some 8) (w := room []) rfl rfl rfl (by decide) rfl rfl
  exact ⟨w', h, h2⟩
example (w' : W Nat) (h : push 0 (.copy 1) (room [.intact]) = .threw w') : w'.cells = [some (some 7), some (some 8)] :=
  ((push_threw_queue (c := 0) (cap := 2) (ch := ⟨.queue 2, [0], false, false⟩) (w := room [.intact]) rfl rfl h).2.2 (by simp)).1
example (w' : W Nat) (h : push 0 (.copy 1) (swapRoom [.intact]) = .threw w') : ¬ Live w' 0 :=
  (push_threw_exch (c := 0) (f := 0) (ch := ⟨.exch, [0], false, false⟩) (w := swapRoom [.intact]) rfl rfl rfl h).2
example : ∃ w', push 0 (.copy 1) (room [.intact]) = .threw w' := ⟨_, rfl⟩
example : ∃ w', push 0 (.copy 1) (swapRoom [.intact]) = .threw w' := ⟨_, rfl⟩
example : ∃ w', pop 0 (room []) = .ok (some 3) w' ∧ w'.cells = [none, some (some 8), none, some (some 7)] := by
  obtain ⟨w', h, -, h2, -⟩ := pop_queue (c := 0) (cap := 2) (f := 0) (rest := []) (ch := ⟨.queue 2, [0], false, false⟩) (x := some 7) (w := room []) rfl rfl rfl rfl (quiet_nil rfl)
  exact ⟨w', h, h2⟩
example : ∃ w', pop 0 (swapRoom []) = .ok (some 3) w' ∧ w'.cells = [none, some (some 8), none, some (some 7)] := by
  obtain ⟨w', h, -, h2, -⟩ := pop_exch (c := 0) (f := 0) (ch := ⟨.exch, [0], false, false⟩) (x := some 7) (w := swapRoom []) rfl rfl rfl rfl (quiet_nil rfl)
  exact ⟨w', h, h2⟩
example (w' : W Nat) : advance 0 (two [.gutted]) ≠ .threw w' :=
  channel_iterator_never_throws (it := ⟨0, some 0⟩) (ch := ⟨.queue 1, [], true, false⟩) (cap := 1) rfl rfl rfl
example : ∃ w', itMove 0 (two []) = .ok () w' ∧ w'.it? 0 = some ⟨0, some 0⟩ := by
  obtain ⟨w', h, h1, -⟩ := moved_iterator (j := 0) (b := 0) (it := ⟨0, some 0⟩) (x := some 1) (w := two []) rfl rfl rfl (quiet_nil rfl)
  exact ⟨w', h, h1⟩
example : ∃ w', itMoveAssign 0 1 (two []) = .ok () w' ∧ w'.it? 0 = some ⟨1, some 0⟩ ∧ w'.it? 1 = some ⟨0, some 1⟩ := by
  obtain ⟨w', h, h1, h2, -⟩ := move_assigned_iterators (i := 0) (j := 1) (a := 0) (b := 1) (ci := 0) (cj := 1) (x := some 1) (y := some 2) (w := two []) (by decide) rfl rfl (by decide) rfl rfl
    (quiet_nil rfl)
  exact ⟨w', h, h1, h2⟩
example (w' : W Nat) (h : pop 0 (room [.ok, .intact]) = .threw w') : ∀ i, Live w' i → Live (room []) i := by
  rcases pop_threw_queue (c := 0) (cap := 2) (f := 0) (rest := []) (ch := ⟨.queue 2, [0], false, false⟩) (x := some 7) (w := room [.ok, .intact]) rfl rfl rfl rfl h with ⟨-, h⟩ | ⟨-, h⟩
  · exact fun i => (h i).1
  · exact fun i hi => ((h i).1 hi).1
example : ∃ w', pop 0 (room [.ok, .intact]) = .threw w' := ⟨_, rfl⟩
example : tryPush 0 (.args 4) (room []) = push 0 (.args 4) (room []) := tryPush_eq_push (cap := 2) (ch := ⟨.queue 2, [0], false, false⟩) rfl rfl rfl (by decide)
example : tryPop 0 (room []) = pop 0 (room []) := tryPop_eq_pop (ch := ⟨.queue 2, [0], false, false⟩) rfl (.inl (by decide))
example : ∃ w', push 0 (.move 1) (swapRoom []) = .ok true w' ∧ ¬ Live w' 0 := by
  obtain ⟨w', h, -, -, -, -, -, -, h7⟩ := push_move_exch (c := 0) (i := 1) (old := some 0) (ch := ⟨.exch, [0], false, false⟩) (x := some 8) (w := swapRoom []) rfl rfl rfl rfl
    (fun f hf => by obtain rfl := Option.some.inj hf; exact ⟨by decide, _, rfl⟩) rfl rfl
  exact ⟨w', h, h7 0 rfl⟩
example : ∃ w', itCopy 1 (two []) = .ok () w' ∧ shows w' 2 = some (1, some (some 2)) := by
  obtain ⟨w', h, -, h2⟩ := copied_iterator (j := 1) (it := ⟨1, some 1⟩) (w := two []) rfl (fun b hb => by obtain rfl := Option.some.inj hb; exact ⟨_, rfl⟩) (quiet_nil rfl)
  exact ⟨w', h, h2.trans rfl⟩

end Verif.Elements
