import Verif.NextTo.BaseModel

/-! Property C125: the functions of the wrapped iterator, called on a `next_to_iter`. -/
namespace Verif.NextTo

variable {σ α : Type}

/-! ### Specification -/

/-- Where an iterator stands: its element, the elements still to come in order, and whether `peek` was called since it moved. -/
structure BPlace (α : Type) where
  cur : Option α
  rest : List α
  peeked : Bool

/-- What the functions of the wrapped iterator see of the elements still to come: not the one that was peeked. -/
def BPlace.seen (s : BPlace α) : List α := if s.peeked then s.rest.tail else s.rest

/-- Replace what they see. -/
def BPlace.put (s : BPlace α) (l : List α) : BPlace α := { s with rest := if s.peeked then s.rest.take 1 ++ l else l }

/-- What the operations do, in terms of the elements. -/
def specB (s : BPlace α) : BOp → BPlace α × BRes α
  | .own .inc => (⟨s.rest.head?, s.rest.tail, false⟩, .val s.rest.head?)
  | .own .postInc => (⟨s.rest.head?, s.rest.tail, false⟩, .val s.cur)
  | .own (.addAssign 0) => (s, .val s.cur)
  | .own (.addAssign (n + 1)) => (⟨s.rest[n]?, s.rest.drop (n + 1), false⟩, .val s.rest[n]?)
  | .own (.add 0) => (s, .val s.cur)
  | .own (.add (n + 1)) => (s, .val s.rest[n]?)
  | .own .peek => ({ s with peeked := true }, .val s.rest.head?)
  | .nextBack => (s.put s.seen.dropLast, .val s.seen.getLast?)
  | .nthBack k => (s.put (s.seen.take (s.seen.length - (k + 1))), .val s.seen.reverse[k]?)
  | .remaining => (s, .num s.seen.length)

def specsB : BPlace α → List BOp → List (BRes α)
  | _, [] => []
  | s, op :: ops => (specB s op).2 :: specsB (specB s op).1 ops

/-- The place after a history. -/
def placeB : BPlace α → List BOp → BPlace α
  | s, [] => s
  | s, op :: ops => placeB (specB s op).1 ops

/-- The iterator after a history. -/
def afterB (I : Iter σ α) : W σ α → List BOp → W σ α
  | w, [] => w
  | w, op :: ops => afterB I (bexec I w op).1 ops

/-- At the beginning of `l`. -/
def startB (l : List α) : BPlace α := ⟨l.head?, l.tail, false⟩

/-! ### Proofs -/

/-- The iterator stands there. -/
def StandsB (Rep : σ → List α → Prop) (w : W σ α) (s : BPlace α) : Prop :=
  w.cur = s.cur ∧ Rep w.it s.seen ∧ w.peeked = if s.peeked then s.rest.head? else none

theorem standsB_inc {I : Iter σ α} {Rep : σ → List α → Prop} (h : Lawful I Rep) {w : W σ α} {s : BPlace α} (hw : StandsB Rep w s) :
    StandsB Rep (inc I .forward w) ⟨s.rest.head?, s.rest.tail, false⟩ := by
  obtain ⟨hc, hr, hp⟩ := hw
  unfold inc
  cases hpk : s.peeked with
  | false =>
    rw [hpk] at hp; simp at hp
    simp only [BPlace.seen, hpk] at hr; simp at hr
    have hn := h.next hr
    simp only [hp]
    refine ⟨?_, ?_, rfl⟩
    · exact hn.1
    · simpa [BPlace.seen, Iter.step, Iter.skip] using hn.2
  | true =>
    rw [hpk] at hp; simp at hp
    simp only [BPlace.seen, hpk] at hr; simp at hr
    cases hrest : s.rest with
    | nil =>
      rw [hrest] at hp hr; simp at hp hr
      have hn := h.next hr
      simp only [hp]
      exact ⟨hn.1, by simpa [BPlace.seen, Iter.step, Iter.skip] using hn.2, rfl⟩
    | cons x r =>
      rw [hrest] at hp hr; simp at hp hr
      simp only [hp]
      exact ⟨rfl, by simpa [BPlace.seen] using hr, rfl⟩

theorem standsB_add {I : Iter σ α} {Rep : σ → List α → Prop} (h : Lawful I Rep) {w : W σ α} {s : BPlace α} (hw : StandsB Rep w s)
    (n : Nat) : StandsB Rep (addAssign I .forward w (n + 1)) ⟨s.rest[n]?, s.rest.drop (n + 1), false⟩ := by
  obtain ⟨hc, hr, hp⟩ := hw
  unfold addAssign
  cases hpk : s.peeked with
  | false =>
    rw [hpk] at hp; simp at hp
    simp only [BPlace.seen, hpk] at hr; simp at hr
    have hn := h.nth n hr
    simp only [hp]
    exact ⟨hn.1, by simpa [BPlace.seen, Iter.step, Iter.skip] using hn.2, rfl⟩
  | true =>
    rw [hpk] at hp; simp at hp
    simp only [BPlace.seen, hpk] at hr; simp at hr
    cases hrest : s.rest with
    | nil =>
      rw [hrest] at hp hr; simp at hp hr
      have hn := h.nth n hr
      simp only [hp]
      exact ⟨by simpa [Iter.skip] using hn.1, by simpa [BPlace.seen, Iter.step, Iter.skip] using hn.2, rfl⟩
    | cons x r =>
      rw [hrest] at hp hr; simp at hp hr
      simp only [hp]
      cases n with
      | zero => exact ⟨rfl, by simpa [BPlace.seen] using hr, rfl⟩
      | succ n =>
        have hn := h.nth n hr
        exact ⟨by simpa [Iter.skip] using hn.1, by simpa [BPlace.seen, Iter.step, Iter.skip] using hn.2, rfl⟩

theorem standsB_put {Rep : σ → List α → Prop} {w : W σ α} {s : BPlace α} (hw : StandsB Rep w s) {it : σ} {l : List α}
    (hl : Rep it l) (hn : s.seen = [] → l = []) : StandsB Rep { w with it := it } (s.put l) := by
  obtain ⟨hc, hr, hp⟩ := hw
  cases hpk : s.peeked with
  | false => exact ⟨by simpa [BPlace.put] using hc, by simpa [BPlace.seen, BPlace.put, hpk] using hl, by simpa [BPlace.put, hpk] using hp⟩
  | true =>
    cases hrest : s.rest with
    | nil =>
      have := hn (by simp [BPlace.seen, hpk, hrest])
      subst this
      exact ⟨by simpa [BPlace.put] using hc, by simpa [BPlace.seen, BPlace.put, hpk, hrest] using hl,
        by simpa [BPlace.put, hpk, hrest] using hp⟩
    | cons x r =>
      exact ⟨by simpa [BPlace.put] using hc, by simpa [BPlace.seen, BPlace.put, hpk, hrest] using hl,
        by simpa [BPlace.put, hpk, hrest] using hp⟩

theorem standsB_step {I : Iter σ α} {Rep : σ → List α → Prop} (h : Lawful I Rep) {w : W σ α} {s : BPlace α} (hw : StandsB Rep w s)
    (op : BOp) : (bexec I w op).2 = (specB s op).2 ∧ StandsB Rep (bexec I w op).1 (specB s op).1 := by
  have hi := standsB_inc h hw
  cases op with
  | own o =>
    cases o with
    | inc => exact ⟨congrArg BRes.val hi.1, hi⟩
    | postInc => exact ⟨congrArg BRes.val hw.1, hi⟩
    | addAssign n =>
      cases n with
      | zero => exact ⟨congrArg BRes.val hw.1, hw⟩
      | succ n => have ha := standsB_add h hw n; exact ⟨congrArg BRes.val ha.1, ha⟩
    | add n =>
      cases n with
      | zero => exact ⟨congrArg BRes.val hw.1, hw⟩
      | succ n => exact ⟨congrArg BRes.val (standsB_add h hw n).1, hw⟩
    | peek =>
      obtain ⟨hc, hr, hp⟩ := hw
      simp only [bexec, exec, specB]
      unfold peek
      cases hpk : s.peeked with
      | false =>
        rw [hpk] at hp; simp at hp
        simp only [BPlace.seen, hpk] at hr; simp at hr
        have hn := h.next hr
        simp only [hp]
        exact ⟨by rw [← hn.1]; rfl, hc, by simpa [BPlace.seen, Iter.step] using hn.2, by simpa [Iter.step] using hn.1⟩
      | true =>
        rw [hpk] at hp; simp at hp
        simp only [BPlace.seen, hpk] at hr; simp at hr
        cases hrest : s.rest with
        | nil =>
          rw [hrest] at hp hr; simp at hp hr
          have hn := h.next hr
          simp only [hp]
          exact ⟨by rw [← hn.1.trans (by simp : ([] : List α).head? = [].head?)]; rfl, hc,
            by simpa [BPlace.seen, hrest, Iter.step] using hn.2, by simpa [hrest, Iter.step] using hn.1⟩
        | cons x r =>
          rw [hrest] at hp hr; simp at hp hr
          simp only [hp]
          exact ⟨rfl, hc, by simpa [BPlace.seen, hrest] using hr, by simpa [hrest] using hp⟩
  | nextBack =>
    have hb := h.nextBack hw.2.1
    exact ⟨congrArg BRes.val hb.1, standsB_put hw hb.2 (fun e => by rw [e]; rfl)⟩
  | nthBack k =>
    have hb := h.nthBack k hw.2.1
    exact ⟨congrArg BRes.val hb.1, standsB_put hw hb.2 (fun e => by rw [e]; simp)⟩
  | remaining => exact ⟨congrArg BRes.num (h.remaining hw.2.1), hw⟩

theorem standsB_mk {I : Iter σ α} {Rep : σ → List α → Prop} (h : Lawful I Rep) {s : σ} {l : List α} (hr : Rep s l) :
    StandsB Rep (mk I .forward s) (startB l) :=
  ⟨(h.next hr).1, (h.next hr).2, rfl⟩

theorem standsB_after {I : Iter σ α} {Rep : σ → List α → Prop} (h : Lawful I Rep) : ∀ (ops : List BOp) {w : W σ α} {s : BPlace α},
    StandsB Rep w s → StandsB Rep (afterB I w ops) (placeB s ops)
  | [], _, _, hw => hw
  | op :: ops, _, _, hw => standsB_after h ops (standsB_step h hw op).2

/-- **C125** All results of all histories of the operations of a `next_to_iter` and of the functions it inherits: `next_back()` and
`nth_back(off)` take elements still to come from the back, `remaining()` counts them, except the one that was peeked, which they
do not see. -/
theorem base_history_partial {I : Iter σ α} {Rep : σ → List α → Prop} (h : Lawful I Rep) {s : σ} {l : List α} (hr : Rep s l)
    (ops : List BOp) : bexecs I (mk I .forward s) ops = specsB (startB l) ops := by
  have key : ∀ (ops : List BOp) (w : W σ α) (p : BPlace α), StandsB Rep w p → bexecs I w ops = specsB p ops := by
    intro ops
    induction ops with
    | nil => intro _ _ _; rfl
    | cons op ops ih =>
      intro w p hw
      have hs := standsB_step h hw op
      simp only [bexecs, specsB, hs.1, ih _ _ hs.2]
  exact key ops _ _ (standsB_mk h hr)

/-- **C125** After any history in which `peek` was not called since the last move, the loop that goes on from here sees exactly
`remaining()` more elements after the current one, and `next_back()` returns the last of them. -/
theorem base_unpeeked_partial {I : Iter σ α} {Rep : σ → List α → Prop} (h : Lawful I Rep) {s : σ} {l : List α} (hr : Rep s l)
    (ops : List BOp) (hp : (placeB (startB l) ops).peeked = false) {fuel : Nat}
    (hf : (bexec I (afterB I (mk I .forward s) ops) .remaining).2 = .num fuel) :
    (visit I .forward fuel (inc I .forward (afterB I (mk I .forward s) ops))).length = fuel ∧
    (∀ more, visit I .forward (fuel + more) (inc I .forward (afterB I (mk I .forward s) ops)) =
      visit I .forward fuel (inc I .forward (afterB I (mk I .forward s) ops))) ∧
    (bexec I (afterB I (mk I .forward s) ops) .nextBack).2 =
      .val (visit I .forward fuel (inc I .forward (afterB I (mk I .forward s) ops))).getLast? := by
  have hst := standsB_after h ops (standsB_mk h hr)
  generalize afterB I (mk I .forward s) ops = w at *
  generalize placeB (startB l) ops = p at *
  have hrep := hst.2.1
  simp only [BPlace.seen, hp] at hrep; simp at hrep
  have hfe : fuel = p.rest.length := by
    have := h.remaining hrep
    simp only [bexec] at hf
    injection hf with hf
    omega
  have hvis : ∀ (r : List α) (it : σ) (f : Nat), Rep it r → r.length ≤ f → visit I .forward f (mk I .forward it) = r := by
    intro r it f hit hle
    refine loop I .forward it f r (fun n _ => (h.toLawfulFwd.results_forward hit n).1) hle ?_
    rw [show results (I.step .forward) it r.length = _ from (h.toLawfulFwd.results_forward hit _).1]; simp
  have hinc : inc I .forward w = mk I .forward w.it := by
    have := hst.2.2
    rw [hp] at this; simp at this
    simp [inc, this, mk]
  have hb := h.nextBack hrep
  rw [hinc]
  refine ⟨?_, ?_, ?_⟩
  · rw [hvis p.rest w.it fuel hrep (by omega)]; exact hfe.symm
  · intro more; rw [hvis p.rest w.it fuel hrep (by omega), hvis p.rest w.it _ hrep (by omega)]
  · rw [hvis p.rest w.it fuel hrep (by omega)]
    exact congrArg BRes.val hb.1

/-- The elements `++` has moved on to in a history, in order. -/
def incsOf : List BOp → List (BRes α) → List α
  | .own .inc :: ops, .val v :: rs => v.toList ++ incsOf ops rs
  | _ :: ops, _ :: rs => incsOf ops rs
  | _, _ => []

/-- The elements `next_back()` has returned in a history, in order. -/
def backsOf : List BOp → List (BRes α) → List α
  | .nextBack :: ops, .val v :: rs => v.toList ++ backsOf ops rs
  | _ :: ops, _ :: rs => backsOf ops rs
  | _, _ => []

/-- Operations that skip nothing: all but `+=` and `nth_back` (and `it++`, whose result is the old iterator). -/
def BOp.single : BOp → Bool
  | .own (.addAssign _) => false
  | .own .postInc => false
  | .nthBack _ => false
  | _ => true

theorem put_dropLast (s : BPlace α) : s.rest = (s.put s.seen.dropLast).rest ++ s.seen.getLast?.toList := by
  have hdl : ∀ l : List α, l.dropLast ++ l.getLast?.toList = l := by
    intro l
    cases hl : l.getLast? with
    | none => rw [List.getLast?_eq_none_iff] at hl; subst hl; rfl
    | some x => obtain ⟨ys, rfl⟩ := List.getLast?_eq_some_iff.1 hl; simp
  cases hp : s.peeked with
  | false => simp only [BPlace.put, BPlace.seen, hp]; simp [hdl]
  | true =>
    cases hr : s.rest with
    | nil => simp [BPlace.put, BPlace.seen, hp, hr]
    | cons x r => simp [BPlace.put, BPlace.seen, hp, hr, hdl]

theorem visit_rest {I : Iter σ α} {Rep : σ → List α → Prop} (h : Lawful I Rep) : ∀ (fuel : Nat) {w : W σ α} {s : BPlace α},
    StandsB Rep w s → s.rest.length ≤ fuel → visit I .forward fuel (inc I .forward w) = s.rest
  | 0, w, s, _, hf => by
    have : s.rest = [] := List.eq_nil_of_length_eq_zero (by omega)
    rw [this]; rfl
  | fuel + 1, w, s, hw, hf => by
    have hi := standsB_inc h hw
    have hc := hi.1
    cases hr : s.rest with
    | nil => rw [hr] at hc; simp at hc; simp [visit, hc]
    | cons x r =>
      have ih := visit_rest h fuel hi (by rw [hr] at hf ⊢; simpa using hf)
      rw [hr] at hc ih; simp at hc ih
      simp [visit, hc, ih]

theorem whole_spec : ∀ (ops : List BOp) (s : BPlace α), (∀ op ∈ ops, op.single = true) →
    incsOf ops (specsB s ops) ++ (placeB s ops).rest ++ (backsOf ops (specsB s ops)).reverse = s.rest := by
  intro ops
  induction ops with
  | nil => intro s _; simp [incsOf, placeB, backsOf]
  | cons op ops ih =>
    intro s hs
    have hi := ih (specB s op).1 (fun o ho => hs o (by simp [ho]))
    have hop := hs op (by simp)
    cases op with
    | own o =>
      cases o with
      | inc =>
        simp only [specsB, placeB, specB, incsOf, backsOf] at hi ⊢
        rw [List.append_assoc, List.append_assoc, ← List.append_assoc (incsOf _ _), hi]
        cases hr : s.rest <;> simp
      | postInc => simp [BOp.single] at hop
      | addAssign n => simp [BOp.single] at hop
      | add n => cases n <;> simpa only [specsB, placeB, specB, incsOf, backsOf] using hi
      | peek => simpa only [specsB, placeB, specB, incsOf, backsOf] using hi
    | nextBack =>
      simp only [specsB, placeB, specB, incsOf, backsOf] at hi ⊢
      rw [List.reverse_append, ← List.append_assoc, hi]
      have : ∀ o : Option α, o.toList.reverse = o.toList := by intro o; cases o <;> rfl
      rw [this]
      exact (put_dropLast s).symm
    | nthBack k => simp [BOp.single] at hop
    | remaining => simpa only [specsB, placeB, specB, incsOf, backsOf] using hi

/-- **C125** As long as nothing is skipped, the elements the loop has seen, those it will still see when it goes on, and those
`next_back()` has returned are the whole sequence, in order: none is lost, none is seen twice, also with `peek`. -/
theorem base_whole_partial {I : Iter σ α} {Rep : σ → List α → Prop} (h : Lawful I Rep) {s : σ} {l : List α} (hr : Rep s l)
    (ops : List BOp) (hs : ∀ op ∈ ops, op.single = true) {fuel : Nat} (hf : l.length ≤ fuel) :
    (mk I .forward s).cur.toList ++ incsOf ops (bexecs I (mk I .forward s) ops) ++
      visit I .forward fuel (inc I .forward (afterB I (mk I .forward s) ops)) ++
      (backsOf ops (bexecs I (mk I .forward s) ops)).reverse = l := by
  have hst := standsB_after h ops (standsB_mk h hr)
  have hw := whole_spec ops (startB l) hs
  have hlen : (placeB (startB l) ops).rest.length ≤ fuel := by
    have := congrArg List.length hw
    simp only [List.length_append] at this
    have hl : (startB l).rest.length ≤ l.length := by simp [startB]
    omega
  rw [visit_rest h fuel hst hlen, base_history_partial h hr, List.append_assoc, List.append_assoc,
    ← List.append_assoc (incsOf _ _), hw, (standsB_mk h hr).1]
  cases l <;> simp [startB]

/-- **C125, refuted for `peek`**: `peek` is documented not to advance the iterator, but it changes what `remaining()` and
`next_back()` return: here the element 8 is still to come and `next_back()` says that there is nothing left. -/
theorem base_peek_refuted : bexecs listIter (mk listIter .forward [7, 8]) [.remaining, .nextBack] = [.num 1, .val (some 8)] ∧
    bexecs listIter (mk listIter .forward [7, 8]) [.own .peek, .remaining, .nextBack, .own .inc] =
      [.val (some 8), .num 0, .val none, .val (some 8)] := by decide

/-- A history with calls at both ends. -/
example : bexecs listIter (mk listIter .forward [1, 2, 3, 4, 5]) [.own .inc, .nextBack, .remaining, .own .peek, .nthBack 0, .own (.addAssign 2)] =
    [.val (some 2), .val (some 5), .num 2, .val (some 3), .val (some 4), .val none] :=
  (base_history_partial listIter_lawful (l := [1, 2, 3, 4, 5]) rfl _).trans (by decide)

example : (visit listIter .forward 2 (inc listIter .forward (afterB listIter (mk listIter .forward [1, 2, 3, 4, 5]) [.own .inc, .nextBack]))).length = 2 :=
  (base_unpeeked_partial listIter_lawful (l := [1, 2, 3, 4, 5]) rfl [.own .inc, .nextBack] rfl rfl).1

example : visit listIter .forward 4 (inc listIter .forward
    (afterB listIter (mk listIter .forward [1, 2, 3, 4]) [.own .inc, .nextBack, .own .peek, .nextBack])) = [3] := by
  have := base_whole_partial listIter_lawful (l := [1, 2, 3, 4]) rfl [.own .inc, .nextBack, .own .peek, .nextBack] (by decide) (Nat.le_refl 4)
  exact List.append_cancel_left (as := [1, 2]) (List.append_cancel_right (bs := [4]) this)

end Verif.NextTo
