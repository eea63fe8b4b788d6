import Verif.NextTo.Model

/-! Properties C38 - C40 and C59 of the iterator and range wrappers. -/
namespace Verif.NextTo

variable {σ α : Type}

/-! ### Specification: the sequence of results of a rust-style iterator -/

/-- State after `n` calls. -/
def after (step : σ → Option α × σ) : Nat → σ → σ
  | 0, s => s
  | n + 1, s => after step n (step s).2

/-- Result of the `n`-th call (from 0). -/
def results (step : σ → Option α × σ) (s : σ) (n : Nat) : Option α := (step (after step n s)).1

/-- `incs n`: increment `n` times. -/
def incs (I : Iter σ α) (d : Dir) : Nat → W σ α → W σ α
  | 0, w => w
  | n + 1, w => incs I d n (inc I d w)

theorem after_succ (step : σ → Option α × σ) (n : Nat) (s : σ) : after step (n + 1) s = (step (after step n s)).2 := by
  induction n generalizing s with
  | zero => rfl
  | succ n ih => exact ih (step s).2

theorem results_step (step : σ → Option α × σ) (s : σ) (n : Nat) : results step (step s).2 n = results step s (n + 1) := rfl

theorem results_after (step : σ → Option α × σ) (s : σ) (k n : Nat) : results step (after step k s) n = results step s (k + n) := by
  induction k generalizing s with
  | zero => simp [after]
  | succ k ih => rw [show k + 1 + n = (k + n) + 1 by omega]; simp only [after]; rw [ih, results_step]

/-! ### C38 -/

/-- Lists with their natural operations are a lawful iterator, so the hypotheses of the theorems below can be met. -/
def listIter : Iter (List α) α :=
  ⟨fun l => (l.head?, l.tail), fun l => (l.getLast?, l.dropLast), fun l k => (l[k]?, l.drop (k + 1)),
    fun l k => (l.reverse[k]?, l.take (l.length - (k + 1))), List.length⟩

/-- **C38.** After `n` increments the iterator holds the `n`-th result of `next()` (`next_back()` for a reverse iterator), and
compares equal to the sentinel iff that was `nullopt`. -/
theorem iterate (I : Iter σ α) (d : Dir) (s : σ) (n : Nat) :
    deref (incs I d n (mk I d s)) = results (I.step d) s n ∧
    (atEnd (incs I d n (mk I d s)) = true ↔ results (I.step d) s n = none) := by
  have key : ∀ n (s : σ), incs I d n (mk I d s) = ⟨after (I.step d) (n + 1) s, results (I.step d) s n, none⟩ := by
    intro n
    induction n with
    | zero => intro s; rfl
    | succ n ih => intro s; exact ih (I.step d s).2
  rw [key]
  simp [deref, atEnd]

example : deref (incs listIter .forward 1 (mk listIter .forward [7, 8, 9])) = some 8 ∧
    atEnd (incs listIter .backward 3 (mk listIter .backward [7, 8, 9])) = true := by decide

/-- **C38.** The loop over a range visits exactly the results of `next()` up to the first `nullopt`, in order, each once. -/
theorem loop (I : Iter σ α) (d : Dir) (s : σ) (fuel : Nat) (l : List α) :
    (∀ n, n < l.length → results (I.step d) s n = l[n]?) → l.length ≤ fuel → results (I.step d) s l.length = none →
    visit I d fuel (mk I d s) = l := by
  induction l generalizing s fuel with
  | nil =>
    intro _ _ h
    cases fuel with
    | zero => rfl
    | succ f =>
      have : (mk I d s).cur = none := h
      simp only [visit, this]
  | cons a l ih =>
    intro h1 hf h2
    cases fuel with
    | zero => simp at hf
    | succ f =>
      have : (mk I d s).cur = some a := h1 0 (by simp)
      simp only [visit, this]
      congr 1
      refine ih (I.step d s).2 f ?_ (by simpa using hf) h2
      intro n hn
      have := h1 (n + 1) (by simpa using hn)
      simpa [results_step] using this

example : visit listIter .backward 5 (mk listIter .backward [7, 8, 9]) = [9, 8, 7] := by decide

/-- **C38.** A loop over an endless iterator sees all its results. -/
theorem loop_endless (I : Iter σ α) (d : Dir) (s : σ) (h : ∀ n, results (I.step d) s n ≠ none) (fuel : Nat) :
    (visit I d fuel (mk I d s)).map some = (List.range fuel).map (results (I.step d) s) := by
  induction fuel generalizing s with
  | zero => rfl
  | succ f ih =>
    cases hc : (I.step d s).1 with
    | none => exact absurd hc (h 0)
    | some v =>
      have : (mk I d s).cur = some v := hc
      simp only [visit, this, List.range_succ_eq_map, List.map_cons, List.map_map]
      have h0 : results (I.step d) s 0 = some v := hc
      rw [h0]
      congr 1
      have := ih (I.step d s).2 (fun n => h (n + 1))
      refine Eq.trans this ?_
      rfl

/-- The natural numbers. -/
def naturals : Iter Nat Nat := ⟨fun s => (some s, s + 1), fun s => (none, s), fun s _ => (none, s), fun s _ => (none, s), fun _ => 0⟩

example (s n : Nat) : results (naturals.step .forward) s n ≠ none := by
  simp [results, naturals, Iter.step]

/-- Every `begin()` starts from the original state: iterators do not influence the range or each other. -/
theorem begin_restarts (I : Iter σ α) (s : σ) (n m : Nat) :
    deref (incs I .forward n (begin I s)) = results I.next s n ∧ deref (incs I .backward m (rbegin I s)) = results I.nextBack s m :=
  ⟨(iterate I .forward s n).1, (iterate I .backward s m).1⟩

example : deref (incs listIter .forward 1 (begin listIter [7, 8, 9])) = some 8 ∧ deref (rbegin listIter [7, 8, 9]) = some 9 := by decide

/-! ### C39 -/

/-- Once the iterator is exhausted it stays exhausted. -/
def Fused (step : σ → Option α × σ) (s : σ) : Prop := ∀ n, results step s n = none → results step s (n + 1) = none

/-- `nth(k)` is the `k`-th result, and what follows is what follows it; in all states reached from `s`. -/
structure SkipLaw (I : Iter σ α) (d : Dir) (P : σ → Prop) : Prop where
  step : ∀ s, P s → P (I.step d s).2
  skip : ∀ s k, P s → P (I.skip d s k).2
  result : ∀ s k, P s → (I.skip d s k).1 = results (I.step d) s k
  rest : ∀ s k, P s → ∀ n, results (I.step d) (I.skip d s k).2 n = results (I.step d) s (k + 1 + n)

/-- Operations on a wrapped iterator. -/
inductive Op where
  /-- `++it`, then `it` is observed -/
  | inc
  /-- `it++`, the result is observed -/
  | postInc
  /-- `it += n`, then `it` is observed -/
  | addAssign (n : Nat)
  /-- `*(it + n)` -/
  | add (n : Nat)
  /-- `it.peek()` -/
  | peek
  deriving DecidableEq, Repr

/-- Execute one operation: the iterator afterwards and the observed value. -/
def exec (I : Iter σ α) (d : Dir) (w : W σ α) : Op → W σ α × Option α
  | .inc => (inc I d w, deref (inc I d w))
  | .postInc => ((postInc I d w).2, deref (postInc I d w).1)
  | .addAssign n => (addAssign I d w n, deref (addAssign I d w n))
  | .add n => (w, deref (add I d w n))
  | .peek => ((peek I d w).2, (peek I d w).1)

/-- What should be observed: the iterator is a position in the sequence. -/
def specExec (seq : Nat → Option α) (p : Nat) : Op → Nat × Option α
  | .inc => (p + 1, seq (p + 1))
  | .postInc => (p + 1, seq p)
  | .addAssign n => (p + n, seq (p + n))
  | .add n => (p, seq (p + n))
  | .peek => (p, seq (p + 1))

def execs (I : Iter σ α) (d : Dir) : W σ α → List Op → List (Option α)
  | _, [] => []
  | w, op :: ops => (exec I d w op).2 :: execs I d (exec I d w op).1 ops

def specExecs (seq : Nat → Option α) : Nat → List Op → List (Option α)
  | _, [] => []
  | p, op :: ops => (specExec seq p op).2 :: specExecs seq (specExec seq p op).1 ops

/-- The iterator `w` stands at position `p` of `seq`. -/
def At (step : σ → Option α × σ) (P : σ → Prop) (seq : Nat → Option α) (w : W σ α) (p : Nat) : Prop :=
  P w.it ∧ w.cur = seq p ∧
    ((w.peeked = none ∧ ∀ n, results step w.it n = seq (p + 1 + n)) ∨
     (w.peeked = seq (p + 1) ∧ w.peeked ≠ none ∧ ∀ n, results step w.it n = seq (p + 2 + n)))

theorem fused_mono {seq : Nat → Option α} (h : ∀ n, seq n = none → seq (n + 1) = none) {p : Nat} (hp : seq p = none) (k : Nat) :
    seq (p + k) = none := by
  induction k with
  | zero => exact hp
  | succ k ih => exact h _ ih

theorem exec_at {I : Iter σ α} {d : Dir} {P : σ → Prop} (hs : SkipLaw I d P) {seq : Nat → Option α}
    (hf : ∀ n, seq n = none → seq (n + 1) = none) {w : W σ α} {p : Nat} (h : At (I.step d) P seq w p) (op : Op) :
    (exec I d w op).2 = (specExec seq p op).2 ∧ At (I.step d) P seq (exec I d w op).1 (specExec seq p op).1 := by
  obtain ⟨hP, hc, hr⟩ := h
  have hinc : At (I.step d) P seq (inc I d w) (p + 1) := by
    rcases hr with ⟨e, hn⟩ | ⟨e, hne, hn⟩
    · simp only [inc, e]
      refine ⟨hs.step _ hP, hn 0, .inl ⟨rfl, fun n => ?_⟩⟩
      rw [results_step, hn]; congr 1; omega
    · cases hv : w.peeked with
      | none => exact absurd hv hne
      | some v =>
        simp only [inc, hv]
        exact ⟨hP, by rw [← hv, e], .inl ⟨rfl, fun n => by rw [hn]⟩⟩
  have hskip : ∀ off q, (∀ n, results (I.step d) w.it n = seq (q + n)) →
      At (I.step d) P seq ⟨(I.skip d w.it off).2, (I.skip d w.it off).1, none⟩ (q + off) := by
    intro off q hq
    refine ⟨hs.skip _ _ hP, by simp only; rw [hs.result _ _ hP, hq], .inl ⟨rfl, fun n => ?_⟩⟩
    rw [hs.rest _ _ hP, hq]; congr 1; omega
  have hadd : ∀ n, At (I.step d) P seq (addAssign I d w n) (p + n) := by
    intro n
    rcases n with _ | off
    · exact ⟨hP, hc, hr⟩
    · rcases hr with ⟨e, hn⟩ | ⟨e, hne, hn⟩
      · simp only [addAssign, e]
        have := hskip off (p + 1) hn
        rwa [show p + 1 + off = p + (off + 1) by omega] at this
      · cases hv : w.peeked with
        | none => exact absurd hv hne
        | some v =>
          rcases off with _ | off
          · simp only [addAssign, hv]
            exact ⟨hP, by rw [← hv, e], .inl ⟨rfl, fun n => by rw [hn]⟩⟩
          · simp only [addAssign, hv]
            have := hskip off (p + 2) hn
            rwa [show p + 2 + off = p + (off + 1 + 1) by omega] at this
  cases op with
  | inc => exact ⟨hinc.2.1, hinc⟩
  | postInc => exact ⟨hc, hinc⟩
  | addAssign n => exact ⟨(hadd n).2.1, hadd n⟩
  | add n => exact ⟨(hadd n).2.1, hP, hc, hr⟩
  | peek =>
    simp only [exec, specExec]
    rcases hr with ⟨e, hn⟩ | ⟨e, hne, hn⟩
    · simp only [peek, e]
      have h0 : (I.step d w.it).1 = seq (p + 1) := hn 0
      refine ⟨h0, hs.step _ hP, hc, ?_⟩
      cases hv : (I.step d w.it).1 with
      | none =>
        refine .inl ⟨rfl, fun n => ?_⟩
        rw [results_step, hn]
        rw [hv] at h0
        rw [fused_mono hf h0.symm, fused_mono hf h0.symm]
      | some v =>
        refine .inr ⟨by simp only; rw [← h0, hv], by simp, fun n => ?_⟩
        simp only
        rw [results_step, hn]; congr 1; omega
    · cases hv : w.peeked with
      | none => exact absurd hv hne
      | some v =>
        simp only [peek, hv]
        exact ⟨by rw [← hv, e], hP, hc, .inr ⟨e, hne, hn⟩⟩

/-- **C39.** For every sequence of `++`, `+=`, `+` and `peek` on an iterator over a fused base iterator whose `nth` agrees with
`next`, everything observed is what the sequence of `next()` results says: `peek` shows what the next increment makes current
and changes nothing, `+= n` is `n` increments, with or without preceding `peek`. -/
theorem history {I : Iter σ α} {d : Dir} {P : σ → Prop} (hs : SkipLaw I d P) {s : σ} (hP : P s) (hf : Fused (I.step d) s)
    (ops : List Op) : execs I d (mk I d s) ops = specExecs (results (I.step d) s) 0 ops := by
  have key : ∀ (ops : List Op) (w : W σ α) (p : Nat), At (I.step d) P (results (I.step d) s) w p →
      execs I d w ops = specExecs (results (I.step d) s) p ops := by
    intro ops
    induction ops with
    | nil => intro w p _; rfl
    | cons op ops ih =>
      intro w p h
      obtain ⟨h1, h2⟩ := exec_at hs hf h op
      simp only [execs, specExecs, h1, ih _ _ h2]
  refine key ops _ _ ⟨hs.step _ hP, rfl, .inl ⟨rfl, fun n => ?_⟩⟩
  show results (I.step d) (I.step d s).2 n = _
  rw [results_step]; congr 1; omega

/-- **C39, refuted for iterators that are not fused.** Peeking at the end changes the sequence: the `nullopt` that `peek` saw is
not stored. -/
def toggling : Iter Nat Nat := ⟨fun n => (if n = 1 then none else some n, n + 1), fun n => (none, n), fun n _ => (none, n), fun n _ => (none, n), fun _ => 0⟩

theorem peek_not_fused_refuted : deref (inc toggling .forward (mk toggling .forward 0)) = none ∧
    deref (inc toggling .forward (peek toggling .forward (mk toggling .forward 0)).2) = some 2 := ⟨rfl, rfl⟩

/-! ### C40 -/

/-- The laws of a sized random-access rust-style iterator: state `s` stands for the list `l` of the remaining elements, and each
operation consumes from the front. -/
structure LawfulFwd (I : Iter σ α) (Rep : σ → List α → Prop) : Prop where
  next : ∀ {s l}, Rep s l → (I.next s).1 = l.head? ∧ Rep (I.next s).2 l.tail
  nth : ∀ {s l} k, Rep s l → (I.nth s k).1 = l[k]? ∧ Rep (I.nth s k).2 (l.drop (k + 1))
  remaining : ∀ {s l}, Rep s l → I.remaining s = l.length

/-- The laws of a double-ended one. -/
structure Lawful (I : Iter σ α) (Rep : σ → List α → Prop) : Prop extends LawfulFwd I Rep where
  nextBack : ∀ {s l}, Rep s l → (I.nextBack s).1 = l.getLast? ∧ Rep (I.nextBack s).2 l.dropLast
  nthBack : ∀ {s l} k, Rep s l → (I.nthBack s k).1 = l.reverse[k]? ∧ Rep (I.nthBack s k).2 (l.take (l.length - (k + 1)))

/-- Lists are lawful iterators. -/
theorem listIter_lawful : Lawful (listIter : Iter (List Nat) Nat) (fun s l => s = l) := by
  refine { next := ?_, nextBack := ?_, nth := ?_, nthBack := ?_, remaining := ?_ } <;> intros <;> subst_vars <;>
    first | exact ⟨rfl, rfl⟩ | rfl

theorem LawfulFwd.results_forward {I : Iter σ α} {Rep : σ → List α → Prop} (h : LawfulFwd I Rep) {s : σ} {l : List α} (hr : Rep s l)
    (n : Nat) : results I.next s n = l[n]? ∧ Rep (after I.next n s) (l.drop n) := by
  induction n generalizing s l with
  | zero => exact ⟨by rw [show results I.next s 0 = (I.next s).1 from rfl, (h.next hr).1]; cases l <;> rfl, by simpa [after] using hr⟩
  | succ n ih =>
    have := ih (h.next hr).2
    rw [results_step] at this
    refine ⟨by rw [this.1]; cases l <;> simp, ?_⟩
    simp only [after]
    have h2 := this.2
    rwa [List.drop_tail] at h2

example : results (listIter : Iter (List Nat) Nat).next [7, 8, 9] 1 = some 8 := by decide

theorem Lawful.results_backward {I : Iter σ α} {Rep : σ → List α → Prop} (h : Lawful I Rep) {s : σ} {l : List α} (hr : Rep s l) (n : Nat) :
    results I.nextBack s n = l.reverse[n]? ∧ Rep (after I.nextBack n s) (l.take (l.length - n)) := by
  induction n generalizing s l with
  | zero =>
    refine ⟨?_, by simpa [after] using hr⟩
    rw [show results I.nextBack s 0 = (I.nextBack s).1 from rfl, (h.nextBack hr).1]
    cases hl : l.reverse with
    | nil => simp at hl; simp [hl]
    | cons a t => rw [List.getLast?_eq_head?_reverse, hl]; rfl
  | succ n ih =>
    have := ih (h.nextBack hr).2
    rw [results_step] at this
    constructor
    · rw [this.1, ← List.tail_reverse]
      cases l.reverse <;> simp
    · simp only [after]
      have h2 := this.2
      rw [List.length_dropLast, List.dropLast_eq_take, List.take_take] at h2
      rwa [show min (l.length - 1 - n) (l.length - 1) = l.length - (n + 1) by omega] at h2

example : results (listIter : Iter (List Nat) Nat).nextBack [7, 8, 9] 2 = some 7 := by decide

/-- **C40.** `front`, `operator[]`, `size`, `empty` and `operator bool` are those of the sequence iteration visits, and
`advance(k)` drops its first `k` elements. -/
theorem view_forward {I : Iter σ α} {Rep : σ → List α → Prop} (h : LawfulFwd I Rep) {s : σ} {l : List α} (hr : Rep s l) :
    visit I .forward (l.length + 1) (begin I s) = l ∧
    front I s = l.head? ∧ (∀ k, index I s k = l[k]?) ∧ size I s = l.length ∧
    (empty I s = true ↔ l = []) ∧ (toBool I s = true ↔ l ≠ []) ∧ ∀ k, Rep (advance I s k) (l.drop k) := by
  refine ⟨?_, (h.next hr).1, fun k => (h.nth k hr).1, h.remaining hr, ?_, ?_, ?_⟩
  · refine loop I .forward s _ l (fun n _ => (h.results_forward hr n).1) (by omega) ?_
    rw [show results (I.step .forward) s l.length = l[l.length]? from (h.results_forward hr _).1]; simp
  · simp [empty, size, h.remaining hr]
  · simp [toBool, empty, size, h.remaining hr]
  · intro k
    cases k with
    | zero => simpa [advance] using hr
    | succ k => exact (h.nth k hr).2

example : visit listIter .forward 4 (begin listIter [7, 8, 9]) = [7, 8, 9] ∧ index listIter [7, 8, 9] 2 = some 9 :=
  ⟨(view_forward listIter_lawful.toLawfulFwd (l := [7, 8, 9]) rfl).1, (view_forward listIter_lawful.toLawfulFwd (l := [7, 8, 9]) rfl).2.2.1 2⟩

/-- **C40.** `reversed` visits the same sequence backwards and `back` is its last element. -/
theorem view_backward {I : Iter σ α} {Rep : σ → List α → Prop} (h : Lawful I Rep) {s : σ} {l : List α} (hr : Rep s l) :
    visit I .backward (l.length + 1) (rbegin I s) = l.reverse ∧ back I s = l.getLast? := by
  refine ⟨?_, (h.nextBack hr).1⟩
  refine loop I .backward s _ l.reverse (fun n _ => (h.results_backward hr n).1) (by simp) ?_
  rw [show results (I.step .backward) s l.reverse.length = l.reverse[l.reverse.length]? from (h.results_backward hr _).1]; simp

example : visit listIter .backward 4 (rbegin listIter [7, 8, 9]) = [9, 8, 7] := (view_backward listIter_lawful (l := [7, 8, 9]) rfl).1

/-- **C40.** After `advance(k)` iteration visits the sequence without its first `k` elements. -/
theorem advance_visit {I : Iter σ α} {Rep : σ → List α → Prop} (h : LawfulFwd I Rep) {s : σ} {l : List α} (hr : Rep s l) (k : Nat) :
    visit I .forward (l.length + 1) (begin I (advance I s k)) = l.drop k := by
  have hk := (view_forward h hr).2.2.2.2.2.2 k
  have := h.results_forward hk
  refine loop I .forward _ _ _ (fun n _ => (this n).1) (by simp; omega) ?_
  rw [show results (I.step .forward) (advance I s k) (l.drop k).length = _ from (this _).1]; simp

example : visit listIter .forward 4 (begin listIter (advance listIter [7, 8, 9] 2)) = [9] := advance_visit listIter_lawful.toLawfulFwd (l := [7, 8, 9]) rfl 2

/-- A mixed history of consuming operations at both ends. -/
inductive Call where
  | next
  | nextBack
  | nth (k : Nat)
  | nthBack (k : Nat)
  deriving DecidableEq, Repr

def Call.exec (I : Iter σ α) (s : σ) : Call → Option α × σ
  | .next => I.next s
  | .nextBack => I.nextBack s
  | .nth k => I.nth s k
  | .nthBack k => I.nthBack s k

/-- The same on the list of remaining elements. -/
def Call.spec (l : List α) : Call → Option α × List α
  | .next => (l.head?, l.tail)
  | .nextBack => (l.getLast?, l.dropLast)
  | .nth k => (l[k]?, l.drop (k + 1))
  | .nthBack k => (l.reverse[k]?, l.take (l.length - (k + 1)))

def calls (I : Iter σ α) : σ → List Call → List (Option α × Nat)
  | _, [] => []
  | s, c :: cs => ((c.exec I s).1, I.remaining (c.exec I s).2) :: calls I (c.exec I s).2 cs

def specCalls : List α → List Call → List (Option α × Nat)
  | _, [] => []
  | l, c :: cs => ((c.spec l).1, (c.spec l).2.length) :: specCalls (c.spec l).2 cs

/-- Any interleaving of the operations of a lawful iterator consumes the same sequence from both ends, and `remaining()` counts
what is left. -/
theorem interleaving {I : Iter σ α} {Rep : σ → List α → Prop} (h : Lawful I Rep) {s : σ} {l : List α} (hr : Rep s l) (cs : List Call) :
    calls I s cs = specCalls l cs := by
  induction cs generalizing s l with
  | nil => rfl
  | cons c cs ih =>
    have : (c.exec I s).1 = (c.spec l).1 ∧ Rep (c.exec I s).2 (c.spec l).2 := by
      cases c with
      | next => exact h.next hr
      | nextBack => exact h.nextBack hr
      | nth k => exact h.nth k hr
      | nthBack k => exact h.nthBack k hr
    simp only [calls, specCalls, this.1, h.remaining this.2, ih this.2]

example : calls listIter [1, 2, 3, 4, 5, 6] [.next, .nextBack, .nth 1, .nthBack 0, .next, .next] =
    specCalls [1, 2, 3, 4, 5, 6] [.next, .nextBack, .nth 1, .nthBack 0, .next, .next] := interleaving listIter_lawful rfl _

/-- A lawful iterator satisfies the hypotheses of C39. -/
theorem LawfulFwd.skipLaw {I : Iter σ α} {Rep : σ → List α → Prop} (h : LawfulFwd I Rep) :
    SkipLaw I .forward (fun s => ∃ l, Rep s l) ∧ ∀ s l, Rep s l → Fused (I.step .forward) s := by
  refine ⟨⟨?_, ?_, ?_, ?_⟩, ?_⟩
  · rintro s ⟨l, hr⟩; exact ⟨_, (h.next hr).2⟩
  · rintro s k ⟨l, hr⟩; exact ⟨_, (h.nth k hr).2⟩
  · rintro s k ⟨l, hr⟩; exact (h.nth k hr).1.trans (h.results_forward hr k).1.symm
  · rintro s k ⟨l, hr⟩ n
    refine (h.results_forward (h.nth k hr).2 n).1.trans ?_
    refine Eq.trans ?_ (h.results_forward hr _).1.symm
    simp
  · intro s l hr n hn
    have h1 := (h.results_forward hr n).1
    have h2 := (h.results_forward hr (n + 1)).1
    rw [show results (I.step .forward) s n = results I.next s n from rfl, h1] at hn
    rw [show results (I.step .forward) s (n + 1) = results I.next s (n + 1) from rfl, h2]
    simp at hn ⊢; omega

theorem Lawful.skipLaw_backward {I : Iter σ α} {Rep : σ → List α → Prop} (h : Lawful I Rep) :
    SkipLaw I .backward (fun s => ∃ l, Rep s l) ∧ ∀ s l, Rep s l → Fused (I.step .backward) s := by
  refine ⟨⟨?_, ?_, ?_, ?_⟩, ?_⟩
  · rintro s ⟨l, hr⟩; exact ⟨_, (h.nextBack hr).2⟩
  · rintro s k ⟨l, hr⟩; exact ⟨_, (h.nthBack k hr).2⟩
  · rintro s k ⟨l, hr⟩; exact (h.nthBack k hr).1.trans (h.results_backward hr k).1.symm
  · rintro s k ⟨l, hr⟩ n
    refine (h.results_backward (h.nthBack k hr).2 n).1.trans ?_
    refine Eq.trans ?_ (h.results_backward hr _).1.symm
    rw [List.reverse_take, List.getElem?_drop]
    by_cases hk : k + 1 ≤ l.length
    · congr 1; omega
    · rw [List.getElem?_eq_none (by simp; omega), List.getElem?_eq_none (by simp; omega)]
  · intro s l hr n hn
    have h1 := (h.results_backward hr n).1
    have h2 := (h.results_backward hr (n + 1)).1
    rw [show results (I.step .backward) s n = results I.nextBack s n from rfl, h1] at hn
    rw [show results (I.step .backward) s (n + 1) = results I.nextBack s (n + 1) from rfl, h2]
    simp at hn ⊢; omega

/-! ### C59 -/

/-- **C59, partial.** A copy made by the copy constructor behaves like the original, under every further history. Missing:
direct-initialization from a non-const iterator, see `direct_init_refuted`. -/
theorem copy_partial (I : Iter σ α) (d : Dir) (w : W σ α) (ops : List Op) :
    deref (copyInit w) = deref w ∧ execs I d (copyInit w) ops = execs I d w ops := ⟨rfl, rfl⟩

example : execs listIter .forward (copyInit (mk listIter .forward [7, 8, 9])) [.postInc, .inc] =
    execs listIter .forward (mk listIter .forward [7, 8, 9]) [.postInc, .inc] := (copy_partial _ _ _ _).2

/-- **C59, refuted.** `iterator b(a)` for a non-const `a` gives an iterator that stands one element after `a`, for every iterator
that has not been peeked. -/
theorem direct_init_refuted (I : Iter σ α) (d : Dir) (w : W σ α) (h : w.peeked = none) : directInit I d w = inc I d w := by
  simp only [directInit, mk, inc, h]

example : deref (directInit listIter .forward (mk listIter .forward [7, 8, 9])) = some 8 := by
  rw [direct_init_refuted _ _ _ rfl]; rfl

end Verif.NextTo
