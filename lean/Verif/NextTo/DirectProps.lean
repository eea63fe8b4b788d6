import Verif.NextTo.Props

/-! Property C59, exactly: what an iterator made by direct initialization from a non-const iterator shows. -/
namespace Verif.NextTo

variable {σ α : Type}

/-! ### Specification -/

/-- The position after a history that begins at position `p`. -/
def position : Nat → List Op → Nat
  | p, [] => p
  | p, .inc :: ops => position (p + 1) ops
  | p, .postInc :: ops => position (p + 1) ops
  | p, .addAssign n :: ops => position (p + n) ops
  | p, .add _ :: ops => position p ops
  | p, .peek :: ops => position p ops

/-- `peek` was called since the iterator moved. -/
def peekedSince : Bool → List Op → Bool
  | b, [] => b
  | _, .inc :: ops => peekedSince false ops
  | _, .postInc :: ops => peekedSince false ops
  | b, .addAssign n :: ops => peekedSince (b && n == 0) ops
  | b, .add _ :: ops => peekedSince b ops
  | _, .peek :: ops => peekedSince true ops

/-- The iterator after a history. -/
def afterOps (I : Iter σ α) (d : Dir) : W σ α → List Op → W σ α
  | w, [] => w
  | w, op :: ops => afterOps I d (exec I d w op).1 ops

/-! ### Proofs -/

/-- Where an iterator stands, and whether it holds a value it has peeked. -/
def Stand (step : σ → Option α × σ) (P : σ → Prop) (seq : Nat → Option α) (w : W σ α) (p : Nat) (b : Bool) : Prop :=
  At step P seq w p ∧ (w.peeked ≠ none ↔ b = true ∧ seq (p + 1) ≠ none)

theorem inc_peeked (I : Iter σ α) (d : Dir) (w : W σ α) : (inc I d w).peeked = none := by
  unfold inc; split <;> rfl

theorem addAssign_peeked (I : Iter σ α) (d : Dir) (w : W σ α) (n : Nat) : (addAssign I d w (n + 1)).peeked = none := by
  unfold addAssign
  cases hw : w.peeked <;> cases n <;> simp

theorem stand_step {I : Iter σ α} {d : Dir} {P : σ → Prop} (hs : SkipLaw I d P) {seq : Nat → Option α}
    (hf : ∀ n, seq n = none → seq (n + 1) = none) {w : W σ α} {p : Nat} {b : Bool} (h : Stand (I.step d) P seq w p b) (op : Op)
    (ops : List Op) :
    ∃ p' b', Stand (I.step d) P seq (exec I d w op).1 p' b' ∧ position p (op :: ops) = position p' ops ∧
      peekedSince b (op :: ops) = peekedSince b' ops := by
  obtain ⟨ha, hb⟩ := h
  have h2 := (exec_at hs hf ha op).2
  cases op with
  | inc => exact ⟨_, false, ⟨h2, by simp [exec, inc_peeked]⟩, rfl, rfl⟩
  | postInc => exact ⟨_, false, ⟨h2, by simp [exec, postInc, inc_peeked]⟩, rfl, rfl⟩
  | add n => exact ⟨p, b, ⟨ha, hb⟩, rfl, rfl⟩
  | addAssign n =>
    cases n with
    | zero => exact ⟨p, b, ⟨h2, by simpa [exec, addAssign] using hb⟩, rfl, by simp [peekedSince]⟩
    | succ n => exact ⟨_, false, ⟨h2, by simp [exec, addAssign_peeked]⟩, rfl, by simp [peekedSince]⟩
  | peek =>
    refine ⟨p, true, ⟨h2, ?_⟩, rfl, rfl⟩
    have h1 := (exec_at hs hf ha .peek).1
    simp only [exec, specExec] at h1
    simp only [true_and, ← h1, exec]
    unfold peek
    cases hw : w.peeked <;> simp [hw]

theorem stand_run {I : Iter σ α} {d : Dir} {P : σ → Prop} (hs : SkipLaw I d P) {seq : Nat → Option α}
    (hf : ∀ n, seq n = none → seq (n + 1) = none) (ops : List Op) : ∀ {w : W σ α} {p : Nat} {b : Bool},
    Stand (I.step d) P seq w p b → Stand (I.step d) P seq (afterOps I d w ops) (position p ops) (peekedSince b ops) := by
  induction ops with
  | nil => intro w p b h; exact h
  | cons op ops ih =>
    intro w p b h
    obtain ⟨p', b', h', e1, e2⟩ := stand_step hs hf h op ops
    rw [e1, e2]
    exact ih h'

theorem stand_mk {I : Iter σ α} {d : Dir} {P : σ → Prop} (hs : SkipLaw I d P) {s : σ} (hP : P s) :
    Stand (I.step d) P (results (I.step d) s) (mk I d s) 0 false := by
  refine ⟨⟨hs.step _ hP, rfl, .inl ⟨rfl, fun n => ?_⟩⟩, by simp [mk]⟩
  show results (I.step d) (I.step d s).2 n = _
  rw [results_step]; congr 1; omega

theorem at_execs {I : Iter σ α} {d : Dir} {P : σ → Prop} (hs : SkipLaw I d P) {seq : Nat → Option α}
    (hf : ∀ n, seq n = none → seq (n + 1) = none) (ops : List Op) : ∀ {w : W σ α} {p : Nat}, At (I.step d) P seq w p →
    execs I d w ops = specExecs seq p ops := by
  induction ops with
  | nil => intro w p _; rfl
  | cons op ops ih =>
    intro w p h
    obtain ⟨h1, h2⟩ := exec_at hs hf h op
    simp only [execs, specExecs, h1, ih h2]

theorem at_direct {I : Iter σ α} {d : Dir} {P : σ → Prop} (hs : SkipLaw I d P) {seq : Nat → Option α}
    (hf : ∀ n, seq n = none → seq (n + 1) = none) {w : W σ α} {p : Nat} {b : Bool} (h : Stand (I.step d) P seq w p b) :
    At (I.step d) P seq (directInit I d w) (p + 1 + (if b then 1 else 0)) := by
  obtain ⟨⟨hP, hc, hr⟩, hb⟩ := h
  have key : ∀ n, results (I.step d) w.it n = seq (p + 1 + (if b then 1 else 0) + n) := by
    intro n
    rcases hr with ⟨e, hn⟩ | ⟨e, hne, hn⟩
    · rw [hn]
      cases b with
      | false => rfl
      | true =>
        have h0 : seq (p + 1) = none := by
          cases hq : seq (p + 1) with
          | none => rfl
          | some v => exact absurd e (hb.2 ⟨rfl, by simp [hq]⟩)
        rw [fused_mono hf h0, show p + 1 + (if true = true then 1 else 0) + n = p + 1 + (1 + n) by simp; omega, fused_mono hf h0]
    · have hbt := (hb.1 hne).1
      rw [hn, hbt]; congr 1
  refine ⟨hs.step _ hP, key 0, .inl ⟨rfl, fun n => ?_⟩⟩
  show results (I.step d) (I.step d w.it).2 n = _
  rw [results_step, key]; congr 1; omega

/-! ### The property -/

/-- **C59, exactly.** After any history of an iterator over a fused base iterator whose `nth` agrees with `next`, an iterator made
from it by direct initialization stands one element further, and two elements further if `peek` was called since the iterator
last moved: this is the element it gives, and what every further history of it shows. -/
theorem direct_init_partial {I : Iter σ α} {d : Dir} {P : σ → Prop} (hs : SkipLaw I d P) {s : σ} (hP : P s)
    (hf : Fused (I.step d) s) (ops more : List Op) :
    deref (directInit I d (afterOps I d (mk I d s) ops)) =
      results (I.step d) s (position 0 ops + 1 + (if peekedSince false ops then 1 else 0)) ∧
    execs I d (directInit I d (afterOps I d (mk I d s) ops)) more =
      specExecs (results (I.step d) s) (position 0 ops + 1 + (if peekedSince false ops then 1 else 0)) more := by
  have h := at_direct hs hf (stand_run hs hf ops (stand_mk hs hP))
  exact ⟨h.2.1, at_execs hs hf more h⟩

/-- **C59, exactly.** Over a sequence that ends, direct initialization gives an iterator with the same element and the same
remaining ones if and only if the iterator was at the end already; copies by the copy constructor always do (`copy_partial`). -/
theorem direct_init_iff_partial {I : Iter σ α} {d : Dir} {P : σ → Prop} (hs : SkipLaw I d P) {s : σ} (hP : P s)
    (hf : Fused (I.step d) s) {last : Nat} (hl : results (I.step d) s last = none) (ops : List Op) :
    (∀ more, deref (directInit I d (afterOps I d (mk I d s) ops)) = deref (afterOps I d (mk I d s) ops) ∧
        execs I d (directInit I d (afterOps I d (mk I d s) ops)) more = execs I d (afterOps I d (mk I d s) ops) more) ↔
      atEnd (afterOps I d (mk I d s) ops) = true := by
  have hw := stand_run hs hf ops (stand_mk (s := s) hs hP)
  have hd := at_direct hs hf hw
  generalize hk : (if peekedSince false ops = true then 1 else 0) = k at hd
  generalize position 0 ops = p at hw hd
  generalize afterOps I d (mk I d s) ops = w at hw hd
  have hcur : w.cur = results (I.step d) s p := hw.1.2.1
  have hshift : ∀ n q, specExecs (results (I.step d) s) q (List.replicate n .inc) =
      (List.range n).map fun j => results (I.step d) s (q + 1 + j) := by
    intro n
    induction n with
    | zero => intro q; rfl
    | succ n ih =>
      intro q
      simp only [List.replicate_succ, specExecs, specExec, ih, List.range_succ_eq_map, List.map_cons, List.map_map, Nat.add_zero]
      congr 1
      apply List.map_congr_left
      intro j _
      simp only [Function.comp]; congr 1; omega
  constructor
  · intro h
    have hone : ∀ n, results (I.step d) s (p + 1 + k + n) = results (I.step d) s (p + n) := by
      intro n
      cases n with
      | zero =>
        have := (h []).1
        rw [show deref (directInit I d w) = results (I.step d) s (p + 1 + k) from hd.2.1,
          show deref w = results (I.step d) s p from hcur] at this
        exact this
      | succ n =>
        have := (h (List.replicate (n + 1) .inc)).2
        rw [at_execs hs hf _ hd, at_execs hs hf _ hw.1, hshift, hshift] at this
        have := congrArg (fun l => l[n]?) this
        simp only [List.getElem?_map, List.getElem?_range (show n < n + 1 by omega), Option.map_some, Option.some.injEq] at this
        rw [show p + 1 + k + (n + 1) = p + 1 + k + 1 + n by omega, show p + (n + 1) = p + 1 + n by omega]
        exact this
    have hall : ∀ m, results (I.step d) s (p + m * (1 + k)) = results (I.step d) s p := by
      intro m
      induction m with
      | zero => simp
      | succ m ih =>
        rw [← ih, ← hone (m * (1 + k))]; congr 1; rw [Nat.succ_mul]; omega
    have hnone : results (I.step d) s p = none := by
      rw [← hall last]
      have : p + last * (1 + k) = last + (p + last * k) := by rw [Nat.mul_add]; omega
      rw [this]
      exact fused_mono hf hl _
    simp [atEnd, hcur, hnone]
  · intro h more
    have hnone : results (I.step d) s p = none := by
      rw [← hcur]; simpa [atEnd] using h
    have hz : ∀ j, results (I.step d) s (p + j) = none := fun j => fused_mono hf hnone j
    refine ⟨?_, ?_⟩
    · rw [show deref (directInit I d w) = results (I.step d) s (p + 1 + k) from hd.2.1, show deref w = results (I.step d) s p from hcur,
        hnone, Nat.add_assoc, hz]
    · rw [at_execs hs hf _ hd, at_execs hs hf _ hw.1]
      have gen : ∀ (ops : List Op) (a b : Nat), p ≤ a → p ≤ b →
          specExecs (results (I.step d) s) a ops = specExecs (results (I.step d) s) b ops := by
        have hz' : ∀ a, p ≤ a → results (I.step d) s a = none := by
          intro a ha
          have := hz (a - p)
          rwa [show p + (a - p) = a by omega] at this
        intro ops
        induction ops with
        | nil => intros; rfl
        | cons op ops ih =>
          intro a b ha hb
          cases op <;> simp only [specExecs, specExec] <;>
            exact List.cons_eq_cons.2 ⟨(hz' _ (by omega)).trans (hz' _ (by omega)).symm, ih _ _ (by omega) (by omega)⟩
      exact gen more _ _ (by omega) (by omega)

-- an iterator over 7, 8, 9 that has peeked: the copy gives 9, the original 7
example : deref (directInit listIter .forward (afterOps listIter .forward (mk listIter .forward [7, 8, 9]) [.peek])) = some 9 :=
  (direct_init_partial (LawfulFwd.skipLaw listIter_lawful.toLawfulFwd).1 (s := [7, 8, 9]) ⟨_, rfl⟩
    ((LawfulFwd.skipLaw listIter_lawful.toLawfulFwd).2 _ _ rfl) [.peek] []).1

example : ¬ atEnd (afterOps listIter .forward (mk listIter .forward [7, 8, 9]) [.inc]) = true ∧
    atEnd (afterOps listIter .forward (mk listIter .forward [7, 8, 9]) [.addAssign 3]) = true ∧
    results (listIter.step .forward) [7, 8, 9] 3 = none := by decide

end Verif.NextTo
