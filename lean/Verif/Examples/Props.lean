import Verif.Examples.Model
import Verif.Defer.Props
import Verif.FlexArray.Props
import Verif.NextTo.Props

/-!
C121: what the programs of the directory `examples` do, for every input, limit and failure.
-/
namespace Verif.Examples

/-! ### A vector with a limit -/

section Vector
open Verif.Limit

variable {α : Type}

/-- The invariant of the vectors below: the bytes left and the bytes of the block are the limit, the elements fit in. -/
theorem call_inv {M sz limit : Nat} {grow : Nat → Nat} (hM : limit < M) (hg : ∀ c, c < grow c) {v v' : Vec α} {o : VOp α} {ok : Bool}
    (hi : v.left + v.cap * sz = limit) (hl : v.elems.length ≤ v.cap) (h : v.call M sz grow o = some (ok, v')) :
    (v'.left + v'.cap * sz = limit ∧ v'.elems.length ≤ v'.cap) ∧
    (ok = true → v'.elems = match o with
      | .push x _ => v.elems ++ [x]
      | .pop => v.elems.dropLast
      | .clear => []
      | .reserve _ _ => v.elems) ∧
    (ok = false → v' = v) ∧
    (ok = false ↔ match o with
      | .push _ up => v.elems.length = v.cap ∧ (up = false ∨ limit < (v.cap + grow v.cap) * sz)
      | .reserve n up => v.cap < n ∧ (up = false ∨ limit < (v.cap + n) * sz)
      | _ => False) := by
  -- the two cases of `regrow`
  have key : ∀ (n : Nat) (up : Bool), v.cap < n →
      (up = true ∧ (v.cap + n) * sz ≤ limit ∧ ∃ l, (v.regrow M sz n up) = (some ⟨v.elems, n, limit - n * sz⟩, l)) ∨
      ((up = false ∨ limit < (v.cap + n) * sz) ∧ v.regrow M sz n up = (none, v.left)) := by
    intro n up hn
    have e2 : (v.cap + n) * sz = v.cap * sz + n * sz := Nat.add_mul ..
    unfold Vec.regrow
    by_cases hbig : M ≤ n * sz
    · right
      rw [if_pos hbig]
      exact ⟨.inr (by omega), rfl⟩
    · rw [if_neg hbig]
      have hlt : n * sz < M := by omega
      have hlt' : v.cap * sz < M := by omega
      simp only [seqAllocate, seqDeallocate, Block.cost, Nat.mod_eq_of_lt hlt]
      by_cases hc : v.left < n * sz
      · right
        rw [if_pos hc]
        exact ⟨.inr (by omega), rfl⟩
      · rw [if_neg hc]
        have h1 : (v.left + M - n * sz) % M = v.left - n * sz := by
          rw [show v.left + M - n * sz = (v.left - n * sz) + M by omega, Nat.add_mod_right, Nat.mod_eq_of_lt (by omega)]
        cases up with
        | false =>
          right
          rw [h1]
          refine ⟨.inl rfl, ?_⟩
          simp only [Bool.false_eq_true, if_false]
          rw [Nat.mod_eq_of_lt (by omega)]
          congr 1
          omega
        | true =>
          left
          refine ⟨rfl, by omega, v.left - n * sz, ?_⟩
          simp only [if_true, h1]
          congr 3
          by_cases h0 : v.cap = 0
          · simp only [h0, if_true, Nat.zero_mul] at hi ⊢
            omega
          · rw [if_neg h0, Nat.mod_eq_of_lt hlt', Nat.mod_eq_of_lt (by omega)]
            omega
  cases o with
  | push x up =>
    simp only [Vec.call] at h
    by_cases hs : v.elems.length < v.cap
    · rw [if_pos hs] at h
      simp only [Option.some.injEq, Prod.mk.injEq] at h
      obtain ⟨rfl, rfl⟩ := h
      refine ⟨⟨hi, by simp; omega⟩, fun _ => rfl, by simp, ?_⟩
      simp only [Bool.true_eq_false, false_iff]
      omega
    · rw [if_neg hs] at h
      have he : v.elems.length = v.cap := by omega
      rcases key (grow v.cap) up (hg _) with ⟨h1, h2, l, h3⟩ | ⟨h1, h2⟩
      · rw [h3] at h
        simp only [Option.some.injEq, Prod.mk.injEq] at h
        obtain ⟨rfl, rfl⟩ := h
        have := hg v.cap
        have e2 : (v.cap + grow v.cap) * sz = v.cap * sz + grow v.cap * sz := Nat.add_mul ..
        refine ⟨⟨by simp only; omega, by simp; omega⟩, fun _ => rfl, by simp, ?_⟩
        simp only [Bool.true_eq_false, false_iff, h1, false_or]
        omega
      · rw [h2] at h
        simp only [Option.some.injEq, Prod.mk.injEq] at h
        obtain ⟨rfl, rfl⟩ := h
        exact ⟨⟨hi, hl⟩, by simp, fun _ => rfl, by simp [he, h1]⟩
  | pop =>
    simp only [Vec.call] at h
    split at h
    · exact absurd h (by simp)
    · simp only [Option.some.injEq, Prod.mk.injEq] at h
      obtain ⟨rfl, rfl⟩ := h
      exact ⟨⟨hi, by simp; omega⟩, fun _ => rfl, by simp, by simp⟩
  | clear =>
    simp only [Vec.call, Option.some.injEq, Prod.mk.injEq] at h
    obtain ⟨rfl, rfl⟩ := h
    exact ⟨⟨hi, by simp⟩, fun _ => rfl, by simp, by simp⟩
  | reserve n up =>
    simp only [Vec.call] at h
    by_cases hs : n ≤ v.cap
    · rw [if_pos hs] at h
      simp only [Option.some.injEq, Prod.mk.injEq] at h
      obtain ⟨rfl, rfl⟩ := h
      refine ⟨⟨hi, hl⟩, fun _ => rfl, by simp, ?_⟩
      simp only [Bool.true_eq_false, false_iff]
      omega
    · rw [if_neg hs] at h
      rcases key n up (by omega) with ⟨h1, h2, l, h3⟩ | ⟨h1, h2⟩
      · rw [h3] at h
        simp only [Option.some.injEq, Prod.mk.injEq] at h
        obtain ⟨rfl, rfl⟩ := h
        have e2 : (v.cap + n) * sz = v.cap * sz + n * sz := Nat.add_mul ..
        refine ⟨⟨by simp only; omega, by simp only; omega⟩, fun _ => rfl, by simp, ?_⟩
        simp only [Bool.true_eq_false, false_iff, h1, false_or]
        omega
      · rw [h2] at h
        simp only [Option.some.injEq, Prod.mk.injEq] at h
        obtain ⟨rfl, rfl⟩ := h
        exact ⟨⟨hi, hl⟩, by simp, fun _ => rfl, by simp [h1]; omega⟩

theorem run_inv {M sz limit : Nat} {grow : Nat → Nat} (hM : limit < M) (hg : ∀ c, c < grow c) {os : List (VOp α)} :
    ∀ {v v' : Vec α} {rs : List Bool}, v.left + v.cap * sz = limit → v.elems.length ≤ v.cap → v.run M sz grow os = some (rs, v') →
      v'.left + v'.cap * sz = limit ∧ v'.elems.length ≤ v'.cap := by
  induction os with
  | nil =>
    intro v v' rs hi hl h
    simp only [Vec.run, Option.some.injEq, Prod.mk.injEq] at h
    obtain ⟨rfl, rfl⟩ := h
    exact ⟨hi, hl⟩
  | cons o os ih =>
    intro v v' rs hi hl h
    simp only [Vec.run, Option.bind_eq_some_iff, Option.some.injEq, Prod.mk.injEq] at h
    obtain ⟨⟨ok, v1⟩, h1, ⟨rs', v2⟩, h2, _, rfl⟩ := h
    obtain ⟨⟨h3, h4⟩, _⟩ := call_inv hM hg hi hl h1
    exact ih h3 h4 h2

/-- **C121.** A vector with a `limit_allocator` (example_limit_allocator.cpp), after any calls whatever: a call throws exactly if the vector needs a new block and the old
and the new block together are more than the limit, or there is no memory behind the limit. A call that throws changes nothing, the limit included; one that
returns has done its work. The vector never has a block larger than the limit. -/
theorem vector_spec {M sz limit : Nat} {grow : Nat → Nat} (hM : limit < M) (hg : ∀ c, c < grow c) {os : List (VOp α)} {rs : List Bool}
    {v v' : Vec α} {o : VOp α} {ok : Bool} (hr : (Vec.init limit : Vec α).run M sz grow os = some (rs, v))
    (h : v.call M sz grow o = some (ok, v')) :
    v.cap * sz ≤ limit ∧
    (ok = true → v'.elems = match o with
      | .push x _ => v.elems ++ [x]
      | .pop => v.elems.dropLast
      | .clear => []
      | .reserve _ _ => v.elems) ∧
    (ok = false → v' = v) ∧
    (ok = false ↔ match o with
      | .push _ up => v.elems.length = v.cap ∧ (up = false ∨ limit < (v.cap + grow v.cap) * sz)
      | .reserve n up => v.cap < n ∧ (up = false ∨ limit < (v.cap + n) * sz)
      | _ => False) := by
  obtain ⟨h1, h2⟩ := run_inv hM hg (by simp [Vec.init]) (by simp [Vec.init]) hr
  exact ⟨by omega, (call_inv hM hg h1 h2 h).2⟩

/-- example_limit_allocator.cpp:8-25 as it is: the third and the fifth `push_back` throw. -/
example : (Vec.init 12 : Vec Nat).run (2 ^ 64) 4 doubling [.push 1 true, .push 2 true, .push 3 true, .pop, .push 4 true, .push 5 true] =
    some ([true, true, false, true, true, false], ⟨[1, 4], 2, 4⟩) := by decide

/-- The vector made by `push_back` alone: the capacity is the least power of two that suffices. -/
def Tight (v : Vec α) : Prop :=
  (v.elems.length = 0 ∧ v.cap = 0) ∨ ∃ k, v.cap = 2 ^ k ∧ 1 ≤ v.elems.length ∧ v.elems.length ≤ 2 ^ k ∧ ∀ j, j < k → 2 ^ j < v.elems.length

/-- Limit for `n` elements. -/
def Fits (sz limit n : Nat) : Prop := n = 0 ∨ (sz ≤ limit ∧ ∀ k, 2 ^ k < n → 3 * 2 ^ k * sz ≤ limit)

theorem fits_mono {sz limit n m : Nat} (h : n ≤ m) (hf : Fits sz limit m) : Fits sz limit n := by
  rcases hf with h0 | ⟨h1, h2⟩
  · exact .inl (by omega)
  · exact .inr ⟨h1, fun k hk => h2 k (by omega)⟩

theorem doubling_gt (c : Nat) : c < doubling c := by
  unfold doubling; split <;> omega

theorem push_tight {M sz limit : Nat} (hM : limit < M) {v : Vec α} (hi : v.left + v.cap * sz = limit) (ht : Tight v)
    (hf : Fits sz limit v.elems.length) (x : α) :
    ∃ ok v', v.call M sz doubling (.push x true) = some (ok, v') ∧ v'.left + v'.cap * sz = limit ∧
      (ok = true ↔ Fits sz limit (v.elems.length + 1)) ∧ (ok = true → Tight v' ∧ v'.elems = v.elems ++ [x]) := by
  have hl : v.elems.length ≤ v.cap := by
    rcases ht with h | ⟨k, h1, h2, h3, h4⟩ <;> omega
  obtain ⟨ok, v', h⟩ : ∃ ok v', v.call M sz doubling (.push x true) = some (ok, v') := by
    simp only [Vec.call]
    split
    · exact ⟨_, _, rfl⟩
    · split <;> exact ⟨_, _, rfl⟩
  obtain ⟨⟨h1, h2⟩, h3, h4, h5⟩ := call_inv hM doubling_gt hi hl h
  refine ⟨ok, v', h, h1, ?_, fun hok => ⟨?_, h3 hok⟩⟩
  · have e : ok = true ↔ ¬ (v.elems.length = v.cap ∧ limit < (v.cap + doubling v.cap) * sz) := by
      rw [← Bool.not_eq_false]
      simp only [h5, Bool.true_eq_false, false_or]
    rw [e]
    rcases ht with ⟨t1, t2⟩ | ⟨k, t1, t2, t3, t4⟩
    · simp only [t1, t2, doubling, if_true, true_and, Nat.zero_add, Nat.one_mul, Fits]
      constructor
      · intro hh
        exact .inr ⟨by omega, fun k hk => absurd hk (by have := Nat.one_le_two_pow (n := k); omega)⟩
      · rintro (hh | ⟨hh, _⟩)
        · omega
        · omega
    · have hp : 1 ≤ 2 ^ k := Nat.one_le_two_pow
      have hd : v.cap + doubling v.cap = 3 * 2 ^ k := by
        rw [doubling, if_neg (by omega), t1]; omega
      rw [hd, t1]
      obtain ⟨f1, f2⟩ : sz ≤ limit ∧ ∀ k, 2 ^ k < v.elems.length → 3 * 2 ^ k * sz ≤ limit := by
        rcases hf with h0 | h0
        · omega
        · exact h0
      constructor
      · intro hh
        refine .inr ⟨f1, fun j hj => ?_⟩
        by_cases hjk : j < k
        · exact f2 j (t4 j hjk)
        · have hle : 2 ^ k ≤ 2 ^ j := Nat.pow_le_pow_right (by omega) (by omega)
          have : 2 ^ j = 2 ^ k := by omega
          rw [this]
          omega
      · rintro (hh | ⟨_, hh⟩)
        · omega
        · rintro ⟨g1, g2⟩
          have := hh k (by omega)
          omega
  · -- the new vector
    simp only [Vec.call] at h
    have hlen : v'.elems.length = v.elems.length + 1 := by rw [h3 hok]; simp
    by_cases hs : v.elems.length < v.cap
    · rw [if_pos hs] at h
      simp only [Option.some.injEq, Prod.mk.injEq] at h
      obtain ⟨_, rfl⟩ := h
      rcases ht with ⟨t1, t2⟩ | ⟨k, t1, t2, t3, t4⟩
      · omega
      · exact .inr ⟨k, t1, by omega, by omega, fun j hj => by have := t4 j hj; omega⟩
    · rw [if_neg hs] at h
      have hc : v'.cap = doubling v.cap := by
        unfold Vec.regrow at h
        split at h <;> rename_i heq
        · split at heq
          · simp at heq
          · split at heq
            · simp only [Prod.mk.injEq, Option.some.injEq] at heq
              obtain ⟨rfl, _⟩ := heq
              simp only [Option.some.injEq, Prod.mk.injEq] at h
              obtain ⟨_, rfl⟩ := h
              rfl
            · simp at heq
        · simp only [Option.some.injEq, Prod.mk.injEq] at h
          rw [hok] at h
          simp at h
      rcases ht with ⟨t1, t2⟩ | ⟨k, t1, t2, t3, t4⟩
      · refine .inr ⟨0, by simp [hc, t2, doubling], by omega, by simp [hlen, t1], by simp⟩
      · have hp : 1 ≤ 2 ^ k := Nat.one_le_two_pow
        have e2 : 2 ^ (k + 1) = 2 * 2 ^ k := by rw [Nat.pow_succ]; omega
        refine .inr ⟨k + 1, by rw [hc, doubling, if_neg (by omega), t1, e2], by omega, by omega, fun j hj => ?_⟩
        have : 2 ^ j ≤ 2 ^ k := Nat.pow_le_pow_right (by omega) (by omega)
        omega

theorem pushes {M sz limit : Nat} (hM : limit < M) : ∀ (xs : List α) {v : Vec α}, v.left + v.cap * sz = limit → Tight v →
    Fits sz limit v.elems.length →
    ((∃ v', v.run M sz doubling (xs.map (VOp.push · true)) = some (List.replicate xs.length true, v') ∧ v'.elems = v.elems ++ xs) ↔
      Fits sz limit (v.elems.length + xs.length)) := by
  intro xs
  induction xs with
  | nil =>
    intro v hi ht hf
    simpa [Vec.run] using hf
  | cons x xs ih =>
    intro v hi ht hf
    obtain ⟨ok, v1, h1, h2, h3, h4⟩ := push_tight hM hi ht hf x
    simp only [List.map_cons, Vec.run, h1, Option.bind_some, List.length_cons, List.replicate_succ]
    by_cases hok : ok = true
    · obtain ⟨g1, g2⟩ := h4 hok
      have hlen : v1.elems.length = v.elems.length + 1 := by rw [g2]; simp
      have := ih h2 g1 (by rw [hlen]; exact h3.1 hok)
      rw [hlen, show v.elems.length + 1 + xs.length = v.elems.length + (xs.length + 1) by omega] at this
      rw [← this, hok]
      constructor
      · rintro ⟨v', hr, he⟩
        simp only [Option.bind_eq_some_iff, Option.some.injEq, Prod.mk.injEq, List.cons.injEq, true_and] at hr
        obtain ⟨⟨rs, v2⟩, hr1, hr2, rfl⟩ := hr
        exact ⟨v2, by rw [hr1]; simp only at hr2; rw [hr2], by rw [he, g2]; simp⟩
      · rintro ⟨v', hr, he⟩
        exact ⟨v', by rw [hr]; rfl, by rw [he, g2]; simp⟩
    · constructor
      · rintro ⟨v', hr, he⟩
        simp only [Option.bind_eq_some_iff, Option.some.injEq, Prod.mk.injEq, List.cons.injEq] at hr
        obtain ⟨⟨rs, v2⟩, hr1, ⟨hr2, _⟩, _⟩ := hr
        exact absurd hr2 hok
      · intro hh
        exact absurd (h3.2 (fits_mono (by omega) hh)) hok

/-- **C121.** A vector that doubles its capacity can be filled with `xs` by `push_back` exactly if every block it needs on the way fits next to the one before: the
limit has to be three times the largest power of two that is less than the number of elements. -/
theorem vector_fill {M sz limit : Nat} (hM : limit < M) (xs : List α) :
    (∃ v, (Vec.init limit : Vec α).run M sz doubling (xs.map (VOp.push · true)) = some (List.replicate xs.length true, v) ∧ v.elems = xs) ↔
      (xs = [] ∨ (sz ≤ limit ∧ ∀ k, 2 ^ k < xs.length → 3 * 2 ^ k * sz ≤ limit)) := by
  have := pushes (α := α) hM xs (v := Vec.init limit) (by simp [Vec.init]) (.inl (by simp [Vec.init])) (.inl rfl) (sz := sz)
  simpa [Vec.init, Fits] using this

/-- Three `int`s do not fit into a limit of three `int`s, two do (example_limit_allocator.cpp:8-16); four need a limit of six. -/
example : ¬ (∃ v, (Vec.init 12 : Vec Nat).run (2 ^ 64) 4 doubling ([1, 2, 3].map (VOp.push · true)) = some ([true, true, true], v) ∧ v.elems = [1, 2, 3]) ∧
    (Vec.init 24 : Vec Nat).run (2 ^ 64) 4 doubling ([1, 2, 3, 4].map (VOp.push · true)) = some ([true, true, true, true], ⟨[1, 2, 3, 4], 4, 8⟩) := by
  constructor
  · intro h
    have := (vector_fill (sz := 4) (by decide) [1, 2, 3]).1 h
    simp only [List.cons_ne_nil, false_or] at this
    exact absurd (this.2 1 (by decide)) (by decide)
  · decide

end Vector

/-! ### Copying a file as a transaction -/

section Files
open Verif.Defer

/-- **C121.** `copy_file_transact` (examples_defer.cpp), for every state of the files, every failure of the operating system, and also if it is called by a destructor while
exceptions are uncaught. It returns exactly if copying and renaming succeed; then the target has the content of the source and nothing else has changed. Otherwise it
throws, and then no file has changed but the temporary one, which is gone if it can be removed. -/
theorem transact_spec (w : World) {src dst tmp : Nat} (hd : dst ≠ tmp) (fs : FS) (c : Nat) :
    ((copyFile w src dst tmp fs c).1 = .normal ↔ w.copyOk = true ∧ (fs src).isSome ∧ fs tmp = none ∧ w.renameOk = true) ∧
    ((copyFile w src dst tmp fs c).1 = .normal → ∀ p, (copyFile w src dst tmp fs c).2 p = if p = dst then fs src else fs p) ∧
    ((copyFile w src dst tmp fs c).1 ≠ .normal → (∃ e, (copyFile w src dst tmp fs c).1 = .thrown e) ∧
      (∀ p, p ≠ tmp → (copyFile w src dst tmp fs c).2 p = fs p) ∧ (w.removeOk = true → (copyFile w src dst tmp fs c).2 tmp = none)) := by
  unfold copyFile transact
  by_cases hc : w.copies fs src tmp = true
  · have hc' : w.copyOk = true ∧ (fs src).isSome ∧ fs tmp = none := by
      simp only [World.copies, Bool.and_eq_true, Option.isNone_iff_eq_none] at hc
      exact ⟨hc.1.1, hc.1.2, hc.2⟩
    cases hr : w.renameOk with
    | true =>
      simp [hc, hr, exec, runs, effect, FS.set, hc']
      intro p
      grind
    | false =>
      cases hm : w.removeOk <;> simp [hc, hr, hm, exec, runs, effect, FS.set, hc', Out.isThrown]
      · intro p hp; grind
      · intro p hp; grind
  · have hc' : ¬ (w.copyOk = true ∧ (fs src).isSome ∧ fs tmp = none) := by
      simp only [World.copies, Bool.and_eq_true, Option.isNone_iff_eq_none] at hc
      grind
    cases hm : w.removeOk <;> simp [hc, hm, exec, runs, effect, FS.set, Out.isThrown]
    · refine ⟨by grind, fun p hp => ?_⟩
      split
      · simp [FS.set, hp]
      · rfl
    · refine ⟨by grind, fun p hp => ?_⟩
      rw [if_neg hp]
      split
      · simp [FS.set, hp]
      · rfl

/-- Copy file 0 to file 1 by way of file 2: it works; the disk is full. -/
example : (copyFile ⟨true, none, true, true⟩ 0 1 2 (fun p => if p = 0 then some [7, 8] else none) 0).1 = .normal ∧
    (copyFile ⟨true, none, true, true⟩ 0 1 2 (fun p => if p = 0 then some [7, 8] else none) 0).2 1 = some [7, 8] ∧
    (copyFile ⟨false, some [7], true, true⟩ 0 1 2 (fun p => if p = 0 then some [7, 8] else none) 0).1 = .thrown 0 ∧
    (copyFile ⟨false, some [7], true, true⟩ 0 1 2 (fun p => if p = 0 then some [7, 8] else none) 0).2 2 = none := by decide

/-- **C121, refuted.** "A call that fails leaves everything as it was" is wrong for the temporary file: if there is a file of this name already, the call throws because of it
and removes it, although it is not its own. -/
theorem transact_foreign_refuted : ∃ (w : World) (fs : FS), fs 2 = some [5] ∧ (copyFile w 0 1 2 fs 0).1 = .thrown 0 ∧
    (copyFile w 0 1 2 fs 0).2 2 = none :=
  ⟨⟨true, none, true, true⟩, fun p => if p = 0 then some [7, 8] else if p = 2 then some [5] else none, by decide, by decide, by decide⟩

end Files

/-! ### Shapes -/

section Shapes
open Verif.FlexArray

/-- **C121.** The extents of a shape (example_flex_array.cpp) are the ones it was made with, for every shape of at most two dimensions. Neither a third dimension nor a wrong number
of extents gets through. -/
theorem shape_extents (env : Env Nat) (n : Nat) (xs : List Nat) :
    (xs.length = n ∧ n ≤ 2 → ∃ a, extents env n xs = some a ∧ a.size = n ∧ a.live = xs.map some) ∧
    (¬ (xs.length = n ∧ n ≤ 2) → extents env n xs = none) := by
  obtain ⟨h1, h2⟩ := init_spec env (.static n) xs
  simp only at h1 h2
  unfold extents
  refine ⟨fun ⟨hl, hn⟩ => ?_, fun hh => ?_⟩
  · obtain ⟨b, e, hs, hb⟩ := h1 hl
    rw [e]
    obtain ⟨a, g1, g2, g3⟩ := of_static_spec (.ofInit e) (.limited 2) (by simp) (by simp [Mode.max]; omega)
    exact ⟨a, g1, g2, by rw [g3, hb]⟩
  · by_cases hl : xs.length = n
    · obtain ⟨b, e, hs, hb⟩ := h1 hl
      rw [e]
      simp only [ofStatic]
      rw [if_neg (by omega)]
    · rw [h2 hl]

/-- The square of example_flex_array.cpp:70. -/
example : extents ⟨none, 0⟩ 2 [52, 15] = some ⟨2, [some 52, some 15]⟩ ∧ extents ⟨none, 0⟩ 1 [12] = some ⟨1, [some 12, none]⟩ ∧
    extents ⟨none, 0⟩ 0 [] = some ⟨0, [none, none]⟩ ∧ extents ⟨none, 0⟩ 3 [1, 2, 3] = none := by decide

end Shapes

/-! ### Taking elements -/

section Take
open Verif.NextTo

variable {σ α : Type}

/-- **C121.** A loop over the first `n` elements (example_next_to_range.cpp) visits the first `n` results of `next()` up to the first `nullopt`. It calls `next()` once more than it visits
elements: the iterator is always one element ahead, so it also waits for, and takes, an element nobody asked for. -/
theorem take_spec (I : Iter σ α) (d : Dir) : ∀ (n : Nat) (s : σ) (l : List α), l.length ≤ n →
    (∀ i, i < l.length → results (I.step d) s i = l[i]?) → (l.length = n ∨ results (I.step d) s l.length = none) →
    (takeLoop I d n (mk I d s)).1 = l ∧ (takeLoop I d n (mk I d s)).2.it = after (I.step d) (l.length + 1) s := by
  intro n
  induction n with
  | zero =>
    intro s l hl _ _
    have : l = [] := List.length_eq_zero_iff.1 (by omega)
    subst this
    exact ⟨rfl, rfl⟩
  | succ n ih =>
    intro s l hl hr he
    cases l with
    | nil =>
      rcases he with he | he
      · simp at he
      · have : deref (mk I d s) = none := he
        simp only [takeLoop, this]
        exact ⟨trivial, rfl⟩
    | cons x l =>
      have h0 : deref (mk I d s) = some x := hr 0 (by simp)
      have hi : inc I d (mk I d s) = mk I d (I.step d s).2 := rfl
      simp only [takeLoop, h0, hi]
      obtain ⟨g1, g2⟩ := ih (I.step d s).2 l (by simpa using hl) (fun i hi => by
        have := hr (i + 1) (by simpa using hi)
        simpa [results_step] using this) (by
        rcases he with he | he
        · exact .inl (by simpa using he)
        · exact .inr (by simpa [results_step] using he))
      exact ⟨by rw [g1], by rw [g2]; rfl⟩

/-- `iota{5} | std::views::take(3)`: 5, 6, 7 are visited, and 8 has been computed too. -/
example : let iota : Iter Nat Nat := ⟨fun s => (some s, s + 1), fun s => (none, s), fun s k => (some (s + k), s + k + 1), fun s _ => (none, s), fun _ => 0⟩
    (takeLoop iota .forward 3 (mk iota .forward 5)).1 = [5, 6, 7] ∧ (takeLoop iota .forward 3 (mk iota .forward 5)).2.it = 9 := by decide

end Take
end Verif.Examples
