import Verif.Limit.Props

/-!
The test of `tests/tests_limit_allocator.cpp` for every program: one thread allocates and releases arrays of one type in any
order. Which calls throw follows from the sizes of the blocks in use alone.
-/
namespace Verif.Conform.Limit

open Verif.Limit

/-- What the test does: allocate an array of `n` objects, or release the `k`-th block in use (limit_allocator.hpp:139,151). -/
inductive Cmd where
  | allocate (n : Nat)
  | release (k : Nat)
  deriving DecidableEq, Repr

/-- The reference: the blocks in use. A call of `allocate` throws exactly if the objects in use and the new ones are more
bytes than the limit (documentation of limit_allocator.hpp:61-68). `none`: the program releases what is not in use. -/
def limitRef (limit sz : Nat) : List Nat → List Cmd → Option (List Bool)
  | _, [] => some []
  | live, .allocate n :: cs =>
    if (live.sum + n) * sz ≤ limit then (limitRef limit sz (live ++ [n]) cs).map (true :: ·)
    else (limitRef limit sz live cs).map (false :: ·)
  | live, .release k :: cs => if k < live.length then limitRef limit sz (live.eraseIdx k) cs else none

/-- The program run by the code (limit_allocator.hpp:139-153) with `left` bytes left, `M` values of `size_t`. The allocator
behind it always has memory. -/
def limitRun (M sz : Nat) : Nat → List Nat → List Cmd → Option (List Bool)
  | _, _, [] => some []
  | left, live, .allocate n :: cs =>
    match seqAllocate M left ⟨n, sz⟩ true with
    | (.ok, left', _) => (limitRun M sz left' (live ++ [n]) cs).map (true :: ·)
    | (_, left', _) => (limitRun M sz left' live cs).map (false :: ·)
  | left, live, .release k :: cs =>
    match live[k]? with
    | some n => limitRun M sz (seqDeallocate M left ⟨n, sz⟩) (live.eraseIdx k) cs
    | none => none

theorem sum_eraseIdx {l : List Nat} {k n : Nat} (h : l[k]? = some n) : (l.eraseIdx k).sum + n = l.sum := by
  induction l generalizing k with
  | nil => simp at h
  | cons a l ih =>
    cases k with
    | zero => simp at h; subst h; simp; omega
    | succ k => simp at h; have := ih h; simp; omega

theorem limit_run_ref {M limit sz : Nat} (hM : limit < M) (cs : List Cmd)
    (hcs : ∀ n, .allocate n ∈ cs → n * sz < M) : ∀ (left : Nat) (live : List Nat), left + live.sum * sz = limit →
    limitRun M sz left live cs = limitRef limit sz live cs := by
  induction cs with
  | nil => intros; simp [limitRun, limitRef]
  | cons c cs ih =>
    intro left live hl
    have ih := ih (fun n hn => hcs n (by simp [hn]))
    cases c with
    | allocate n =>
      have hn : n * sz < M := hcs n (by simp)
      have hs := limit_allocate_spec_partial (left := left) (by omega) hn true
      simp only [limitRun, limitRef, Nat.add_mul]
      obtain ⟨hr, -, hfree, hok, hval⟩ := hs
      by_cases hfit : n * sz ≤ left
      · have h1 := hok.mpr ⟨hfit, rfl⟩
        have h2 := (hval h1).1
        rw [if_pos (by omega)]
        rcases hx : seqAllocate M left ⟨n, sz⟩ true with ⟨o, left', b⟩
        rw [hx] at h1 h2
        simp only at h1 h2
        subst h1
        simp only
        rw [ih left' (live ++ [n]) (by simp [Nat.add_mul]; omega)]
      · have h1 := hr.mpr (by omega)
        have h2 := hfree (by rw [h1]; simp)
        rw [if_neg (by omega)]
        rcases hx : seqAllocate M left ⟨n, sz⟩ true with ⟨o, left', b⟩
        rw [hx] at h1 h2
        simp only at h1 h2
        subst h1 h2
        simp only
        rw [ih _ live hl]
    | release k =>
      simp only [limitRun, limitRef]
      rcases hk : live[k]? with _ | n
      · have : ¬ k < live.length := by
          intro hlt
          rw [List.getElem?_eq_getElem hlt] at hk
          cases hk
        simp [this]
      · have hlt : k < live.length := (List.getElem?_eq_some_iff.mp hk).1
        have hsum := sum_eraseIdx hk
        have hmul : (live.eraseIdx k).sum * sz + n * sz = live.sum * sz := by rw [← Nat.add_mul, hsum]
        simp only [hlt, if_true]
        apply ih
        simp only [seqDeallocate, Block.cost]
        rw [Nat.mod_eq_of_lt (show n * sz < M by omega), Nat.mod_eq_of_lt (by omega)]
        omega

/-- C112. The test of the limit allocator (tests_limit_allocator.cpp:9-29) for every program of one thread: a call of
`allocate` throws if and only if the blocks in use and the new one are more bytes than the limit, whatever was allocated,
refused and released before, in whatever order. Arrays of `2^64` bytes and more are excluded (`limit_wrap_refuted`). -/
theorem limit_program {M limit sz : Nat} (hM : limit < M) (cs : List Cmd) (hcs : ∀ n, .allocate n ∈ cs → n * sz < M) :
    limitRun M sz limit [] cs = limitRef limit sz [] cs :=
  limit_run_ref hM cs hcs limit [] (by simp)

/-- The test itself (tests_limit_allocator.cpp:11-28), with `sizeof(int)` = 4. -/
example : limitRun (2 ^ 64) 4 48 [] [.allocate 5, .allocate 5, .allocate 1, .release 2, .release 1, .allocate 8,
    .allocate 7, .release 0, .release 0, .allocate 12, .release 0, .allocate 13] =
    some [true, true, true, false, true, true, false] := by
  rw [limit_program (by decide) _ (by simp)]
  decide

end Verif.Conform.Limit
