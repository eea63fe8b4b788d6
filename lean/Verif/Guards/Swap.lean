import Verif.Guards.Props

/-!
`swap(a, b)` for two guards, as in tests/tests_mutex.cpp and tests/tests_shared_mutex.cpp.

The friend `swap` (mutex.hpp:57-61, shared_mutex.hpp:59-63) takes its arguments by reference to const and is not viable for
non-const guards in preference to `std::swap`, which argument-dependent lookup finds as well (`std` is an associated
namespace through the template argument `std::mutex`); so `std::swap` runs: a move construction, two move assignments and
a destruction.
-/
namespace Verif.Guards

open Verif.Channel (lt_of_getElem?)

variable {α : Type}

/-- `T tmp(std::move(a)); a = std::move(b); b = std::move(tmp);` and the end of `tmp` (the body of `std::swap`, with the
defaulted operations of mutex.hpp:45-47, shared_mutex.hpp:47-49); `n` is the number of `tmp`. -/
def stdSwap (i j n : Nat) : List (Op α) := [.moveCtor i, .moveAssign i j, .moveAssign j n, .destroy n]

theorem swap_steps {s : St α} {i j : Nat} {a b : Guard} (hi : s.guards[i]? = some (some a))
    (hj : s.guards[j]? = some (some b)) (hk : a.kind = b.kind) :
    ∃ s1 s2 s3, step s (.moveCtor i) = some (s1, .unit) ∧ step s1 (.moveAssign i j) = some (s2, .unit) ∧
      step s2 (.moveAssign j s.guards.length) = some (s3, .unit) ∧
      step s3 (.destroy s.guards.length) =
        some (⟨s.locks, (s.guards.set i (some b)).set j (some a) ++ [none]⟩, .unit) ∧
      s1.locks = s.locks ∧ s2.locks = s.locks ∧ s3.locks = s.locks := by
  have hil := lt_of_getElem? hi
  have hjl := lt_of_getElem? hj
  obtain ⟨ka, pa, oa⟩ := a
  obtain ⟨kb, pb, ob⟩ := b
  simp only at hk
  subst hk
  by_cases e : i = j
  · subst e
    rw [hi] at hj
    simp only [Option.some.injEq, Guard.mk.injEq, true_and] at hj
    obtain ⟨rfl, rfl⟩ := hj
    refine ⟨⟨s.locks, s.guards.set i (some ⟨ka, pa, none⟩) ++ [some ⟨ka, pa, oa⟩]⟩,
      ⟨s.locks, s.guards.set i (some ⟨ka, pa, none⟩) ++ [some ⟨ka, pa, oa⟩]⟩,
      ⟨s.locks, s.guards.set i (some ⟨ka, pa, oa⟩) ++ [some ⟨ka, pa, none⟩]⟩, ?_, ?_, ?_, ?_, rfl, rfl, rfl⟩
    · simp [step, hi]
    · simp [step, St.unlock, List.getElem?_append, hil, List.getElem?_set, List.set_append]
    · simp [step, St.unlock, List.getElem?_append, hil, List.getElem?_set, List.set_append]
    · simp [step, St.unlock, List.getElem?_append, List.set_append, List.set_set]
  · have e' : ¬ j = i := fun h => e h.symm
    have hj0 : s.guards[j] = some ⟨ka, pb, ob⟩ := by
      rw [List.getElem?_eq_getElem hjl] at hj; simpa using hj
    refine ⟨⟨s.locks, s.guards.set i (some ⟨ka, pa, none⟩) ++ [some ⟨ka, pa, oa⟩]⟩,
      ⟨s.locks, (s.guards.set i (some ⟨ka, pb, ob⟩)).set j (some ⟨ka, pb, none⟩) ++ [some ⟨ka, pa, oa⟩]⟩,
      ⟨s.locks, (s.guards.set i (some ⟨ka, pb, ob⟩)).set j (some ⟨ka, pa, oa⟩) ++ [some ⟨ka, pa, none⟩]⟩,
      ?_, ?_, ?_, ?_, rfl, rfl, rfl⟩
    · simp [step, hi]
    · simp [step, St.unlock, List.getElem?_append, hil, hjl, List.getElem?_set, List.set_append, e, e', hj0]
      rw [List.set_comm _ _ e', List.set_set]
    · simp [step, St.unlock, List.getElem?_append, hil, hjl, List.getElem?_set, List.set_append, e, e']
    · simp [step, St.unlock, List.getElem?_append, List.set_append]

/-- **C10/C11 (`swap` of guards).** Two guards of the same type exchange what they keep locked and what they give access to;
no mutex is released or acquired, not even for a moment, no value changes, and a guard swapped with itself is unchanged. -/
theorem std_swap_spec {s : St α} {i j : Nat} {a b : Guard} (hi : s.guards[i]? = some (some a))
    (hj : s.guards[j]? = some (some b)) (hk : a.kind = b.kind) :
    (∃ s', run s (stdSwap i j s.guards.length) = some s' ∧ s'.guards[i]? = some (some b) ∧ s'.guards[j]? = some (some a) ∧
      ∀ k, k ≠ i → k ≠ j → k < s.guards.length → s'.guards[k]? = s.guards[k]?) ∧
    ∀ n s', run s ((stdSwap i j s.guards.length).take n) = some s' → s'.locks = s.locks := by
  have hil := lt_of_getElem? hi
  have hjl := lt_of_getElem? hj
  obtain ⟨s1, s2, s3, h1, h2, h3, h4, l1, l2, l3⟩ := swap_steps hi hj hk
  constructor
  · refine ⟨_, by simp [stdSwap, run, h1, h2, h3, h4]; rfl, ?_, ?_, ?_⟩
    · by_cases e : i = j
      · subst e
        rw [hi] at hj
        simp only [Option.some.injEq] at hj
        simp [List.getElem?_append, hil, hj]
      · have e' : ¬ j = i := fun h => e h.symm
        simp [List.getElem?_append, hil, List.getElem?_set, e', e]
    · simp [List.getElem?_append, hjl]
    · intro k hki hkj hk
      simp [List.getElem?_append, hk, List.getElem?_set, Ne.symm hki, Ne.symm hkj]
  · intro n s' h
    match n with
    | 0 => simp [run] at h; subst h; rfl
    | 1 => simp [stdSwap, run, h1] at h; subst h; exact l1
    | 2 => simp [stdSwap, run, h1, h2] at h; subst h; exact l2
    | 3 => simp [stdSwap, run, h1, h2, h3] at h; subst h; exact l3
    | n + 4 => simp [stdSwap, run, h1, h2, h3, h4] at h; subst h; rfl

/-- Guards of two mutexes with values 5 and 6: guard 0 keeps mutex 0 locked before and mutex 1 afterwards. -/
example : (run (init [5, 6]) ([.lock 0, .lock 1] ++ stdSwap 0 1 2)).map (fun s => (s.guards, s.locks)) =
    some ([some ⟨.excl, 1, some 1⟩, some ⟨.excl, 0, some 0⟩, none], [⟨true, 0, 5⟩, ⟨true, 0, 6⟩]) := rfl

end Verif.Guards
