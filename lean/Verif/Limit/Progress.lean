import Verif.Limit.WeakModel
import Verif.Limit.Props

/-!
C82: the compare-exchange loop of `limit_allocator.hpp` is lock-free.
-/
namespace Verif.Limit

open Verif.Channel (lt_of_getElem?)

/-! ### Specification -/

/-- Number of calls of member functions (for limit_allocator.hpp:26-43). -/
def calls (as : List Act) : Nat := as.countP fun a => match a with
  | .alloc _ _ _ => true
  | .dealloc _ _ => true
  | _ => false

/-- Does the action load the present value of the counter, if any, and not fail spuriously? (for limit_allocator.hpp:26-43) -/
def upToDate (s : St) : Act → Bool
  | .alloc _ _ v => v == s.left
  | .cas i sp v => !sp && (match s.pcs[i]? with
    | some (.cas _ old) => old == s.left || v == s.left
    | _ => true)
  | _ => true

/-- Number of loads that give an old value, and of spurious failures (for limit_allocator.hpp:26-43). -/
def late (M : Nat) : St → List Act → Nat
  | _, [] => 0
  | s, a :: as => (if upToDate s a then 0 else 1) + (match step M s a with
    | some r => late M r.1 as
    | none => 0)

/-! ### Proof -/

/-- What a thread may still cost: its steps, 2 for a failing compare-exchange, and for each change of the counter 2 steps of every thread (for limit_allocator.hpp:26-43). -/
def weight (k left : Nat) : PC → Nat
  | .idle => 0
  | .loaded _ old => 4 + 4 * k + (if old = left then 0 else 2)
  | .cas _ old => 3 + 4 * k + (if old = left then 0 else 2)
  | .charged _ => 2 + 2 * k
  | .refund _ => 1 + 2 * k
  | .freeing _ => 2 + 2 * k
  | .giveBack _ => 1 + 2 * k

/-- What all threads may still cost (for limit_allocator.hpp:26-43). -/
def work (s : St) : Nat := (s.pcs.map (weight s.pcs.length s.left)).sum

theorem weight_le (k l l' : Nat) (pc : PC) : weight k l' pc ≤ weight k l pc + 2 := by
  cases pc <;> simp only [weight] <;> (repeat' split) <;> omega

theorem sum_weight_le (k l l' : Nat) : ∀ pcs : List PC, (pcs.map (weight k l')).sum ≤ (pcs.map (weight k l)).sum + 2 * pcs.length
  | [] => by simp
  | pc :: pcs => by
    have := sum_weight_le k l l' pcs
    have := weight_le k l l' pc
    simp only [List.map_cons, List.sum_cons, List.length_cons]; omega

/-- Every step is paid for. -/
theorem work_step {M : Nat} {s : St} {a : Act} {r : St × List Ev} (h : step M s a = some r) :
    r.1.pcs.length = s.pcs.length ∧
    work r.1 + 1 ≤ work s + (5 + 4 * s.pcs.length) * calls [a] + 4 * (if upToDate s a then 0 else 1) := by
  have hset : ∀ {i : Nat} {x : PC}, s.pcs[i]? = some x → ∀ y,
      ((s.pcs.set i y).map (weight s.pcs.length s.left)).sum + weight s.pcs.length s.left x = work s + weight s.pcs.length s.left y :=
    fun hx y => sum_map_set _ hx y
  have hmod : ∀ {i : Nat} {x : PC} (l' : Nat), s.pcs[i]? = some x → ∀ y, weight s.pcs.length l' y = weight s.pcs.length s.left y →
      ((s.pcs.set i y).map (weight s.pcs.length l')).sum + weight s.pcs.length s.left x ≤ work s + weight s.pcs.length s.left y + 2 * s.pcs.length := by
    intro i x l' hx y hy
    have h1 := sum_map_set (weight s.pcs.length l') hx y
    have h2 := sum_map_set (weight s.pcs.length s.left) hx y
    have h3 := sum_weight_le s.pcs.length s.left l' (s.pcs.set i y)
    simp only [List.length_set] at h3
    simp only [work]
    omega
  cases a with
  | alloc i b v =>
    simp only [step] at h
    split at h
    · rename_i hp
      split at h
      · injection h with h; subst h
        refine ⟨List.length_set, ?_⟩
        have := hset hp (.loaded b v)
        simp only [weight] at this
        simp only [work, List.length_set, calls, List.countP_cons, List.countP_nil, upToDate, beq_iff_eq] at this ⊢
        by_cases hv : v = s.left
        · simp only [hv, if_true] at this ⊢; simp [-List.map_set]; omega
        · simp only [hv, if_false] at this ⊢; simp [-List.map_set]; omega
      · cases h
    · cases h
  | test i =>
    simp only [step] at h
    split at h
    · rename_i b old hp
      split at h
      · injection h with h; subst h
        refine ⟨List.length_set, ?_⟩
        have := hset hp .idle
        simp only [weight] at this
        simp only [work, List.length_set, calls, List.countP_cons, List.countP_nil, upToDate] at this ⊢
        simp [-List.map_set]; omega
      · injection h with h; subst h
        refine ⟨List.length_set, ?_⟩
        have := hset hp (.cas b old)
        simp only [weight] at this
        simp only [work, List.length_set, calls, List.countP_cons, List.countP_nil, upToDate] at this ⊢
        simp [-List.map_set]; omega
    · cases h
  | cas i sp v =>
    simp only [step] at h
    split at h
    · rename_i b old hp
      split at h
      · rename_i hc
        injection h with h; subst h
        refine ⟨List.length_set, ?_⟩
        have := hmod ((old + M - b.cost M) % M) hp (.charged b) rfl
        simp only [weight] at this
        simp only [work, List.length_set, calls, List.countP_cons, List.countP_nil] at this ⊢
        rw [if_pos hc.1.symm] at this
        simp [-List.map_set]; omega
      · rename_i hc
        split at h
        · injection h with h; subst h
          refine ⟨List.length_set, ?_⟩
          have := hset hp (.loaded b v)
          simp only [weight] at this
          simp only [work, List.length_set, calls, List.countP_cons, List.countP_nil, upToDate, hp] at this ⊢
          cases sp with
          | true => simp [-List.map_set]; split at this <;> split at this <;> omega
          | false =>
            have hne : ¬ old = s.left := fun he => hc ⟨he.symm, rfl⟩
            by_cases hv : v = s.left
            · simp [-List.map_set, hv, hne] at this ⊢; omega
            · simp [-List.map_set, hv, hne] at this ⊢; omega
        · cases h
    · cases h
  | upAlloc i ok =>
    simp only [step] at h
    split at h
    · rename_i b hp
      split at h
      · split at h
        · injection h with h; subst h
          refine ⟨List.length_set, ?_⟩
          have := hset hp .idle
          simp only [weight] at this
          simp only [work, List.length_set, calls, List.countP_cons, List.countP_nil, upToDate] at this ⊢
          simp [-List.map_set]; omega
        · cases h
      · injection h with h; subst h
        refine ⟨List.length_set, ?_⟩
        have := hset hp (.refund b)
        simp only [weight] at this
        simp only [work, List.length_set, calls, List.countP_cons, List.countP_nil, upToDate] at this ⊢
        simp [-List.map_set]; omega
    · cases h
  | refund i =>
    simp only [step] at h
    split at h
    · rename_i b hp
      injection h with h; subst h
      refine ⟨List.length_set, ?_⟩
      have := hmod ((s.left + b.cost M) % M) hp .idle rfl
      simp only [weight] at this
      simp only [work, List.length_set, calls, List.countP_cons, List.countP_nil, upToDate] at this ⊢
      simp [-List.map_set]; omega
    · cases h
  | dealloc i k =>
    simp only [step] at h
    split at h
    · rename_i b hp hk
      injection h with h; subst h
      refine ⟨List.length_set, ?_⟩
      have := hset hp (.freeing b)
      simp only [weight] at this
      simp only [work, List.length_set, calls, List.countP_cons, List.countP_nil, upToDate] at this ⊢
      simp [-List.map_set]; omega
    · cases h
  | upFree i =>
    simp only [step] at h
    split at h
    · rename_i b hp
      injection h with h; subst h
      refine ⟨List.length_set, ?_⟩
      have := hset hp (.giveBack b)
      simp only [weight] at this
      simp only [work, List.length_set, calls, List.countP_cons, List.countP_nil, upToDate] at this ⊢
      simp [-List.map_set]; omega
    · cases h
  | giveBack i =>
    simp only [step] at h
    split at h
    · rename_i b hp
      injection h with h; subst h
      refine ⟨List.length_set, ?_⟩
      have := hmod ((s.left + b.cost M) % M) hp .idle rfl
      simp only [weight] at this
      simp only [work, List.length_set, calls, List.countP_cons, List.countP_nil, upToDate] at this ⊢
      simp [-List.map_set]; omega
    · cases h

theorem work_run {M : Nat} : ∀ {as : List Act} {s : St} {r : St × List Ev}, run M s as = some r →
    as.length + work r.1 ≤ work s + (5 + 4 * s.pcs.length) * calls as + 4 * late M s as
  | [], s, r, h => by simp [run] at h; subst h; simp [calls, late]
  | a :: as, s, r, h => by
    simp only [run, Option.bind_eq_some_iff] at h
    obtain ⟨r1, h1, r2, h2, h3⟩ := h
    injection h3 with h3; subst h3
    obtain ⟨hl, hw⟩ := work_step h1
    have ih := work_run (s := r1.1) h2
    rw [hl] at ih
    have hc : calls (a :: as) = calls [a] + calls as := by
      have : a :: as = [a] ++ as := rfl
      rw [this]; simp only [calls, List.countP_append]
    have hl : late M s (a :: as) = (if upToDate s a then 0 else 1) + late M r1.1 as := by simp only [late, h1]
    rw [hc, hl, Nat.mul_add]
    simp only [List.length_cons]
    omega

/-! ### Property -/

/-- **C82 (lock-free).** Threads do not keep each other from finishing: in every execution with `k` threads the number of steps is at most `5 + 4 k` for each call, plus 4 for
each spurious failure of the compare-exchange and each load that gives an old value. In particular, while only finitely many calls are made and loads are up to date,
only finitely many steps are made. -/
theorem limit_lock_free {M limit k : Nat} {as : List Act} {r : St × List Ev} (h : run M (init limit k) as = some r) :
    as.length ≤ (5 + 4 * k) * calls as + 4 * late M (init limit k) as := by
  have := work_run h
  have h0 : work (init limit k) = 0 := by
    have : ∀ n m, ((List.replicate n PC.idle).map (weight m limit)).sum = 0 := by
      intro n m; induction n with
      | zero => rfl
      | succ n ih => simp only [List.replicate_succ, List.map_cons, List.sum_cons, ih]; rfl
    exact this k _
  have hk : (init limit k).pcs.length = k := by simp [init]
  rw [h0, hk] at this
  omega

/-- Two threads; the compare-exchange of the second fails because of the first. -/
example : let as := [.alloc 0 ⟨10, 4⟩ 100, .alloc 1 ⟨6, 8⟩ 100, .test 0, .test 1, .cas 0 false 0, .cas 1 false 60, .test 1,
    .cas 1 false 0, .upAlloc 1 true, .upAlloc 0 true, .dealloc 0 1, .upFree 0, .giveBack 0]
    (run (2 ^ 64) (init 100 2) as).isSome ∧ as.length = 13 ∧ calls as = 3 ∧ late (2 ^ 64) (init 100 2) as = 0 := by
  decide

/-- **C82, refuted without them.** One call alone may take any number of steps if the compare-exchange keeps failing spuriously. -/
theorem limit_wait_free_refuted (n : Nat) : ∃ as r, run (2 ^ 64) (init 100 1) as = some r ∧ calls as = 1 ∧ n ≤ as.length := by
  have key : ∀ n s, s.pcs = [.cas ⟨10, 4⟩ 100] → 100 ∈ s.hist →
      ∃ as r, run (2 ^ 64) s as = some r ∧ calls as = 0 ∧ as.length = 2 * n := by
    intro n
    induction n with
    | zero => intro s _ _; exact ⟨[], _, rfl, rfl, rfl⟩
    | succ n ih =>
      intro s hp hh
      obtain ⟨as, r, h1, h2, h3⟩ := ih s hp hh
      refine ⟨.cas 0 true 100 :: .test 0 :: as, ?_⟩
      have e1 : step (2 ^ 64) s (.cas 0 true 100) = some ({ s with pcs := [.loaded ⟨10, 4⟩ 100] }, []) := by
        simp [step, hp, hh]
      have e2 : step (2 ^ 64) { s with pcs := [.loaded ⟨10, 4⟩ 100] } (.test 0) = some (s, []) := by
        simp [step, Block.cost]
        cases s; simp at hp; subst hp; rfl
      refine ⟨r, ?_, ?_, ?_⟩
      · simp only [run, e1, e2, Option.bind_some, h1, List.nil_append]
      · simpa [calls] using h2
      · simp [h3]; omega
  let s1 : St := ⟨100, [100], [.cas ⟨10, 4⟩ 100], []⟩
  obtain ⟨as, r, h1, h2, h3⟩ := key n s1 rfl (by simp [s1])
  refine ⟨.alloc 0 ⟨10, 4⟩ 100 :: .test 0 :: as, r, ?_, ?_, ?_⟩
  · have e1 : step (2 ^ 64) (init 100 1) (.alloc 0 ⟨10, 4⟩ 100) = some (⟨100, [100], [.loaded ⟨10, 4⟩ 100], []⟩, []) := rfl
    have e2 : step (2 ^ 64) ⟨100, [100], [.loaded ⟨10, 4⟩ 100], []⟩ (.test 0) = some (s1, []) := rfl
    simp only [run, e1, e2, Option.bind_some, h1, List.nil_append]
  · simpa [calls] using h2
  · simp [h3]; omega

end Verif.Limit
