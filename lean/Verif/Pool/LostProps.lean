import Verif.Pool.Props

/-! Property C58 for `pool_allocator`, exactly: which allocators have lost their pool after any history. -/
namespace Verif.Pool

/-! ### Specification

Histories are written with the last operation first. -/

/-- How many allocators a history has constructed (pool_allocator.hpp:155-172). -/
def constructed : List Op → Nat
  | [] => 0
  | .make :: os => constructed os + 1
  | .copy _ :: os => constructed os + 1
  | .move _ :: os => constructed os + 1
  | _ :: os => constructed os

/-- Allocator `i` (numbered in the order of construction) was moved from, or has its value from one that was
(pool_allocator.hpp:163-166, 190-193). -/
def lost : List Op → Nat → Bool
  | [], _ => false
  | .make :: os, i => if i = constructed os then false else lost os i
  | .copy h :: os, i => if i = constructed os then lost os h else lost os i
  | .move h :: os, i => if i = constructed os then lost os h else i == h || lost os i
  | .copyAssign d h :: os, i => if i = d then lost os h else lost os i
  | .moveAssign d h :: os, i => if i = d then lost os h else i == h || lost os i
  | .swap a b :: os, i => if i = a then lost os b else if i = b then lost os a else lost os i
  | _ :: os, i => lost os i

/-! ### Proofs -/

/-- The state agrees with the history. -/
structure Tracks (os : List Op) (s : St) : Prop where
  len : s.handles.length = constructed os
  null : ∀ i v, s.handles[i]? = some (some v) → (v = none ↔ lost os i = true)

theorem tracks_step {M : Nat} {bs : List Nat} {os : List Op} {s s' : St} {o : Op} (ht : Tracks os s)
    (h : step M bs s o = some (.ok s')) : Tracks (o :: os) s' := by
  obtain ⟨hl, hn⟩ := ht
  cases o with
  | make =>
    simp only [step] at h; injection h with h; injection h with h; subst h
    refine ⟨by simp [constructed, hl], fun i v hv => ?_⟩
    simp only [lost, ← hl]
    rw [List.getElem?_append] at hv
    split at hv
    · rw [if_neg (by omega)]; exact hn i v hv
    · have := Channel.lt_of_getElem? hv
      simp at this
      have hi : i = s.handles.length := by omega
      subst hi; simp at hv; subst hv; simp
  | copy x =>
    simp only [step] at h
    split at h
    · rename_i p hp
      injection h with h; injection h with h; subst h
      refine ⟨by simp [constructed, hl], fun i v hv => ?_⟩
      simp only [lost, ← hl]
      rw [List.getElem?_append] at hv
      split at hv
      · rw [if_neg (by omega)]; exact hn i v hv
      · have := Channel.lt_of_getElem? hv
        simp at this
        have hi : i = s.handles.length := by omega
        subst hi; simp at hv; subst hv; simp [hn _ _ hp]
    · cases h
  | move x =>
    simp only [step] at h
    split at h
    · rename_i p hp
      injection h with h; injection h with h; subst h
      refine ⟨by simp [constructed, hl], fun i v hv => ?_⟩
      simp only [lost, ← hl]
      rw [List.getElem?_append] at hv
      simp only [List.length_set] at hv
      split at hv
      · rw [if_neg (by omega)]
        rw [List.getElem?_set] at hv
        split at hv
        · rename_i e; subst e
          split at hv
          · simp at hv; subst hv; simp
          · omega
        · rename_i e
          simp [hn i v hv, Ne.symm e]
      · have := Channel.lt_of_getElem? hv
        simp at this
        have hi : i = s.handles.length := by omega
        subst hi; simp at hv; subst hv; simp [hn _ _ hp]
    · cases h
  | copyAssign d x =>
    simp only [step] at h
    split at h
    · rename_i p _ hp
      injection h with h; injection h with h; subst h
      refine ⟨by simp [constructed, hl, St.collect], fun i v hv => ?_⟩
      simp only [St.collect, List.getElem?_set] at hv
      simp only [lost]
      split at hv
      · rename_i e; subst e
        split at hv
        · simp at hv; subst hv; simp [hn _ _ hp]
        · simp at hv
      · rename_i e
        rw [if_neg (Ne.symm e)]; exact hn i v hv
    · cases h
  | moveAssign d x =>
    simp only [step] at h
    split at h
    · rename_i p _ hp
      injection h with h; injection h with h; subst h
      refine ⟨by simp [constructed, hl, St.collect], fun i v hv => ?_⟩
      simp only [St.collect, List.getElem?_set, List.length_set] at hv
      simp only [lost]
      split at hv
      · rename_i e; subst e
        split at hv
        · simp at hv; subst hv; simp [hn _ _ hp]
        · simp at hv
      · rename_i e
        rw [if_neg (Ne.symm e)]
        split at hv
        · rename_i e'; subst e'
          split at hv
          · simp at hv; subst hv; simp
          · simp at hv
        · rename_i e'
          simp [hn i v hv, Ne.symm e']
    · cases h
  | swap a b =>
    simp only [step] at h
    split at h
    · rename_i p q hp hq
      injection h with h; injection h with h; subst h
      refine ⟨by simp [constructed, hl], fun i v hv => ?_⟩
      simp only [List.getElem?_set, List.length_set] at hv
      simp only [lost]
      split at hv
      · rename_i e; subst e
        split at hv
        · simp at hv; subst hv
          split
          · rename_i e; subst e; simp [hn _ _ hp]
          · simp [hn _ _ hp]
        · simp at hv
      · rename_i e
        split at hv
        · rename_i e'; subst e'
          split at hv
          · simp at hv; subst hv; simp [hn _ _ hq]
          · simp at hv
        · rename_i e'
          rw [if_neg (Ne.symm e'), if_neg (Ne.symm e)]; exact hn i v hv
    · cases h
  | destroy x =>
    simp only [step] at h
    split at h
    · injection h with h; injection h with h; subst h
      refine ⟨by simp [constructed, hl, St.collect], fun i v hv => ?_⟩
      simp only [St.collect, List.getElem?_set] at hv
      simp only [lost]
      split at hv
      · split at hv <;> simp at hv
      · exact hn i v hv
    · cases h
  | alloc x cnt sz addr cap =>
    simp only [step] at h
    split at h
    · cases h
    · split at h
      · injection h with h; injection h with h; subst h
        exact ⟨hl, hn⟩
      · cases h
    · cases h
  | allocFails x cnt sz =>
    simp only [step] at h
    split at h
    · cases h
    · injection h with h; injection h with h; subst h
      exact ⟨hl, hn⟩
    · cases h
  | dealloc x k =>
    simp only [step] at h
    split at h
    · split at h
      · split at h
        · injection h with h; injection h with h; subst h
          exact ⟨hl, hn⟩
        · cases h
      · cases h
    · cases h

theorem tracks_run {M : Nat} {bs : List Nat} : ∀ {os pre : List Op} {s s' : St}, Tracks pre s →
    run M bs s os = some (.ok s') → Tracks (os.reverse ++ pre) s'
  | [], pre, s, s', ht, h => by simp [run] at h; subst h; simpa using ht
  | o :: os, pre, s, s', ht, h => by
    simp only [run] at h
    split at h
    · rename_i s1 h1
      simpa using tracks_run (tracks_step ht h1) h
    · rename_i r hr
      exact absurd h (hr s')

/-! ### The property -/

/-- **C58, exactly.** After every history, an allocator that exists has no pool if and only if it was moved from and not given
another value since, or has its value from such an allocator; and allocating through it (whether or not there is memory)
dereferences null in exactly this case. -/
theorem pool_lost_iff_partial {M : Nat} {bs : List Nat} {os : List Op} {s : St} (h : run M bs init os = some (.ok s)) {i : Nat}
    {v : Option Nat} (hv : s.handles[i]? = some (some v)) :
    (v = none ↔ lost os.reverse i = true) ∧
    (∀ cnt sz addr cap, step M bs s (.alloc i cnt sz addr cap) = some (.error .nullPool) ↔ lost os.reverse i = true) ∧
    (∀ cnt sz, step M bs s (.allocFails i cnt sz) = some (.error .nullPool) ↔ lost os.reverse i = true) := by
  have ht : Tracks (os.reverse ++ []) s := tracks_run ⟨rfl, by simp [init]⟩ h
  have key := ht.null i v hv
  rw [List.append_nil] at key
  refine ⟨key, fun cnt sz addr cap => ?_, fun cnt sz => ?_⟩
  · rw [← key]
    cases v with
    | none => simp [step, hv]
    | some p =>
      simp only [step, hv, reduceCtorEq, iff_false]
      split <;> simp
  · rw [← key]
    cases v with
    | none => simp [step, hv]
    | some p => simp [step, hv]

-- 0 is moved to 1, copied (without a pool) to 2, and 0 gets the pool back by copy assignment
example : ∃ s, run (2 ^ 64) [8, 16] init [.make, .move 0, .copy 0, .copyAssign 0 1] = some (.ok s) ∧
    s.handles = [some (some 0), some (some 0), some none] ∧
    (List.range 3).map (lost [.copyAssign 0 1, .copy 0, .move 0, .make]) = [false, false, true] := ⟨_, rfl, rfl, by decide⟩

end Verif.Pool
