import Verif.Limit.Handles

/-! Property C58 for `limit_allocator`, exactly: which allocators have lost their budget after any history. -/
namespace Verif.Limit

/-! ### Specification

Histories are written with the last operation first. -/

/-- How many allocators a history has constructed (limit_allocator.hpp:105-137). -/
def constructed : List HOp → Nat
  | [] => 0
  | .make _ :: os => constructed os + 1
  | .copy _ :: os => constructed os + 1
  | .move _ :: os => constructed os + 1
  | _ :: os => constructed os

/-- Allocator `i` (numbered in the order of construction) was moved from, or has its value from one that was
(limit_allocator.hpp:111-114, 163-169). -/
def lost : List HOp → Nat → Bool
  | [], _ => false
  | .make _ :: os, i => if i = constructed os then false else lost os i
  | .copy h :: os, i => if i = constructed os then lost os h else lost os i
  | .move h :: os, i => if i = constructed os then lost os h else i == h || lost os i
  | .copyAssign d h :: os, i => if i = d then lost os h else lost os i
  | .moveAssign d h :: os, i => if i = d then lost os h else i == h || lost os i
  | .swap a b :: os, i => if i = a then lost os b else if i = b then lost os a else lost os i
  | _ :: os, i => lost os i

/-! ### Proofs -/

/-- The state agrees with the history. -/
structure Tracks (os : List HOp) (s : HSt) : Prop where
  len : s.handles.length = constructed os
  null : ∀ i v, s.handles[i]? = some (some v) → (v = none ↔ lost os i = true)

theorem tracks_step {M : Nat} {os : List HOp} {s : HSt} {r : HSt × Option Out} {o : HOp} (ht : Tracks os s)
    (h : hstep M s o = some (.ok r)) : Tracks (o :: os) r.1 := by
  obtain ⟨hl, hn⟩ := ht
  cases o with
  | make l =>
    simp only [hstep] at h
    split at h
    · injection h with h; injection h with h; subst h
      refine ⟨by simp [constructed, hl], fun i v hv => ?_⟩
      simp only [lost, ← hl]
      rw [List.getElem?_append] at hv
      split at hv
      · rw [if_neg (by omega)]; exact hn i v hv
      · have := Channel.lt_of_getElem? hv
        simp at this
        have hi : i = s.handles.length := by omega
        subst hi; simp at hv; subst hv; simp
    · cases h
  | copy x =>
    simp only [hstep] at h
    split at h
    · rename_i p hp
      injection h with h; injection h with h; subst h
      refine ⟨by simp [constructed, hl], fun i v hv => ?_⟩
      simp only [lost, ← hl]
      rw [List.getElem?_append] at hv
      split at hv
      · rw [if_neg (by omega)]; exact hn i v hv
      · have := Channel.lt_of_getElem? hv
        simp at this
        have hi : i = s.handles.length := by omega
        subst hi; simp at hv; subst hv; simp [hn _ _ hp]
    · cases h
  | move x =>
    simp only [hstep] at h
    split at h
    · rename_i p hp
      injection h with h; injection h with h; subst h
      refine ⟨by simp [constructed, hl], fun i v hv => ?_⟩
      simp only [lost, ← hl]
      rw [List.getElem?_append] at hv
      simp only [List.length_set] at hv
      split at hv
      · rw [if_neg (by omega)]
        rw [List.getElem?_set] at hv
        split at hv
        · rename_i e; subst e
          split at hv
          · simp at hv; subst hv; simp
          · omega
        · rename_i e
          simp [hn i v hv, Ne.symm e]
      · have := Channel.lt_of_getElem? hv
        simp at this
        have hi : i = s.handles.length := by omega
        subst hi; simp at hv; subst hv; simp [hn _ _ hp]
    · cases h
  | copyAssign d x =>
    simp only [hstep] at h
    split at h
    · rename_i p _ hp
      injection h with h; injection h with h; subst h
      refine ⟨by simp [constructed, hl], fun i v hv => ?_⟩
      simp only [List.getElem?_set] at hv
      simp only [lost]
      split at hv
      · rename_i e; subst e
        split at hv
        · simp at hv; subst hv; simp [hn _ _ hp]
        · simp at hv
      · rename_i e
        rw [if_neg (Ne.symm e)]; exact hn i v hv
    · cases h
  | moveAssign d x =>
    simp only [hstep] at h
    split at h
    · rename_i p _ hp
      injection h with h; injection h with h; subst h
      refine ⟨by simp [constructed, hl], fun i v hv => ?_⟩
      simp only [List.getElem?_set, List.length_set] at hv
      simp only [lost]
      split at hv
      · rename_i e; subst e
        split at hv
        · simp at hv; subst hv; simp [hn _ _ hp]
        · simp at hv
      · rename_i e
        rw [if_neg (Ne.symm e)]
        split at hv
        · rename_i e'; subst e'
          split at hv
          · simp at hv; subst hv; simp
          · simp at hv
        · rename_i e'
          simp [hn i v hv, Ne.symm e']
    · cases h
  | swap a b =>
    simp only [hstep] at h
    split at h
    · rename_i p q hp hq
      injection h with h; injection h with h; subst h
      refine ⟨by simp [constructed, hl], fun i v hv => ?_⟩
      simp only [List.getElem?_set, List.length_set] at hv
      simp only [lost]
      split at hv
      · rename_i e; subst e
        split at hv
        · simp at hv; subst hv
          split
          · rename_i e; subst e; simp [hn _ _ hp]
          · simp [hn _ _ hp]
        · simp at hv
      · rename_i e
        split at hv
        · rename_i e'; subst e'
          split at hv
          · simp at hv; subst hv; simp [hn _ _ hq]
          · simp at hv
        · rename_i e'
          rw [if_neg (Ne.symm e'), if_neg (Ne.symm e)]; exact hn i v hv
    · cases h
  | destroy x =>
    simp only [hstep] at h
    split at h
    · injection h with h; injection h with h; subst h
      refine ⟨by simp [constructed, hl], fun i v hv => ?_⟩
      simp only [List.getElem?_set] at hv
      simp only [lost]
      split at hv
      · split at hv <;> simp at hv
      · exact hn i v hv
    · cases h
  | alloc x b up =>
    simp only [hstep] at h
    split at h
    · cases h
    · split at h
      · split at h
        · split at h
          · injection h with h; injection h with h; subst h
            exact ⟨hl, hn⟩
          · cases h
        · injection h with h; injection h with h; subst h
          exact ⟨hl, hn⟩
      · cases h
    · cases h
  | dealloc x k =>
    simp only [hstep] at h
    split at h
    · split at h
      · split at h
        · injection h with h; injection h with h; subst h
          exact ⟨hl, hn⟩
        · cases h
      · cases h
    · cases h

theorem tracks_run {M : Nat} : ∀ {os pre : List HOp} {s s' : HSt}, Tracks pre s →
    hrun M s os = some (.ok s') → Tracks (os.reverse ++ pre) s'
  | [], pre, s, s', ht, h => by simp [hrun] at h; subst h; simpa using ht
  | o :: os, pre, s, s', ht, h => by
    simp only [hrun] at h
    split at h
    · rename_i r h1
      simpa using tracks_run (tracks_step ht h1) h
    · cases h
    · cases h

/-! ### The property -/

/-- **C58, exactly.** After every history, an allocator that exists has no budget if and only if it was moved from and not given
another value since, or has its value from such an allocator; and allocating through it (whether or not there is memory)
dereferences null in exactly this case. -/
theorem limit_lost_iff_partial {M : Nat} {os : List HOp} {s : HSt} (h : hrun M hinit os = some (.ok s)) {i : Nat}
    {v : Option Nat} (hv : s.handles[i]? = some (some v)) :
    (v = none ↔ lost os.reverse i = true) ∧
    (∀ b up, hstep M s (.alloc i b up) = some (.error .nullBlock) ↔ lost os.reverse i = true) := by
  have ht : Tracks (os.reverse ++ []) s := tracks_run ⟨rfl, by simp [hinit]⟩ h
  have key := ht.null i v hv
  rw [List.append_nil] at key
  refine ⟨key, fun b up => ?_⟩
  rw [← key]
  cases v with
  | none => simp [hstep, hv]
  | some p =>
    simp only [hstep, hv, reduceCtorEq, iff_false]
    split
    · split
      · split <;> simp
      · simp
    · simp

-- 0 is moved to 1, copied (without a budget) to 2, and 0 gets the budget back by copy assignment
example : (hrun (2 ^ 64) hinit [.make 100, .move 0, .copy 0, .copyAssign 0 1]) =
      some (.ok ⟨[100], [some (some 0), some (some 0), some none], []⟩) ∧
    (List.range 3).map (lost [.copyAssign 0 1, .copy 0, .move 0, .make 100]) = [false, false, true] := ⟨rfl, by decide⟩

end Verif.Limit
