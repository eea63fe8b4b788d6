import Verif.Limit.Model
import Verif.Channel.Wake

namespace Verif.Limit

open Verif.Channel (lt_of_getElem? getElem?_set')

/-- The bytes charged by a running call (as `size_t` arithmetic computes them). -/
def PC.charge (M : Nat) : PC → Nat
  | .charged b => b.cost M
  | .refund b => b.cost M
  | .freeing b => b.cost M
  | .giveBack b => b.cost M
  | _ => 0

theorem sum_map_set {β : Type} (f : β → Nat) : ∀ {l : List β} {i : Nat} {x : β}, l[i]? = some x → ∀ y,
    ((l.set i y).map f).sum + f x = (l.map f).sum + f y
  | [], i, x, h, y => by simp at h
  | a :: l, 0, x, h, y => by simp at h; subst h; simp; omega
  | a :: l, i + 1, x, h, y => by
    simp at h
    have := sum_map_set f h y
    simp only [List.set_cons_succ, List.map_cons, List.sum_cons]; omega

theorem sum_map_eraseIdx {β : Type} (f : β → Nat) : ∀ {l : List β} {i : Nat} {x : β}, l[i]? = some x →
    ((l.eraseIdx i).map f).sum + f x = (l.map f).sum
  | [], i, x, h => by simp at h
  | a :: l, 0, x, h => by simp at h; subst h; simp; omega
  | a :: l, i + 1, x, h => by
    simp at h
    have := sum_map_eraseIdx f h
    simp; omega

theorem cost_lt {M : Nat} (hM : 0 < M) (b : Block) : b.cost M < M := Nat.mod_lt _ hM

theorem cost_eq {M : Nat} {b : Block} (h : b.bytes < M) : b.cost M = b.bytes := Nat.mod_eq_of_lt h

/-- All bytes charged at present. -/
def total (M : Nat) (s : St) : Nat := (s.live.map (Block.cost M)).sum + (s.pcs.map (PC.charge M)).sum

structure Inv (M limit : Nat) (s : St) : Prop where
  bal : s.left + total M s = limit
  hist : ∀ v ∈ s.hist, v ≤ limit
  cur : s.left ∈ s.hist
  real : ∀ b ∈ s.live, b.bytes < M
  pcs : ∀ pc ∈ s.pcs, match pc with
    | .loaded _ v => v ≤ limit
    | .cas b v => v ≤ limit ∧ b.cost M ≤ v
    | .freeing b => b.bytes < M
    | .giveBack b => b.bytes < M
    | _ => True

theorem mem_set_cases {β : Type} {l : List β} {i : Nat} {x y : β} (h : y ∈ l.set i x) : y = x ∨ y ∈ l :=
  (List.mem_or_eq_of_mem_set h).symm

theorem inv_init {M limit k : Nat} : Inv M limit (init limit k) := by
  constructor
  · simp [init, total, PC.charge]
  · simp [init]
  · simp [init]
  · simp [init]
  · intro pc h; simp [init] at h; simp [h.2]

theorem inv_step {M limit : Nat} (hM : limit < M) {s : St} {a : Act} {r} (hi : Inv M limit s)
    (h : step M s a = some r) : Inv M limit r.1 := by
  have hb := hi.bal
  cases a with
  | alloc i b v =>
    simp only [step] at h
    split at h
    · rename_i hp
      split at h
      · rename_i hv
        injection h with h; subst h
        have e := sum_map_set (PC.charge M) hp (.loaded b v)
        simp only [PC.charge] at e
        refine ⟨?_, hi.hist, hi.cur, hi.real, ?_⟩
        · simp only [total] at hb ⊢; omega
        · intro pc hm
          rcases mem_set_cases hm with rfl | hm
          · exact hi.hist v hv
          · exact hi.pcs pc hm
      · cases h
    · cases h
  | test i =>
    simp only [step] at h
    split at h
    · rename_i b old hp
      have hpc := hi.pcs _ (List.mem_of_getElem? hp)
      split at h
      · injection h with h; subst h
        have e := sum_map_set (PC.charge M) hp .idle
        simp only [PC.charge] at e
        refine ⟨?_, hi.hist, hi.cur, hi.real, ?_⟩
        · simp only [total] at hb ⊢; omega
        · intro pc hm
          rcases mem_set_cases hm with rfl | hm
          · trivial
          · exact hi.pcs pc hm
      · injection h with h; subst h
        have e := sum_map_set (PC.charge M) hp (.cas b old)
        simp only [PC.charge] at e
        refine ⟨?_, hi.hist, hi.cur, hi.real, ?_⟩
        · simp only [total] at hb ⊢; omega
        · intro pc hm
          rcases mem_set_cases hm with rfl | hm
          · exact ⟨hpc, by omega⟩
          · exact hi.pcs pc hm
    · cases h
  | cas i sp v =>
    simp only [step] at h
    split at h
    · rename_i b old hp
      have hpc := hi.pcs _ (List.mem_of_getElem? hp)
      dsimp only at hpc
      split at h
      · rename_i hc
        injection h with h; subst h
        have e := sum_map_set (PC.charge M) hp (.charged b)
        simp only [PC.charge] at e
        have hleft : (old + M - b.cost M) % M = old - b.cost M := by
          have : old + M - b.cost M = (old - b.cost M) + M := by omega
          rw [this, Nat.add_mod_right, Nat.mod_eq_of_lt (by omega)]
        refine ⟨?_, ?_, ?_, hi.real, ?_⟩
        · simp only [total] at hb ⊢; rw [hleft]; omega
        · intro v hv
          simp at hv
          rcases hv with hv | hv
          · exact hi.hist v hv
          · rw [hv, hleft]; omega
        · simp
        · intro pc hm
          rcases mem_set_cases hm with rfl | hm
          · trivial
          · exact hi.pcs pc hm
      · split at h
        · rename_i hv
          injection h with h; subst h
          have e := sum_map_set (PC.charge M) hp (.loaded b v)
          simp only [PC.charge] at e
          refine ⟨?_, hi.hist, hi.cur, hi.real, ?_⟩
          · simp only [total] at hb ⊢; omega
          · intro pc hm
            rcases mem_set_cases hm with rfl | hm
            · exact hi.hist v hv
            · exact hi.pcs pc hm
        · cases h
    · cases h
  | upAlloc i ok =>
    simp only [step] at h
    split at h
    · rename_i b hp
      split at h
      · split at h
        · rename_i hlt
          injection h with h; subst h
          have e := sum_map_set (PC.charge M) hp .idle
          simp only [PC.charge] at e
          refine ⟨?_, hi.hist, hi.cur, ?_, ?_⟩
          · simp only [total] at hb ⊢
            simp only [List.map_append, List.sum_append, List.map_cons, List.map_nil, List.sum_cons, List.sum_nil]
            omega
          · intro x hx; simp at hx; rcases hx with hx | rfl
            · exact hi.real x hx
            · exact hlt
          · intro pc hm
            rcases mem_set_cases hm with rfl | hm
            · trivial
            · exact hi.pcs pc hm
        · cases h
      · injection h with h; subst h
        have e := sum_map_set (PC.charge M) hp (.refund b)
        simp only [PC.charge] at e
        refine ⟨?_, hi.hist, hi.cur, hi.real, ?_⟩
        · simp only [total] at hb ⊢; omega
        · intro pc hm
          rcases mem_set_cases hm with rfl | hm
          · trivial
          · exact hi.pcs pc hm
    · cases h
  | refund i =>
    simp only [step] at h
    split at h
    · rename_i b hp
      injection h with h; subst h
      have e := sum_map_set (PC.charge M) hp .idle
      simp only [PC.charge] at e
      have hle : s.left + b.cost M ≤ limit := by simp only [total] at hb; omega
      have hmod : (s.left + b.cost M) % M = s.left + b.cost M := Nat.mod_eq_of_lt (by omega)
      refine ⟨?_, ?_, ?_, hi.real, ?_⟩
      · simp only [total] at hb ⊢; rw [hmod]; omega
      · intro v hv
        simp at hv
        rcases hv with hv | hv
        · exact hi.hist v hv
        · rw [hv, hmod]; exact hle
      · simp
      · intro pc hm
        rcases mem_set_cases hm with rfl | hm
        · trivial
        · exact hi.pcs pc hm
    · cases h
  | dealloc i k =>
    simp only [step] at h
    split at h
    · rename_i b hp hk
      injection h with h; subst h
      have e := sum_map_set (PC.charge M) hp (.freeing b)
      simp only [PC.charge] at e
      have e2 := sum_map_eraseIdx (Block.cost M) hk
      refine ⟨?_, hi.hist, hi.cur, ?_, ?_⟩
      · simp only [total] at hb ⊢; omega
      · intro x hx; exact hi.real x (List.mem_of_mem_eraseIdx hx)
      · intro pc hm
        rcases mem_set_cases hm with rfl | hm
        · exact hi.real b (List.mem_of_getElem? hk)
        · exact hi.pcs pc hm
    · cases h
  | upFree i =>
    simp only [step] at h
    split at h
    · rename_i b hp
      have hpc := hi.pcs _ (List.mem_of_getElem? hp)
      injection h with h; subst h
      have e := sum_map_set (PC.charge M) hp (.giveBack b)
      simp only [PC.charge] at e
      refine ⟨?_, hi.hist, hi.cur, hi.real, ?_⟩
      · simp only [total] at hb ⊢; omega
      · intro pc hm
        rcases mem_set_cases hm with rfl | hm
        · exact hpc
        · exact hi.pcs pc hm
    · cases h
  | giveBack i =>
    simp only [step] at h
    split at h
    · rename_i b hp
      injection h with h; subst h
      have e := sum_map_set (PC.charge M) hp .idle
      simp only [PC.charge] at e
      have hle : s.left + b.cost M ≤ limit := by simp only [total] at hb; omega
      have hmod : (s.left + b.cost M) % M = s.left + b.cost M := Nat.mod_eq_of_lt (by omega)
      refine ⟨?_, ?_, ?_, hi.real, ?_⟩
      · simp only [total] at hb ⊢; rw [hmod]; omega
      · intro v hv
        simp at hv
        rcases hv with hv | hv
        · exact hi.hist v hv
        · rw [hv, hmod]; exact hle
      · simp
      · intro pc hm
        rcases mem_set_cases hm with rfl | hm
        · trivial
        · exact hi.pcs pc hm
    · cases h

theorem run_append {M : Nat} : ∀ {as bs : List Act} {s s' : St} {tr : List Ev}, run M s (as ++ bs) = some (s', tr) →
    ∃ s1 t1 t2, run M s as = some (s1, t1) ∧ run M s1 bs = some (s', t2) ∧ tr = t1 ++ t2
  | [], bs, s, s', tr, h => ⟨s, [], tr, rfl, h, rfl⟩
  | a :: as, bs, s, s', tr, h => by
    simp only [List.cons_append, run, Option.bind_eq_some_iff] at h
    obtain ⟨r, h1, r', h2, h3⟩ := h
    injection h3 with h3; injection h3 with h3 h4; subst h3
    obtain ⟨s1, t1, t2, e1, e2, e3⟩ := run_append (s' := r'.1) (tr := r'.2) h2
    refine ⟨s1, r.2 ++ t1, t2, ?_, e2, by rw [← h4, e3, List.append_assoc]⟩
    simp only [run, h1, Option.bind_some, e1]

theorem inv_run {M limit : Nat} (hM : limit < M) : ∀ {as : List Act} {s s' : St} {tr}, Inv M limit s →
    run M s as = some (s', tr) → Inv M limit s'
  | [], s, s', tr, hi, h => by simp [run] at h; rw [← h.1]; exact hi
  | a :: as, s, s', tr, hi, h => by
    simp only [run, Option.bind_eq_some_iff] at h
    obtain ⟨r, h1, r', h2, h3⟩ := h
    injection h3 with h3; injection h3 with h3 h4; subst h3
    exact inv_run hM (inv_step hM hi h1) h2

theorem inv_reach {M limit k : Nat} (hM : limit < M) {s tr} (h : Reachable M limit k s tr) : Inv M limit s := by
  obtain ⟨as, h⟩ := h
  exact inv_run hM inv_init h

end Verif.Limit
