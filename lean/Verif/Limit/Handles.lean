import Verif.Limit.Props

/-!
`limit_allocator` objects themselves: any number of allocators sharing any number of budgets, through copies, rebinds,
moves, assignments and swaps. Calls are sequential here (`limit_allocator_syncness::unsync`, or `sync` without
interference, see `limit_solo`). The wrapped allocator `inner_` is taken to be stateless.
-/
namespace Verif.Limit

open Verif.Channel (lt_of_getElem? getElem?_set')

/-- A block together with the budget it was charged to (limit_allocator.hpp:139-153). -/
structure HBlk where
  cb : Nat
  b : Block
  deriving DecidableEq, Repr

/-- `cbs`: remaining bytes of every control block; `handles`: all `limit_allocator` objects ever created (`none` =
destroyed, `some none` = null `control_block_`, limit_allocator.hpp:95); `live`: blocks the users hold. -/
structure HSt where
  cbs : List Nat
  handles : List (Option (Option Nat))
  live : List HBlk
  deriving DecidableEq, Repr

/-- The operations on allocator objects (limit_allocator.hpp:105-169). -/
inductive HOp where
  | make (limit : Nat)
  | copy (h : Nat)
  | move (h : Nat)
  | copyAssign (dst src : Nat)
  | moveAssign (dst src : Nat)
  | swap (a b : Nat)
  | destroy (h : Nat)
  | alloc (h : Nat) (b : Block) (up : Bool)
  | dealloc (h k : Nat)
  deriving DecidableEq, Repr

/-- Undefined behaviour: use of an allocator without control block (limit_allocator.hpp:140, 145, 152). -/
inductive HErr where
  /-- dereferencing a null `control_block_` -/
  | nullBlock
  deriving DecidableEq, Repr

/-- One operation; `none` if it is not a well-formed program step (limit_allocator.hpp:105-169, lines given at each case). -/
def hstep (M : Nat) (s : HSt) : HOp → Option (Except HErr (HSt × Option Out))
  -- limit_allocator.hpp:105-109,123-137
  | .make l => if l < M then some (.ok ({ s with cbs := s.cbs ++ [l], handles := s.handles ++ [some (some s.cbs.length)] }, none))
    else none
  -- limit_allocator.hpp:111,117-121,155-157
  | .copy h => match s.handles[h]? with
    | some (some p) => some (.ok ({ s with handles := s.handles ++ [some p] }, none))
    | _ => none
  -- defaulted: moves the shared_ptr, limit_allocator.hpp:112
  | .move h => match s.handles[h]? with
    | some (some p) => some (.ok ({ s with handles := s.handles.set h (some none) ++ [some p] }, none))
    | _ => none
  -- limit_allocator.hpp:113
  | .copyAssign d h => match s.handles[d]?, s.handles[h]? with
    | some (some _), some (some p) => some (.ok ({ s with handles := s.handles.set d (some p) }, none))
    | _, _ => none
  -- limit_allocator.hpp:114
  | .moveAssign d h => match s.handles[d]?, s.handles[h]? with
    | some (some _), some (some p) =>
      some (.ok ({ s with handles := (s.handles.set h (some none)).set d (some p) }, none))
    | _, _ => none
  -- limit_allocator.hpp:163-169
  | .swap a b => match s.handles[a]?, s.handles[b]? with
    | some (some p), some (some q) => some (.ok ({ s with handles := (s.handles.set a (some q)).set b (some p) }, none))
    | _, _ => none
  -- limit_allocator.hpp:115
  | .destroy h => match s.handles[h]? with
    | some (some _) => some (.ok ({ s with handles := s.handles.set h none }, none))
    | _ => none
  -- limit_allocator.hpp:139-148; a block of `M` or more bytes cannot exist, so the wrapped allocator cannot supply it
  | .alloc h b up => match s.handles[h]? with
    | some (some none) => some (.error .nullBlock)
    | some (some (some c)) => match s.cbs[c]? with
      | some left =>
        let r := seqAllocate M left b up
        if r.1 = .ok then
          if b.bytes < M then some (.ok ({ s with cbs := s.cbs.set c r.2.1, live := s.live ++ [⟨c, b⟩] }, some r.1)) else none
        else some (.ok ({ s with cbs := s.cbs.set c r.2.1 }, some r.1))
      | none => none
    | _ => none
  -- limit_allocator.hpp:150-153; through an allocator equal to the one the block came from
  | .dealloc h k => match s.handles[h]?, s.live[k]? with
    | some (some (some c)), some x =>
      if c = x.cb then
        match s.cbs[c]? with
        | some left => some (.ok ({ s with cbs := s.cbs.set c (seqDeallocate M left x.b), live := s.live.eraseIdx k }, none))
        | none => none
      else none
    | _, _ => none

/-- A history of operations (limit_allocator.hpp:105-169). -/
def hrun (M : Nat) : HSt → List HOp → Option (Except HErr HSt)
  | s, [] => some (.ok s)
  | s, o :: os => match hstep M s o with
    | some (.ok r) => hrun M r.1 os
    | some (.error e) => some (.error e)
    | none => none

/-- The state before any allocator exists (limit_allocator.hpp:95). -/
def hinit : HSt := ⟨[], [], []⟩

/-- The limits of the budgets a history creates, in order (limit_allocator.hpp:105-109, 123-137). -/
def limits : List HOp → List Nat
  | [] => []
  | .make l :: os => l :: limits os
  | _ :: os => limits os

/-- Bytes obtained through budget `c` and not returned (specification of limit_allocator.hpp:139-153). -/
def outstanding (s : HSt) (c : Nat) : Nat := (s.live.map (fun x => if x.cb = c then x.b.n * x.b.sz else 0)).sum

/-- Invariant of the histories of limit_allocator.hpp:105-169. -/
structure HInv (M : Nat) (ls : List Nat) (s : HSt) : Prop where
  len : s.cbs.length = ls.length
  bal : ∀ (c : Nat) left l, s.cbs[c]? = some left → ls[c]? = some l → left + outstanding s c = l
  lim : ∀ l ∈ ls, l < M
  live : ∀ x ∈ s.live, x.cb < s.cbs.length ∧ x.b.n * x.b.sz < M

theorem hinv_same {M ls s s'} (hi : HInv M ls s) (h1 : s'.cbs = s.cbs) (h2 : s'.live = s.live) : HInv M ls s' := by
  obtain ⟨a, b, c, d⟩ := hi
  refine ⟨by rw [h1]; exact a, ?_, c, by rw [h1, h2]; exact d⟩
  intro c' left l hl hl'
  have := b c' left l (by rw [← h1]; exact hl) hl'
  simp only [outstanding, h2] at this ⊢
  exact this

theorem hinv_step {M ls s o r} (hi : HInv M ls s) (h : hstep M s o = some (.ok r)) :
    HInv M (ls ++ limits [o]) r.1 := by
  cases o with
  | make l =>
    simp only [hstep] at h
    split at h
    · rename_i hl
      injection h with h; injection h with h; subst h
      simp only [limits]
      have hout : outstanding s s.cbs.length = 0 := by
        apply sum_zero; intro x hx; rw [if_neg]; have := (hi.live x hx).1; omega
      refine ⟨by simp [hi.len], ?_, ?_, ?_⟩
      · intro c left l' hc hl'
        dsimp only at hc
        change left + outstanding s c = l'
        rw [List.getElem?_append] at hc hl'
        split at hc
        · rename_i hlt
          rw [if_pos (by rw [← hi.len]; exact hlt)] at hl'
          exact hi.bal c left l' hc hl'
        · rename_i hge
          rw [if_neg (by rw [← hi.len]; exact hge)] at hl'
          rw [List.getElem?_singleton] at hc hl'
          rw [hi.len] at hc
          split at hc <;> simp_all
          have : c = s.cbs.length := by have := hi.len; omega
          rw [this, hout]
      · intro x hx; simp at hx; rcases hx with hx | rfl
        · exact hi.lim x hx
        · exact hl
      · intro x hx
        have := hi.live x hx
        simp; omega
    · cases h
  | copy hd =>
    simp only [hstep] at h
    split at h
    · injection h with h; injection h with h; subst h
      simp only [limits, List.append_nil]; exact hinv_same hi rfl rfl
    · cases h
  | move hd =>
    simp only [hstep] at h
    split at h
    · injection h with h; injection h with h; subst h
      simp only [limits, List.append_nil]; exact hinv_same hi rfl rfl
    · cases h
  | copyAssign d hd =>
    simp only [hstep] at h
    split at h
    · injection h with h; injection h with h; subst h
      simp only [limits, List.append_nil]; exact hinv_same hi rfl rfl
    · cases h
  | moveAssign d hd =>
    simp only [hstep] at h
    split at h
    · injection h with h; injection h with h; subst h
      simp only [limits, List.append_nil]; exact hinv_same hi rfl rfl
    · cases h
  | swap a b =>
    simp only [hstep] at h
    split at h
    · injection h with h; injection h with h; subst h
      simp only [limits, List.append_nil]; exact hinv_same hi rfl rfl
    · cases h
  | destroy hd =>
    simp only [hstep] at h
    split at h
    · injection h with h; injection h with h; subst h
      simp only [limits, List.append_nil]; exact hinv_same hi rfl rfl
    · cases h
  | alloc hd b up =>
    simp only [limits, List.append_nil]
    simp only [hstep] at h
    split at h
    · cases h
    · rename_i c hc
      split at h
      · rename_i left hl
        have hlt := lt_of_getElem? hl
        have hlm : left < M := by
          have hc' : c < ls.length := by rw [← hi.len]; exact hlt
          have := hi.bal c left ls[c] hl (List.getElem?_eq_getElem hc')
          have := hi.lim ls[c] (List.getElem_mem hc')
          omega
        split at h
        · rename_i hok
          split at h
          · rename_i hb
            injection h with h; injection h with h; subst h
            have hs := limit_allocate_spec_partial hlm hb up
            have h5 := (hs.2.2.2.2 hok).1
            refine ⟨by simp [hi.len], ?_, hi.lim, ?_⟩
            · intro c' left' l hc' hl'
              dsimp only at hc'
              have hout : outstanding { s with cbs := s.cbs.set c (seqAllocate M left b up).2.1, live := s.live ++ [⟨c, b⟩] } c' =
                  outstanding s c' + (if c = c' then b.n * b.sz else 0) := by
                simp [outstanding]
              change left' + outstanding { s with cbs := s.cbs.set c (seqAllocate M left b up).2.1, live := s.live ++ [⟨c, b⟩] } c' = l
              rw [hout]
              rcases getElem?_set' hl hc' with ⟨rfl, rfl⟩ | ⟨hne, hc'⟩
              · rw [if_pos rfl]
                have := hi.bal c' left l hl hl'
                have h5' : (seqAllocate M left b up).2.1 + b.n * b.sz = left := h5
                omega
              · rw [if_neg (fun e => hne e.symm)]
                exact hi.bal c' left' l hc' hl'
            · intro x hx
              simp at hx
              rcases hx with hx | rfl
              · simpa using hi.live x hx
              · exact ⟨by simpa using hlt, hb⟩
          · cases h
        · rename_i hok
          injection h with h; injection h with h; subst h
          have hf := limit_failure_free hlm b up hok
          refine hinv_same hi ?_ rfl
          dsimp only
          rw [hf]
          apply List.ext_getElem?
          intro j
          rw [List.getElem?_set]
          split
          · subst_vars; exact hl.symm
          · rfl
      · cases h
    · cases h
  | dealloc hd k =>
    simp only [limits, List.append_nil]
    simp only [hstep] at h
    split at h
    · rename_i c x hc hx
      split at h
      · rename_i hcx
        split at h
        · rename_i left hl
          injection h with h; injection h with h; subst h
          have hlive := hi.live x (List.mem_of_getElem? hx)
          refine ⟨by simp [hi.len], ?_, hi.lim, ?_⟩
          · intro c' left' l hc' hl'
            dsimp only at hc'
            have hout := sum_map_eraseIdx (fun x => if x.cb = c' then x.b.n * x.b.sz else 0) hx
            change left' + (((s.live.eraseIdx k).map (fun x => if x.cb = c' then x.b.n * x.b.sz else 0)).sum) = l
            rcases getElem?_set' hl hc' with ⟨rfl, rfl⟩ | ⟨hne, hc'⟩
            · have hb := hi.bal c' left l hl hl'
              rw [if_pos hcx.symm] at hout
              have hl2 := hi.lim l (List.mem_of_getElem? hl')
              unfold outstanding at hb
              have hcost : Block.cost M x.b = x.b.n * x.b.sz := Nat.mod_eq_of_lt hlive.2
              simp only [seqDeallocate, hcost]
              rw [Nat.mod_eq_of_lt (by omega)]
              omega
            · have hb := hi.bal c' left' l hc' hl'
              rw [if_neg (by omega)] at hout
              unfold outstanding at hb
              omega
          · intro y hy
            have := hi.live y (List.mem_of_mem_eraseIdx hy)
            simpa using this
        · cases h
      · cases h
    · cases h

theorem limits_append : ∀ a b, limits (a ++ b) = limits a ++ limits b
  | [], b => rfl
  | o :: a, b => by cases o <;> simp [limits, limits_append a b]

theorem hinv_run {M} : ∀ {os : List HOp} {s s' : HSt} {ls}, HInv M ls s → hrun M s os = some (.ok s') →
    HInv M (ls ++ limits os) s'
  | [], s, s', ls, hi, h => by simp [hrun] at h; subst h; simpa [limits] using hi
  | o :: os, s, s', ls, hi, h => by
    simp only [hrun] at h
    split at h
    · rename_i r hr
      have := hinv_run (hinv_step hi hr) h
      rw [List.append_assoc, ← limits_append] at this
      exact this
    · cases h
    · cases h

/-- **C12 (many budgets).** However allocators are copied, rebound, moved, assigned, swapped and destroyed, every budget is
accounted separately and exactly: what is left of it plus the bytes obtained through it and not returned is its limit. -/
theorem limit_every_budget {M : Nat} {os : List HOp} {s : HSt} (h : hrun M hinit os = some (.ok s)) {c left l : Nat}
    (hc : s.cbs[c]? = some left) (hl : (limits os)[c]? = some l) : left + outstanding s c = l := by
  have := hinv_run (ls := []) ⟨rfl, by simp [hinit], by simp, by simp [hinit]⟩ h
  exact this.bal c left l hc (by simpa using hl)

/-- Two budgets; a block of each is in use, through a copy for the first. -/
example : (match hrun (2 ^ 64) hinit [.make 100, .make 30, .copy 0, .alloc 2 ⟨10, 4⟩ true, .alloc 1 ⟨5, 4⟩ true, .destroy 0] with
    | some (.ok s) => some (s.cbs, outstanding s 0, outstanding s 1)
    | _ => none) = some ([60, 10], 40, 20) ∧
    limits [.make 100, .make 30, .copy 0, .alloc 2 ⟨10, 4⟩ true, .alloc 1 ⟨5, 4⟩ true, .destroy 0] = [100, 30] := by decide

/-- Handles refer to existing budgets. -/
theorem handles_bound_step {M s o r} (hi : ∀ (i c : Nat), s.handles[i]? = some (some (some c)) → c < s.cbs.length)
    (h : hstep M s o = some (.ok r)) : ∀ (i c : Nat), r.1.handles[i]? = some (some (some c)) → c < r.1.cbs.length := by
  cases o <;> simp only [hstep] at h
  case make l =>
    split at h
    · injection h with h; injection h with h; subst h
      intro i c hc
      simp only [List.getElem?_append, List.length_append] at hc ⊢
      split at hc
      · have := hi i c hc; omega
      · rw [List.getElem?_singleton] at hc
        split at hc
        · simp at hc; subst hc; simp
        · cases hc
    · cases h
  case copy hd =>
    split at h
    · rename_i p hp
      injection h with h; injection h with h; subst h
      intro i c hc
      simp only [List.getElem?_append] at hc
      split at hc
      · exact hi i c hc
      · rw [List.getElem?_singleton] at hc
        split at hc
        · simp at hc; subst hc; exact hi hd c hp
        · cases hc
    · cases h
  case move hd =>
    split at h
    · rename_i p hp
      injection h with h; injection h with h; subst h
      intro i c hc
      simp only [List.getElem?_append, List.length_set] at hc
      split at hc
      · rw [List.getElem?_set] at hc
        split at hc
        · split at hc <;> simp at hc
        · exact hi i c hc
      · rw [List.getElem?_singleton] at hc
        split at hc
        · simp at hc; subst hc; exact hi hd c hp
        · cases hc
    · cases h
  case copyAssign d hd =>
    split at h
    · rename_i p q hq hp
      injection h with h; injection h with h; subst h
      intro i c hc
      simp only [List.getElem?_set] at hc
      split at hc
      · split at hc
        · simp at hc; subst hc; exact hi hd c hp
        · cases hc
      · exact hi i c hc
    · cases h
  case moveAssign d hd =>
    split at h
    · rename_i p q hq hp
      injection h with h; injection h with h; subst h
      intro i c hc
      simp only [List.getElem?_set, List.length_set] at hc
      split at hc
      · split at hc
        · simp at hc; subst hc; exact hi hd c hp
        · cases hc
      · split at hc
        · split at hc <;> simp at hc
        · exact hi i c hc
    · cases h
  case swap a b =>
    split at h
    · rename_i p q hp hq
      injection h with h; injection h with h; subst h
      intro i c hc
      simp only [List.getElem?_set, List.length_set] at hc
      split at hc
      · split at hc
        · simp at hc; subst hc; exact hi a c hp
        · cases hc
      · split at hc
        · split at hc
          · simp at hc; subst hc; exact hi b c hq
          · cases hc
        · exact hi i c hc
    · cases h
  case destroy hd =>
    split at h
    · injection h with h; injection h with h; subst h
      intro i c hc
      simp only [List.getElem?_set] at hc
      split at hc
      · split at hc <;> simp at hc
      · exact hi i c hc
    · cases h
  case alloc hd b up =>
    split at h
    · cases h
    · split at h
      · split at h
        · split at h
          · injection h with h; injection h with h; subst h
            intro i c hc; simpa using hi i c hc
          · cases h
        · injection h with h; injection h with h; subst h
          intro i c hc; simpa using hi i c hc
      · cases h
    · cases h
  case dealloc hd k =>
    split at h
    · split at h
      · split at h
        · injection h with h; injection h with h; subst h
          intro i c hc; simpa using hi i c hc
        · cases h
      · cases h
    · cases h

theorem handles_bound_run {M} : ∀ {os : List HOp} {s s' : HSt},
    (∀ (i c : Nat), s.handles[i]? = some (some (some c)) → c < s.cbs.length) → hrun M s os = some (.ok s') →
    ∀ (i c : Nat), s'.handles[i]? = some (some (some c)) → c < s'.cbs.length
  | [], s, s', hi, h => by simp [hrun] at h; subst h; exact hi
  | o :: os, s, s', hi, h => by
    simp only [hrun] at h
    split at h
    · rename_i r hr
      exact handles_bound_run (handles_bound_step hi hr) h
    · cases h
    · cases h

/-- **C13.** A newly constructed allocator has a budget of its own, with exactly the given limit left: no other allocator shares it, and
the other allocators and budgets are not affected. -/
theorem limit_own_budget {M : Nat} {os : List HOp} {s s' : HSt} {l : Nat} {o : Option Out} (h : hrun M hinit os = some (.ok s))
    (hm : hstep M s (.make l) = some (.ok (s', o))) :
    ∃ c : Nat, s'.handles[s.handles.length]? = some (some (some c)) ∧ s'.cbs[c]? = some l ∧ outstanding s' c = 0 ∧
      (∀ i : Nat, i < s.handles.length → s'.handles[i]? = s.handles[i]? ∧ s'.handles[i]? ≠ some (some (some c))) ∧
      ∀ d : Nat, d < s.cbs.length → s'.cbs[d]? = s.cbs[d]? := by
  have hb := handles_bound_run (s := hinit) (by simp [hinit]) h
  have hi := hinv_run (ls := []) ⟨rfl, by simp [hinit], by simp, by simp [hinit]⟩ h
  simp only [hstep] at hm
  split at hm
  · injection hm with hm; injection hm with hm; injection hm with hm _; subst hm
    refine ⟨s.cbs.length, by simp, by simp, ?_, fun i hlt => ?_, fun d hd => ?_⟩
    · change outstanding s s.cbs.length = 0
      apply sum_zero; intro x hx; rw [if_neg]; have := (hi.live x hx).1; omega
    · simp only [List.getElem?_append, if_pos hlt, true_and]
      intro e
      have := hb i _ e
      omega
    · simp only [List.getElem?_append, if_pos hd]
  · cases hm

example : (match hrun (2 ^ 64) hinit [.make 100, .alloc 0 ⟨10, 4⟩ true, .make 30] with
    | some (.ok s) => some (s.cbs, s.handles)
    | _ => none) = some ([60, 30], [some (some 0), some (some 1)]) := by decide

/-- **C13.** Who shares a budget with whom: a copy (and an allocator rebound to another type) shares the budget of its source, assignment
makes the target share the budget of the source, swap exchanges budgets; no budget changes and no other allocator is affected. -/
theorem limit_sharing {M : Nat} {s s' : HSt} {r : Option Out} :
    (∀ h, hstep M s (.copy h) = some (.ok (s', r)) →
      s'.handles[s.handles.length]? = s.handles[h]? ∧ s'.cbs = s.cbs ∧ s'.live = s.live ∧
      ∀ i : Nat, i < s.handles.length → s'.handles[i]? = s.handles[i]?) ∧
    (∀ h, hstep M s (.move h) = some (.ok (s', r)) →
      s'.handles[s.handles.length]? = s.handles[h]? ∧ s'.cbs = s.cbs ∧ s'.live = s.live ∧
      ∀ i : Nat, i < s.handles.length → i ≠ h → s'.handles[i]? = s.handles[i]?) ∧
    (∀ d h, hstep M s (.copyAssign d h) = some (.ok (s', r)) →
      s'.handles[d]? = s.handles[h]? ∧ s'.cbs = s.cbs ∧ s'.live = s.live ∧ ∀ i : Nat, i ≠ d → s'.handles[i]? = s.handles[i]?) ∧
    (∀ d h, hstep M s (.moveAssign d h) = some (.ok (s', r)) →
      s'.handles[d]? = s.handles[h]? ∧ s'.cbs = s.cbs ∧ s'.live = s.live ∧
      ∀ i : Nat, i ≠ d → i ≠ h → s'.handles[i]? = s.handles[i]?) ∧
    (∀ a b, hstep M s (.swap a b) = some (.ok (s', r)) →
      s'.handles[a]? = s.handles[b]? ∧ s'.handles[b]? = s.handles[a]? ∧ s'.cbs = s.cbs ∧ s'.live = s.live ∧
      ∀ i : Nat, i ≠ a → i ≠ b → s'.handles[i]? = s.handles[i]?) := by
  refine ⟨fun h e => ?_, fun h e => ?_, fun d h e => ?_, fun d h e => ?_, fun a b e => ?_⟩ <;> simp only [hstep] at e <;>
    split at e <;> first | cases e | skip
  · rename_i p hp
    refine ⟨by simp [hp], rfl, rfl, fun i hi => by simp [List.getElem?_append, hi]⟩
  · rename_i p hp
    refine ⟨by simp [List.getElem?_append, hp], rfl, rfl, fun i hi hne => ?_⟩
    simp [List.getElem?_append, hi, List.getElem?_set, Ne.symm hne]
  · rename_i p q hq hp
    have := lt_of_getElem? hq
    refine ⟨by simp [List.getElem?_set, this, hp], rfl, rfl, fun i hne => by simp [List.getElem?_set, Ne.symm hne]⟩
  · rename_i p q hq hp
    have := lt_of_getElem? hq
    refine ⟨by simp [List.getElem?_set, this, hp], rfl, rfl, fun i hne hne' => by
      simp [List.getElem?_set, Ne.symm hne, Ne.symm hne']⟩
  · rename_i p q hp hq
    have ha := lt_of_getElem? hp
    have hb := lt_of_getElem? hq
    refine ⟨?_, by simp [List.getElem?_set, hb, hp], rfl, rfl, fun i hne hne' => by
      simp [List.getElem?_set, Ne.symm hne, Ne.symm hne']⟩
    by_cases hab : b = a
    · subst hab; rw [hp] at hq; simp at hq; subst hq; rw [hp]; simp [hb]
    · simp [List.getElem?_set, ha, hab, hq]

example : hrun (2 ^ 64) hinit [.make 100, .make 50, .alloc 0 ⟨5, 8⟩ true, .swap 0 1, .alloc 0 ⟨5, 8⟩ true,
      .alloc 0 ⟨5, 8⟩ true, .copy 1, .dealloc 2 0] =
    some (.ok ⟨[100, 10], [some (some 1), some (some 0), some (some 0)], [⟨1, ⟨5, 8⟩⟩]⟩) := by decide

/-- **C58 for `limit_allocator`, refuted.** A moved-from allocator has lost its control block: the next allocation through
it dereferences a null pointer, although move construction of an allocator must not change its source. -/
theorem limit_move_keeps_source_refuted :
    ∃ (s s' : HSt) (h : Nat), hrun (2 ^ 64) hinit [.make 100] = some (.ok s) ∧ s.handles[h]? = some (some (some 0)) ∧
      hstep (2 ^ 64) s (.move h) = some (.ok (s', none)) ∧
      ∀ b up, hstep (2 ^ 64) s' (.alloc h b up) = some (.error .nullBlock) :=
  ⟨⟨[100], [some (some 0)], []⟩, ⟨[100], [some none, some (some 0)], []⟩, 0, by decide, rfl, rfl, fun _ _ => rfl⟩

end Verif.Limit
