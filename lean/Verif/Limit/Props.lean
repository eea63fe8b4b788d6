import Verif.Limit.Lemmas
import Mathlib.Data.List.Induction

/-! Properties C12 and C13 of `limit_allocator`. They speak about the trace of an execution, i.e. about what callers and
the wrapped allocator see. -/
namespace Verif.Limit

open Verif.Channel (lt_of_getElem? getElem?_set')

/-- Bytes the wrapped allocator has handed out. -/
def gave : List Ev → Nat
  | [] => 0
  | .upstream _ b true :: t => b.n * b.sz + gave t
  | _ :: t => gave t

/-- Bytes the wrapped allocator has got back. -/
def tookBack : List Ev → Nat
  | [] => 0
  | .upstreamFree _ b :: t => b.n * b.sz + tookBack t
  | _ :: t => tookBack t

theorem gave_append : ∀ t u, gave (t ++ u) = gave t + gave u
  | [], u => by simp [gave]
  | e :: t, u => by
    have := gave_append t u
    cases e <;> simp only [List.cons_append, gave, this]
    rename_i ok
    cases ok <;> simp only [gave, this]; omega

theorem tookBack_append : ∀ t u, tookBack (t ++ u) = tookBack t + tookBack u
  | [], u => by simp [tookBack]
  | e :: t, u => by
    have := tookBack_append t u
    cases e <;> simp only [List.cons_append, tookBack, this]
    omega

/-- Bytes of the block a running `deallocate` has not yet passed on. -/
def PC.held : PC → Nat
  | .freeing b => b.bytes
  | _ => 0

def held (s : St) : Nat := (s.live.map Block.bytes).sum + (s.pcs.map PC.held).sum

theorem held_step {M : Nat} {s : St} {a : Act} {r} (h : step M s a = some r) :
    held s + gave r.2 = held r.1 + tookBack r.2 := by
  cases a with
  | alloc i b v =>
    simp only [step] at h
    split at h
    · rename_i hp
      split at h
      · injection h with h; subst h
        have e := sum_map_set PC.held hp (.loaded b v)
        simp only [PC.held] at e
        simp only [held, gave, tookBack]; omega
      · cases h
    · cases h
  | test i =>
    simp only [step] at h
    split at h
    · rename_i b old hp
      split at h <;> injection h with h <;> subst h
      · have e := sum_map_set PC.held hp .idle
        simp only [PC.held] at e
        simp only [held, gave, tookBack]; omega
      · have e := sum_map_set PC.held hp (.cas b old)
        simp only [PC.held] at e
        simp only [held, gave, tookBack]; omega
    · cases h
  | cas i sp v =>
    simp only [step] at h
    split at h
    · rename_i b old hp
      split at h
      · injection h with h; subst h
        have e := sum_map_set PC.held hp (.charged b)
        simp only [PC.held] at e
        simp only [held, gave, tookBack]; omega
      · split at h
        · injection h with h; subst h
          have e := sum_map_set PC.held hp (.loaded b v)
          simp only [PC.held] at e
          simp only [held, gave, tookBack]; omega
        · cases h
    · cases h
  | upAlloc i ok =>
    simp only [step] at h
    split at h
    · rename_i b hp
      split at h
      · split at h
        · injection h with h; subst h
          have e := sum_map_set PC.held hp .idle
          simp only [PC.held] at e
          simp only [held, gave, tookBack, List.map_append, List.sum_append, List.map_cons, List.map_nil, List.sum_cons,
            List.sum_nil, Block.bytes]
          omega
        · cases h
      · injection h with h; subst h
        have e := sum_map_set PC.held hp (.refund b)
        simp only [PC.held] at e
        simp only [held, gave, tookBack]; omega
    · cases h
  | refund i =>
    simp only [step] at h
    split at h
    · rename_i b hp
      injection h with h; subst h
      have e := sum_map_set PC.held hp .idle
      simp only [PC.held] at e
      simp only [held, gave, tookBack]; omega
    · cases h
  | dealloc i k =>
    simp only [step] at h
    split at h
    · rename_i b hp hk
      injection h with h; subst h
      have e := sum_map_set PC.held hp (.freeing b)
      have e2 := sum_map_eraseIdx Block.bytes hk
      simp only [PC.held] at e
      simp only [held, gave, tookBack]; omega
    · cases h
  | upFree i =>
    simp only [step] at h
    split at h
    · rename_i b hp
      injection h with h; subst h
      have e := sum_map_set PC.held hp (.giveBack b)
      simp only [PC.held, Block.bytes] at e
      simp only [held, gave, tookBack]; omega
    · cases h
  | giveBack i =>
    simp only [step] at h
    split at h
    · rename_i b hp
      injection h with h; subst h
      have e := sum_map_set PC.held hp .idle
      simp only [PC.held] at e
      simp only [held, gave, tookBack]; omega
    · cases h

theorem held_run {M : Nat} : ∀ {as : List Act} {s s' : St} {tr}, run M s as = some (s', tr) →
    held s + gave tr = held s' + tookBack tr
  | [], s, s', tr, h => by simp [run] at h; obtain ⟨rfl, rfl⟩ := h; rfl
  | a :: as, s, s', tr, h => by
    simp only [run, Option.bind_eq_some_iff] at h
    obtain ⟨r, h1, r', h2, h3⟩ := h
    injection h3 with h3; injection h3 with h3 h4; subst h3 h4
    have e1 := held_step h1
    have e2 := held_run (s' := r'.1) (tr := r'.2) h2
    rw [gave_append, tookBack_append]
    omega

theorem sum_le_of {β : Type} {f g : β → Nat} : ∀ {l : List β}, (∀ x ∈ l, f x ≤ g x) → (l.map f).sum ≤ (l.map g).sum
  | [], _ => by simp
  | a :: l, h => by
    have h1 := h a (by simp)
    have h2 := sum_le_of (l := l) (fun x hx => h x (by simp [hx]))
    simp; omega

theorem sum_zero {β : Type} {f : β → Nat} : ∀ {l : List β}, (∀ x ∈ l, f x = 0) → (l.map f).sum = 0
  | [], _ => by simp
  | a :: l, h => by
    have h1 := h a (by simp)
    have h2 := sum_zero (l := l) (fun x hx => h x (by simp [hx]))
    simp only [List.map_cons, List.sum_cons]; omega

theorem held_le_total {M limit : Nat} {s : St} (hi : Inv M limit s) : held s ≤ total M s := by
  have h1 : (s.live.map Block.bytes).sum ≤ (s.live.map (Block.cost M)).sum :=
    sum_le_of (fun b hb => by rw [cost_eq (hi.real b hb)]; exact Nat.le_refl _)
  have h2 : (s.pcs.map PC.held).sum ≤ (s.pcs.map (PC.charge M)).sum := by
    apply sum_le_of
    intro pc hpc
    have := hi.pcs pc hpc
    cases pc <;> simp [PC.held, PC.charge] at this ⊢
    rw [cost_eq this]; exact Nat.le_refl _
  simp only [held, total]; omega

/-- **C12.** At every instant of every execution - any number of threads, any interleaving, spurious compare-exchange
failures, stale loads, wrapped allocator failing at will - the bytes obtained from the wrapped allocator and
not yet returned to it do not exceed the limit. -/
theorem limit_never_exceeded {M limit k : Nat} (hM : limit < M) {s : St} {tr : List Ev}
    (h : Reachable M limit k s tr) : gave tr ≤ tookBack tr + limit := by
  have hi := inv_reach hM h
  obtain ⟨as, h⟩ := h
  have e := held_run h
  have := held_le_total hi
  have hb := hi.bal
  have h0 : held (init limit k) = 0 := by simp [held, init, PC.held]
  omega

example : ∃ s tr, Reachable (2 ^ 64) 100 2 s tr ∧ gave tr = 88 ∧ tookBack tr = 0 := by
  refine ⟨_, _, ⟨[.alloc 0 ⟨10, 4⟩ 100, .alloc 1 ⟨6, 8⟩ 100, .test 0, .test 1, .cas 0 false 0, .cas 1 false 60, .test 1,
    .cas 1 false 0, .upAlloc 1 true, .upAlloc 0 true], rfl⟩, rfl, rfl⟩

/-- **C12.** The budget left and the bytes charged for blocks and running calls always add up to the limit; the counter
never wraps around. -/
theorem limit_conserved {M limit k : Nat} (hM : limit < M) {s : St} {tr : List Ev} (h : Reachable M limit k s tr) :
    s.left + ((s.live.map (Block.cost M)).sum + (s.pcs.map (PC.charge M)).sum) = limit :=
  (inv_reach hM h).bal

/-- In the middle of two concurrent calls: 40 bytes are charged, 60 left. -/
example : ∃ s tr, Reachable (2 ^ 64) 100 2 s tr ∧ s.left = 60 ∧ s.pcs = [.charged ⟨10, 4⟩, .cas ⟨6, 8⟩ 100] :=
  ⟨_, _, ⟨[.alloc 0 ⟨10, 4⟩ 100, .alloc 1 ⟨6, 8⟩ 100, .test 0, .test 1, .cas 0 false 0], rfl⟩, rfl, rfl⟩

/-- **C12.** Whenever no call is running, the budget left plus the bytes obtained from the wrapped allocator and not yet
returned equals the limit. -/
theorem limit_quiescent {M limit k : Nat} (hM : limit < M) {s : St} {tr : List Ev} (h : Reachable M limit k s tr)
    (hq : ∀ pc ∈ s.pcs, pc = .idle) : s.left + gave tr = limit + tookBack tr := by
  have hi := inv_reach hM h
  obtain ⟨as, h⟩ := h
  have e := held_run h
  have hb := hi.bal
  have h0 : held (init limit k) = 0 := by simp [held, init, PC.held]
  have h1 : (s.pcs.map PC.held).sum = 0 := by
    apply sum_zero; intro pc hpc; rw [hq pc hpc]; rfl
  have h2 : (s.pcs.map (PC.charge M)).sum = 0 := by
    apply sum_zero; intro pc hpc; rw [hq pc hpc]; rfl
  have h3 : (s.live.map (Block.cost M)).sum = (s.live.map Block.bytes).sum :=
    congrArg List.sum (List.map_congr_left (fun b hb => cost_eq (hi.real b hb)))
  simp only [held, total] at *
  omega

/-- A run in which two threads race, one compare-exchange fails, and one block is returned. -/
example : ∃ s tr, Reachable (2 ^ 64) 100 2 s tr ∧ (∀ pc ∈ s.pcs, pc = .idle) ∧ gave tr = 88 ∧ tookBack tr = 40 ∧
    s.left = 52 := by
  refine ⟨_, _, ⟨[.alloc 0 ⟨10, 4⟩ 100, .alloc 1 ⟨6, 8⟩ 100, .test 0, .test 1, .cas 0 false 0, .cas 1 false 60, .test 1,
    .cas 1 true 60, .test 1, .cas 1 false 0, .upAlloc 1 true, .upAlloc 0 true, .dealloc 0 1, .upFree 0, .giveBack 0], rfl⟩,
    ?_, rfl, rfl, rfl⟩
  intro pc h; revert pc; decide

/-! ### C13 -/

/-- Every value in `hist` was the budget at some earlier (or the present) instant of the execution, and the value a
thread compares with is one of them. -/
theorem hist_seen {M : Nat} {s0 : St} : ∀ (as : List Act) {s : St} {tr}, s0.hist = [s0.left] →
    (∀ (i : Nat) b v, s0.pcs[i]? = some (.loaded b v) → v ∈ s0.hist) →
    run M s0 as = some (s, tr) →
    (∀ v ∈ s.hist, ∃ as1 as2 s1 tr1, as = as1 ++ as2 ∧ run M s0 as1 = some (s1, tr1) ∧ s1.left = v) ∧
    (∀ (i : Nat) b v, s.pcs[i]? = some (.loaded b v) → v ∈ s.hist) := by
  intro as
  induction as using List.reverseRecOn with
  | nil =>
    intro s tr h0 h1 h
    simp [run] at h; obtain ⟨rfl, rfl⟩ := h
    refine ⟨fun v hv => ⟨[], [], s0, [], rfl, rfl, ?_⟩, h1⟩
    rw [h0] at hv; simp at hv; exact hv.symm
  | append_singleton as a ih =>
    intro s tr h0 h1 h
    have hfull := h
    obtain ⟨s1, t1, t2, e1, e2, e3⟩ := run_append h
    obtain ⟨ih1, ih2⟩ := ih h0 h1 e1
    simp only [run, Option.bind_eq_some_iff] at e2
    obtain ⟨r, h2, r', h3, h4⟩ := e2
    injection h3 with h3; subst h3
    injection h4 with h4; injection h4 with h4 h5
    dsimp only at h4
    subst h4
    have old : ∀ v ∈ s1.hist, ∃ as1 as2 s2 tr2, as ++ [a] = as1 ++ as2 ∧ run M s0 as1 = some (s2, tr2) ∧ s2.left = v := by
      intro v hv
      obtain ⟨as1, as2, s2, tr2, f1, f2, f3⟩ := ih1 v hv
      exact ⟨as1, as2 ++ [a], s2, tr2, by rw [f1, List.append_assoc], f2, f3⟩
    have new : ∀ v, r.1.left = v → ∃ as1 as2 s2 tr2, as ++ [a] = as1 ++ as2 ∧ run M s0 as1 = some (s2, tr2) ∧ s2.left = v :=
      fun v hv => ⟨as ++ [a], [], r.1, tr, by simp, hfull, hv⟩
    have keep : ∀ {pcs : List PC} {i : Nat} {x y : PC}, s1.pcs[i]? = some x → pcs = s1.pcs.set i y →
        (∀ b v, y ≠ .loaded b v) → ∀ (j : Nat) b v, pcs[j]? = some (.loaded b v) → v ∈ s1.hist := by
      intro pcs i x y hx hp hy j b v hj
      subst hp
      rcases getElem?_set' hx hj with ⟨rfl, he⟩ | ⟨_, hj⟩
      · exact absurd he.symm (hy b v)
      · exact ih2 j b v hj
    have keep2 : ∀ {pcs : List PC} {i : Nat} {x : PC} {b' v'}, s1.pcs[i]? = some x → pcs = s1.pcs.set i (.loaded b' v') →
        v' ∈ s1.hist → ∀ (j : Nat) b v, pcs[j]? = some (.loaded b v) → v ∈ s1.hist := by
      intro pcs i x b' v' hx hp hv j b v hj
      subst hp
      rcases getElem?_set' hx hj with ⟨rfl, he⟩ | ⟨_, hj⟩
      · injection he with _ he; subst he; exact hv
      · exact ih2 j b v hj
    clear ih hfull ih1 h5 e3 e1
    cases a with
    | alloc i b v =>
      simp only [step] at h2
      split at h2
      · rename_i hp
        split at h2
        · rename_i hv
          injection h2 with h2; subst h2
          exact ⟨old, keep2 hp rfl hv⟩
        · cases h2
      · cases h2
    | test i =>
      simp only [step] at h2
      split at h2
      · rename_i hp
        split at h2 <;> injection h2 with h2 <;> subst h2
        · exact ⟨old, keep hp rfl (by simp)⟩
        · exact ⟨old, keep hp rfl (by simp)⟩
      · cases h2
    | cas i sp v =>
      simp only [step] at h2
      split at h2
      · rename_i hp
        split at h2
        · injection h2 with h2; subst h2
          refine ⟨?_, fun j b v hj => by simp; exact .inl (keep hp rfl (by simp) j b v hj)⟩
          intro v hv
          simp at hv
          rcases hv with hv | hv
          · exact old v hv
          · exact new v hv.symm
        · split at h2
          · rename_i hv
            injection h2 with h2; subst h2
            exact ⟨old, keep2 hp rfl hv⟩
          · cases h2
      · cases h2
    | upAlloc i ok =>
      simp only [step] at h2
      split at h2
      · rename_i hp
        split at h2
        · split at h2
          · injection h2 with h2; subst h2; exact ⟨old, keep hp rfl (by simp)⟩
          · cases h2
        · injection h2 with h2; subst h2; exact ⟨old, keep hp rfl (by simp)⟩
      · cases h2
    | refund i =>
      simp only [step] at h2
      split at h2
      · rename_i hp
        injection h2 with h2; subst h2
        refine ⟨?_, fun j b v hj => by simp; exact .inl (keep hp rfl (by simp) j b v hj)⟩
        intro v hv
        simp at hv
        rcases hv with hv | hv
        · exact old v hv
        · exact new v hv.symm
      · cases h2
    | dealloc i k =>
      simp only [step] at h2
      split at h2
      · rename_i hp hk
        injection h2 with h2; subst h2; exact ⟨old, keep hp rfl (by simp)⟩
      · cases h2
    | upFree i =>
      simp only [step] at h2
      split at h2
      · rename_i hp
        injection h2 with h2; subst h2; exact ⟨old, keep hp rfl (by simp)⟩
      · cases h2
    | giveBack i =>
      simp only [step] at h2
      split at h2
      · rename_i hp
        injection h2 with h2; subst h2
        refine ⟨?_, fun j b v hj => by simp; exact .inl (keep hp rfl (by simp) j b v hj)⟩
        intro v hv
        simp at hv
        rcases hv with hv | hv
        · exact old v hv
        · exact new v hv.symm
      · cases h2

/-- **C13 (concurrent).** If a call is refused then at some instant of the execution the budget left was smaller than what
the call charges. -/
theorem limit_refusal_justified {M limit k : Nat} {as : List Act} {s : St} {tr : List Ev} {i : Nat} {b : Block}
    {a : Act} {s' : St} {es : List Ev} (h : run M (init limit k) as = some (s, tr)) (h2 : step M s a = some (s', es))
    (he : Ev.refused i b ∈ es) :
    ∃ as1 as2 s1 tr1, as = as1 ++ as2 ∧ run M (init limit k) as1 = some (s1, tr1) ∧ s1.left < (b.n * b.sz) % M := by
  have hs := hist_seen (s0 := init limit k) as rfl (by intro i b v h; simp [init, List.getElem?_replicate] at h) h
  cases a with
  | test j =>
    simp only [step] at h2
    split at h2
    · rename_i b' old hp
      split at h2
      · rename_i hlt
        injection h2 with h2; injection h2 with h2 h3; subst h3
        simp at he
        obtain ⟨_, rfl⟩ := he
        obtain ⟨as1, as2, s1, tr1, e1, e2, e3⟩ := hs.1 old (hs.2 j b old hp)
        exact ⟨as1, as2, s1, tr1, e1, e2, by rw [e3]; exact hlt⟩
      · injection h2 with h2; injection h2 with h2 h3; subst h3; simp at he
    · cases h2
  | alloc j b' v =>
    simp only [step] at h2
    (repeat' split at h2) <;> first | (cases h2; done) | (injection h2 with h2; injection h2 with h2 h3; subst h3; simp at he)
  | cas j sp v =>
    simp only [step] at h2
    (repeat' split at h2) <;> first | (cases h2; done) | (injection h2 with h2; injection h2 with h2 h3; subst h3; simp at he)
  | upAlloc j ok =>
    simp only [step] at h2
    (repeat' split at h2) <;> first | (cases h2; done) | (injection h2 with h2; injection h2 with h2 h3; subst h3; simp at he)
  | refund j =>
    simp only [step] at h2
    (repeat' split at h2) <;> first | (cases h2; done) | (injection h2 with h2; injection h2 with h2 h3; subst h3; simp at he)
  | dealloc j k =>
    simp only [step] at h2
    (repeat' split at h2) <;> first | (cases h2; done) | (injection h2 with h2; injection h2 with h2 h3; subst h3; simp at he)
  | upFree j =>
    simp only [step] at h2
    (repeat' split at h2) <;> first | (cases h2; done) | (injection h2 with h2; injection h2 with h2 h3; subst h3; simp at he)
  | giveBack j =>
    simp only [step] at h2
    (repeat' split at h2) <;> first | (cases h2; done) | (injection h2 with h2; injection h2 with h2 h3; subst h3; simp at he)

/-- Thread 1 is refused because of a value it loads after the charge of thread 0. -/
example : ((run (2 ^ 64) (init 50 2) [.alloc 0 ⟨10, 4⟩ 50, .alloc 1 ⟨6, 8⟩ 50, .test 0, .test 1, .cas 0 false 0, .cas 1 false 10]).bind
    fun r => (step (2 ^ 64) r.1 (.test 1)).map (·.2)) = some [.refused 1 ⟨6, 8⟩] := by decide

/-- **C13 (sequential), for requests whose byte count is representable.** `allocate` is refused without calling the wrapped
allocator iff the request does not fit into the budget; if the wrapped allocator throws, the budget is unchanged; if
it succeeds exactly `n * sizeof(T)` bytes are charged, and `deallocate` restores the budget.

Missing from the full statement: requests with `n * sizeof(T) ≥ M`, see `limit_wrap_refuted`. -/
theorem limit_allocate_spec_partial {M left n sz : Nat} (hl : left < M) (hb : n * sz < M) (up : Bool) :
    let r := seqAllocate M left ⟨n, sz⟩ up
    (r.1 = .refused ↔ left < n * sz) ∧
    (r.2.2 = true ↔ n * sz ≤ left) ∧
    (r.1 ≠ .ok → r.2.1 = left) ∧
    (r.1 = .ok ↔ n * sz ≤ left ∧ up = true) ∧
    (r.1 = .ok → r.2.1 + n * sz = left ∧ seqDeallocate M r.2.1 ⟨n, sz⟩ = left) := by
  have hc : (Block.cost M ⟨n, sz⟩) = n * sz := Nat.mod_eq_of_lt hb
  simp only [seqAllocate, seqDeallocate, hc]
  by_cases h : left < n * sz
  · rw [if_pos h]; simp; omega
  · rw [if_neg h]
    have e : (left + M - n * sz) % M = left - n * sz := by
      have : left + M - n * sz = (left - n * sz) + M := by omega
      rw [this, Nat.add_mod_right, Nat.mod_eq_of_lt (by omega)]
    have e2 : (left - n * sz + n * sz) % M = left := by
      rw [Nat.sub_add_cancel (by omega), Nat.mod_eq_of_lt hl]
    cases up <;> simp only [e, e2] <;> simp <;> omega

example : seqAllocate (2 ^ 64) 100 ⟨10, 8⟩ true = (.ok, 20, true) ∧ seqAllocate (2 ^ 64) 100 ⟨13, 8⟩ true = (.refused, 100, false) ∧
    seqAllocate (2 ^ 64) 100 ⟨10, 8⟩ false = (.upstreamFailed, 100, true) := by decide

/-- **C13, refuted for large `n`.** `n * sizeof(T)` wraps around, so a request for more bytes than the budget - more than
any budget - passes the check and reaches the wrapped allocator. -/
theorem limit_wrap_refuted :
    ∃ left n sz : Nat, left < 2 ^ 64 ∧ n < 2 ^ 64 ∧ left < n * sz ∧
      (seqAllocate (2 ^ 64) left ⟨n, sz⟩ true).2.2 = true ∧ (seqAllocate (2 ^ 64) left ⟨n, sz⟩ true).1 ≠ .refused :=
  ⟨8, 2 ^ 61 + 1, 8, by decide, by decide, by decide, by decide, by decide⟩

/-- Whatever the byte count, a call that does not succeed leaves the budget as it was. -/
theorem limit_failure_free {M left : Nat} (hl : left < M) (b : Block) (up : Bool)
    (h : (seqAllocate M left b up).1 ≠ .ok) : (seqAllocate M left b up).2.1 = left := by
  have hc : b.cost M < M := cost_lt (by omega) b
  simp only [seqAllocate] at h ⊢
  split
  · rfl
  · rename_i hx
    rw [if_neg hx] at h
    cases up with
    | true => simp at h
    | false =>
      simp only [Bool.false_eq_true, if_false]
      have : left + M - b.cost M = (left - b.cost M) + M := by omega
      rw [this, Nat.add_mod_right, Nat.mod_eq_of_lt (a := left - b.cost M) (by omega),
        Nat.sub_add_cancel (by omega), Nat.mod_eq_of_lt hl]

example : (seqAllocate (2 ^ 64) 100 ⟨2 ^ 61 + 1, 8⟩ false).1 ≠ .ok := by decide

/-- **C13.** A synchronised `allocate` that no other thread interferes with (its loads are up to date and the
compare-exchange does not fail spuriously) finishes and behaves exactly like the sequential one. -/
theorem limit_solo {M : Nat} {s : St} {i : Nat} {b : Block} (up : Bool) (hi : s.pcs[i]? = some .idle)
    (hc : s.left ∈ s.hist) (hb : b.bytes < M) :
    ∃ as s' tr, run M s as = some (s', tr) ∧ as.length ≤ 5 ∧ s'.pcs = s.pcs ∧
      s'.left = (seqAllocate M s.left b up).2.1 ∧
      ((Ev.ok i b ∈ tr) ↔ (seqAllocate M s.left b up).1 = .ok) ∧
      ((Ev.refused i b ∈ tr) ↔ (seqAllocate M s.left b up).1 = .refused) ∧
      ((∃ o, Ev.upstream i b o ∈ tr) ↔ (seqAllocate M s.left b up).2.2 = true) := by
  have hlt := lt_of_getElem? hi
  have hset : s.pcs.set i .idle = s.pcs := by
    apply List.ext_getElem?
    intro j
    rw [List.getElem?_set]
    split
    · subst_vars; simp [hlt, hi] at *; exact hi.symm
    · rfl
  have hget : ∀ x, (s.pcs.set i x)[i]? = some x := fun x => List.getElem?_set_self hlt
  clear hlt
  simp only [seqAllocate]
  by_cases h : s.left < b.cost M
  · refine ⟨[.alloc i b s.left, .test i], ?_⟩
    simp [run, step, hi, hc, hget, List.set_set, h, hset]
  · cases up with
    | true =>
      refine ⟨[.alloc i b s.left, .test i, .cas i false 0, .upAlloc i true], ?_⟩
      simp [run, step, hi, hc, hget, List.set_set, h, hb, hset]
    | false =>
      refine ⟨[.alloc i b s.left, .test i, .cas i false 0, .upAlloc i false, .refund i], ?_⟩
      simp [run, step, hi, hc, hget, List.set_set, h, hset]

example : (init 100 3).pcs[1]? = some .idle ∧ (init 100 3).left ∈ (init 100 3).hist ∧ (⟨10, 8⟩ : Block).bytes < 2 ^ 64 := by
  decide

end Verif.Limit
