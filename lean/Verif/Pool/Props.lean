import Verif.Pool.Lemmas

/-! Properties C14, C15 and C58 (for `pool_allocator`). -/
namespace Verif.Pool

open Verif.Channel (lt_of_getElem? getElem?_set')

/-! ### C14 -/

/-- **C14.** With sorted bucket sizes a request of `n` bytes is served by bucket `i` only if it fits and no fitting bucket
is smaller. -/
theorem pool_smallest_bucket {bs : List Nat} (hs : bs.Pairwise (· ≤ ·)) {n i : Nat}
    (h : allocFrom 0 bs n = .bucket i) :
    ∃ c, bs[i]? = some c ∧ n ≤ c ∧ ∀ c' ∈ bs, n ≤ c' → c ≤ c' := by
  have hsp := allocFrom_spec bs 0 n
  rw [h] at hsp
  obtain ⟨i', c, e1, e2, e3, e4⟩ := hsp
  have : i' = i := by omega
  subst this
  refine ⟨c, e2, e3, fun c' hc' hn => ?_⟩
  obtain ⟨j, hj⟩ := List.mem_iff_getElem?.1 hc'
  rcases Nat.lt_trichotomy j i' with hlt | rfl | hlt
  · have := e4 j c' hlt hj; omega
  · rw [e2] at hj; injection hj with hj; omega
  · rw [List.pairwise_iff_getElem] at hs
    have h1 := lt_of_getElem? e2
    have h2 := lt_of_getElem? hj
    have := hs i' j h1 h2 hlt
    rw [List.getElem?_eq_getElem h1] at e2; injection e2 with e2
    rw [List.getElem?_eq_getElem h2] at hj; injection hj with hj
    omega

example : [8, 16, 16, 64].Pairwise (· ≤ ·) ∧ allocFrom 0 [8, 16, 16, 64] 9 = .bucket 1 := by decide

/-- **C14.** A request goes to the heap iff it exceeds every bucket. -/
theorem pool_heap_iff {bs : List Nat} {n : Nat} : allocFrom 0 bs n = .heap ↔ ∀ c ∈ bs, c < n := by
  have hsp := allocFrom_spec bs 0 n
  constructor
  · intro h; rw [h] at hsp; exact hsp
  · intro h
    cases hw : allocFrom 0 bs n with
    | heap => rfl
    | bucket i =>
      rw [hw] at hsp
      obtain ⟨i', c, _, e2, e3, _⟩ := hsp
      have := h c (List.mem_of_getElem? e2)
      omega

example : allocFrom 0 [8, 16, 16, 64] 65 = .heap ∧ allocFrom 0 [8, 16, 16, 64] 64 = .bucket 3 := by decide

/-- **C14.** `deallocate` with the same size goes to the source the block came from. -/
theorem pool_free_same_source (bs : List Nat) (n : Nat) : freeTo 0 bs n = allocFrom 0 bs n := freeTo_eq 0 bs n

example : [8, 16, 16, 64].Pairwise (· ≤ ·) ∧ allocFrom 0 [8, 16, 16, 64] 9 = .bucket 1 ∧
    allocFrom 0 [8, 16, 16, 64] 65 = .heap ∧ allocFrom 0 [8, 16, 16, 64] 0 = .bucket 0 := by decide

/-! ### C15 -/

/-- **C15.** In no history is a block handed to a pool or to the heap that did not issue it (or handed back twice). -/
theorem pool_frees_legal {M : Nat} {bs : List Nat} {s : St} (hr : Reachable M bs s) (o : Op) :
    step M bs s o ≠ some (.error .illegalFree) := by
  have hi := inv_reach hr
  intro h
  cases o with
  | dealloc hd k =>
    simp only [step] at h
    split at h
    · rename_i p b hp hb
      split at h
      · rename_i hpb
        split at h
        · cases h
        · rename_i hf
          obtain ⟨h1, _, _, h4⟩ := hi.blk k b hb
          have hm := h4 (.inr (by rw [← hpb]; exact List.mem_of_getElem? hp))
          have := List.find?_eq_none.1 hf _ hm
          rw [freeTo_eq, hpb] at this
          simp [h1] at this
      · cases h
    · cases h
  | _ =>
    simp only [step] at h
    (repeat' split at h) <;> cases h

/-- A block is freed through another handle of its pool. -/
example : Reachable (2 ^ 64) [8, 16] ⟨1, [some (some 0), some (some 0)], [⟨.bucket 0 0, 1000, 8⟩], [some ⟨0, 2, 4, ⟨.bucket 0 0, 1000, 8⟩⟩]⟩ ∧
    step (2 ^ 64) [8, 16] ⟨1, [some (some 0), some (some 0)], [⟨.bucket 0 0, 1000, 8⟩], [some ⟨0, 2, 4, ⟨.bucket 0 0, 1000, 8⟩⟩]⟩ (.dealloc 1 0) =
      some (.ok ⟨1, [some (some 0), some (some 0)], [], [none]⟩) :=
  ⟨⟨[.make, .copy 0, .alloc 0 2 4 1000 8], rfl⟩, rfl⟩

/-- **C15.** The deallocation of a block through an allocator equal to the one it came from succeeds and returns
precisely that block to its source; all others stay. -/
theorem pool_free_exact {M : Nat} {bs : List Nat} {s : St} (hr : Reachable M bs s) {h k : Nat} {b : Blk}
    (hh : s.handles[h]? = some (some (some b.pool))) (hb : s.blocks[k]? = some (some b)) :
    ∃ s', step M bs s (.dealloc h k) = some (.ok s') ∧ s'.blocks = s.blocks.set k none ∧ s'.handles = s.handles ∧
      b.entry ∈ s.issued ∧ ∀ e, e ∈ s'.issued ↔ e ∈ s.issued ∧ e ≠ b.entry := by
  have hi := inv_reach hr
  cases hst : step M bs s (.dealloc h k) with
  | none =>
    simp only [step, hh, hb, if_true] at hst
    split at hst <;> cases hst
  | some r =>
    cases r with
    | error e =>
      simp only [step, hh, hb, if_true] at hst
      split at hst
      · cases hst
      · rename_i hf
        have := pool_frees_legal hr (.dealloc h k)
        simp only [step, hh, hb, if_true, hf] at this
        exact absurd rfl this
    | ok s' =>
      refine ⟨s', rfl, ?_⟩
      simp only [step, hh, hb, if_true] at hst
      split at hst
      · rename_i e hf
        injection hst with hst; injection hst with hst; subst hst
        obtain ⟨h1, _, _, h4⟩ := hi.blk k b hb
        have hbi := h4 (.inr (List.mem_of_getElem? hh))
        have hfm := List.mem_of_find?_eq_some hf
        have hfp := List.find?_some hf
        simp only [decide_eq_true_eq] at hfp
        have hee : e = b.entry := by
          apply Classical.byContradiction
          intro hne
          have hd1 := pairwise_ne hi.disj hfm hbi hne
          have c1 := hi.pos _ hfm
          have c2 := hi.pos _ hbi
          rcases hd1 with hd1 | hd1 <;> omega
        subst hee
        refine ⟨rfl, rfl, hbi, fun x => ?_⟩
        have hnd : s.issued.Nodup := by
          apply List.Pairwise.imp_of_mem _ hi.disj
          intro a c ha hc hac
          exact disj_ne hac (hi.pos c hc)
        rw [hnd.mem_erase_iff]
        exact And.comm
      · cases hst

example : let s : St := ⟨1, [some (some 0)], [⟨.bucket 0 0, 1000, 8⟩, ⟨.heap, 3000, 400⟩],
      [some ⟨0, 2, 4, ⟨.bucket 0 0, 1000, 8⟩⟩, some ⟨0, 100, 4, ⟨.heap, 3000, 400⟩⟩]⟩
    Reachable (2 ^ 64) [8, 16] s ∧ s.handles[0]? = some (some (some 0)) ∧ s.blocks[1]? = some (some ⟨0, 100, 4, ⟨.heap, 3000, 400⟩⟩) :=
  ⟨⟨[.make, .alloc 0 2 4 1000 8, .alloc 0 100 4 3000 400], rfl⟩, rfl, rfl⟩

/-- **C15.** Blocks in use do not overlap: two different live blocks whose allocators' pools still exist occupy disjoint
addresses. -/
theorem pool_blocks_disjoint {M : Nat} {bs : List Nat} {s : St} (hr : Reachable M bs s) {k k' : Nat} {b b' : Blk}
    (hb : s.blocks[k]? = some (some b)) (hb' : s.blocks[k']? = some (some b')) (hne : k ≠ k')
    (hp : some (some b.pool) ∈ s.handles) (hp' : some (some b'.pool) ∈ s.handles) :
    b.entry.addr + b.entry.cap ≤ b'.entry.addr ∨ b'.entry.addr + b'.entry.cap ≤ b.entry.addr := by
  have hi := inv_reach hr
  apply pairwise_ne hi.disj ((hi.blk k b hb).2.2.2 (.inr hp)) ((hi.blk k' b' hb').2.2.2 (.inr hp'))
  intro he
  exact hne (hi.inj k k' b b' hb hb' (.inr hp) (.inr hp') he)

/-- Two blocks of the same bucket. -/
example : let s : St := ⟨1, [some (some 0)], [⟨.bucket 0 0, 1000, 8⟩, ⟨.bucket 0 0, 1008, 8⟩],
      [some ⟨0, 2, 4, ⟨.bucket 0 0, 1000, 8⟩⟩, some ⟨0, 1, 4, ⟨.bucket 0 0, 1008, 8⟩⟩]⟩
    Reachable (2 ^ 64) [8, 16] s ∧ some (some 0) ∈ s.handles :=
  ⟨⟨[.make, .alloc 0 2 4 1000 8, .alloc 0 1 4 1008 8], rfl⟩, by simp⟩

/-- **C15.** As long as some allocator refers to the pool of a live block, through whatever copies, assignments and swaps
and whichever other allocators were destroyed, the block is still outstanding at its source. -/
theorem pool_block_persists {M : Nat} {bs : List Nat} {s : St} (hr : Reachable M bs s) {k : Nat} {b : Blk}
    (hb : s.blocks[k]? = some (some b)) (hp : some (some b.pool) ∈ s.handles) : b.entry ∈ s.issued :=
  ((inv_reach hr).blk k b hb).2.2.2 (.inr hp)

example : let s : St := ⟨1, [none, some (some 0)], [⟨.bucket 0 0, 1000, 8⟩], [some ⟨0, 2, 4, ⟨.bucket 0 0, 1000, 8⟩⟩]⟩
    Reachable (2 ^ 64) [8, 16] s ∧ some (some 0) ∈ s.handles :=
  ⟨⟨[.make, .copy 0, .alloc 0 2 4 1000 8, .destroy 0], rfl⟩, by simp⟩

/-- **C15, for requests whose byte count is representable.** Every block has room for the `cnt` objects it was allocated
for. Missing from the full statement: `cnt * sz ≥ M`, see `pool_block_too_small_refuted`. -/
theorem pool_block_large_enough_partial {M : Nat} {bs : List Nat} {s : St} (hr : Reachable M bs s) {k : Nat} {b : Blk}
    (hb : s.blocks[k]? = some (some b)) (hM : b.cnt * b.sz < M) : b.cnt * b.sz ≤ b.entry.cap := by
  have := ((inv_reach hr).blk k b hb).2.1
  rw [Nat.mul_comm, Nat.mod_eq_of_lt hM] at this
  exact this

example : Reachable (2 ^ 64) [8, 16] ⟨1, [some (some 0)], [⟨.bucket 0 1, 1000, 16⟩], [some ⟨0, 3, 4, ⟨.bucket 0 1, 1000, 16⟩⟩]⟩ ∧
    3 * 4 < 2 ^ 64 := ⟨⟨[.make, .alloc 0 3 4 1000 16], rfl⟩, by decide⟩

/-- **C15.** Nothing is leaked: once all blocks were given back, no source has anything outstanding. -/
theorem pool_no_leak {M : Nat} {bs : List Nat} {s : St} (hr : Reachable M bs s) (h : ∀ x ∈ s.blocks, x = none) :
    s.issued = [] := by
  have hi := inv_reach hr
  cases he : s.issued with
  | nil => rfl
  | cons e l =>
    obtain ⟨k, b, hb, _⟩ := hi.held e (by rw [he]; simp)
    have := h _ (List.mem_of_getElem? hb)
    cases this

example : Reachable (2 ^ 64) [8, 16] ⟨1, [some (some 0)], [], [none, none]⟩ :=
  ⟨[.make, .alloc 0 3 4 1000 16, .alloc 0 100 4 3000 400, .dealloc 0 0, .dealloc 0 1], rfl⟩

/-- A history with two pools' worth of blocks in different buckets and the heap, used by the theorems above. -/
def demo : List Op :=
  [.make, .copy 0, .alloc 0 2 4 1000 8, .alloc 1 3 4 2000 16, .alloc 1 100 4 3000 400, .destroy 0, .dealloc 1 1]

example : Reachable (2 ^ 64) [8, 16]
    ⟨1, [none, some (some 0)], [⟨.bucket 0 0, 1000, 8⟩, ⟨.heap, 3000, 400⟩],
      [some ⟨0, 2, 4, ⟨.bucket 0 0, 1000, 8⟩⟩, none, some ⟨0, 100, 4, ⟨.heap, 3000, 400⟩⟩]⟩ := ⟨demo, rfl⟩

/-- **C15, refuted for large `n`.** `sizeof(T) * n` wraps around: `allocate(2^61 + 1)` of 8-byte objects returns a block of
8 bytes instead of throwing. -/
theorem pool_block_too_small_refuted :
    ∃ (s : St) (k : Nat) (b : Blk), Reachable (2 ^ 64) [8, 16] s ∧ s.blocks[k]? = some (some b) ∧
      b.entry.cap < b.cnt * b.sz :=
  ⟨⟨1, [some (some 0)], [⟨.bucket 0 0, 1000, 8⟩], [some ⟨0, 2 ^ 61 + 1, 8, ⟨.bucket 0 0, 1000, 8⟩⟩]⟩, 0, _,
    ⟨[.make, .alloc 0 (2 ^ 61 + 1) 8 1000 8], rfl⟩, rfl, by decide⟩

/-! ### C58 -/

/-- **C58, refuted.** Move construction of an allocator must leave the source unchanged ([allocator.requirements]), e.g. a
moved-from container may be used again. Here the source loses its pool: the next allocation through it
dereferences a null pointer. -/
theorem pool_move_keeps_source_refuted :
    ∃ (s s' : St) (h : Nat), Reachable (2 ^ 64) [8, 16] s ∧ s.handles[h]? = some (some (some 0)) ∧
      step (2 ^ 64) [8, 16] s (.move h) = some (.ok s') ∧
      ∀ cnt sz addr cap, step (2 ^ 64) [8, 16] s' (.alloc h cnt sz addr cap) = some (.error .nullPool) :=
  ⟨⟨1, [some (some 0)], [], []⟩, _, 0, ⟨[.make], rfl⟩, rfl, rfl, fun _ _ _ _ => rfl⟩

/-- **C58, what holds.** A null pool arises only by moving: an allocator that is alive, in a history without moves, refers
to a pool, so no operation dereferences null. -/
theorem pool_no_null_partial {M : Nat} {bs : List Nat} {os : List Op} {s : St} (h : run M bs init os = some (.ok s))
    (hm : ∀ o ∈ os, (∀ x, o ≠ .move x) ∧ ∀ d x, o ≠ .moveAssign d x) (o : Op) :
    step M bs s o ≠ some (.error .nullPool) := by
  have key : ∀ {os : List Op} {s0 s : St}, (some none ∉ s0.handles) → run M bs s0 os = some (.ok s) →
      (∀ o ∈ os, (∀ x, o ≠ .move x) ∧ ∀ d x, o ≠ .moveAssign d x) → some none ∉ s.handles := by
    intro os
    induction os with
    | nil => intro s0 s h0 h _; simp [run] at h; subst h; exact h0
    | cons a os ih =>
      intro s0 s h0 h hm
      simp only [run] at h
      split at h
      · rename_i s1 h1
        refine ih ?_ h (fun o ho => hm o (List.mem_cons_of_mem _ ho))
        have hma := hm a (List.mem_cons_self ..)
        clear ih h hm
        cases a with
        | move x => exact absurd rfl (hma.1 x)
        | moveAssign d x => exact absurd rfl (hma.2 d x)
        | make =>
          simp only [step] at h1; injection h1 with h1; injection h1 with h1; subst h1
          simp [h0]
        | copy x =>
          simp only [step] at h1
          split at h1
          · rename_i p hp
            injection h1 with h1; injection h1 with h1; subst h1
            have := List.mem_of_getElem? hp
            simp only [List.mem_append, List.mem_singleton]
            rintro (hx | hx)
            · exact h0 hx
            · rw [← hx] at this; exact h0 this
          · cases h1
        | copyAssign d x =>
          simp only [step] at h1
          split at h1
          · rename_i p _ hp
            injection h1 with h1; injection h1 with h1; subst h1
            have := List.mem_of_getElem? hp
            intro hx
            rcases mem_set_of hx with hx | hx
            · rw [← hx] at this; exact h0 this
            · exact h0 hx
          · cases h1
        | swap a b =>
          simp only [step] at h1
          split at h1
          · rename_i p q ha hb
            injection h1 with h1; injection h1 with h1; subst h1
            have ha := List.mem_of_getElem? ha
            have hb := List.mem_of_getElem? hb
            intro hx
            rcases mem_set_of hx with hx | hx
            · rw [← hx] at ha; exact h0 ha
            · rcases mem_set_of hx with hx | hx
              · rw [← hx] at hb; exact h0 hb
              · exact h0 hx
          · cases h1
        | destroy x =>
          simp only [step] at h1
          split at h1
          · injection h1 with h1; injection h1 with h1; subst h1
            intro hx
            rcases mem_set_of hx with hx | hx
            · cases hx
            · exact h0 hx
          · cases h1
        | alloc x cnt sz addr cap =>
          simp only [step] at h1
          split at h1
          · cases h1
          · split at h1
            · injection h1 with h1; injection h1 with h1; subst h1; exact h0
            · cases h1
          · cases h1
        | allocFails x cnt sz =>
          simp only [step] at h1
          split at h1
          · cases h1
          · injection h1 with h1; injection h1 with h1; subst h1; exact h0
          · cases h1
        | dealloc x k =>
          simp only [step] at h1
          split at h1
          · split at h1
            · split at h1
              · injection h1 with h1; injection h1 with h1; subst h1; exact h0
              · cases h1
            · cases h1
          · cases h1
      · rename_i hx
        exact absurd h (hx s)
  have hn := key (by simp [init]) h hm
  intro hc
  cases o with
  | alloc x cnt sz addr cap =>
    simp only [step] at hc
    split at hc
    · rename_i hp; exact hn (List.mem_of_getElem? hp)
    · split at hc <;> cases hc
    · cases hc
  | allocFails x cnt sz =>
    simp only [step] at hc
    split at hc
    · rename_i hp; exact hn (List.mem_of_getElem? hp)
    · cases hc
    · cases hc
  | _ =>
    simp only [step] at hc
    (repeat' split at hc) <;> cases hc

example : ∀ o ∈ demo, (∀ x, o ≠ Op.move x) ∧ ∀ d x, o ≠ Op.moveAssign d x := by
  intro o h; simp [demo] at h; rcases h with rfl | rfl | rfl | rfl | rfl | rfl | rfl <;> simp

end Verif.Pool
