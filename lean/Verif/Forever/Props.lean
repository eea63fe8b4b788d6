import Verif.Forever.Tables

/-!
C119: a thread that calls `lock` or `lock_shared` gets the mutex, and every block with guards comes to its end, under a fair
scheduler, in programs that run for ever, if all threads lock in the same order and readers leave writers a gap.
-/
namespace Verif.Forever

open Verif.Critical (Cmd Thr Held exec1 wellScoped ordered Act Base Eff names kinds upd_eq upd_ne)
open Verif.Pipeline (upd)
open Verif.Guards (Kind Owns)

variable {α : Type} {p : Plan α}

/-! ### The theorems -/

/-- **C119**: `lock` returns. Under a fair scheduler, in a program whose threads lock in the same order, and if readers do not take
turns without a gap, a thread that is at a call of `lock` gets an exclusive guard of the mutex eventually; it has kept the guards it
had. -/
theorem lock_returns [Nonempty α] (e : Exec p) (hf : e.Fair) (hs : p.Scoped) (ho : p.Ordered) (hp : e.ReadersPause) {n i m : Nat}
    {c : List (Cmd α)} (h : (e.thr n i).now = .lock m :: c) :
    ∃ k, n ≤ k ∧ e.act k = some (.run i) ∧ (e.thr (k + 1) i).now = c ∧
      ∃ g, (e.thr (k + 1) i).held = ⟨.excl, m, g⟩ :: (e.thr n i).held := by
  obtain ⟨k, h1, h2, h3⟩ := e.next_exists hf hs ho hp.pauses (n := n) (i := i) (by rw [h]; simp)
  obtain ⟨C, C', he, _⟩ := e.thr_run hs h2
  refine ⟨k, h1, h2, ?_⟩
  rw [← h3] at h ⊢
  simp only [Exec.thr] at h he ⊢
  generalize (e.st (k + 1)).sys.thr i = t at he ⊢
  cases he with
  | lock m' c' g h' _ => rw [h] at h'; injection h' with a b; injection a with a; subst a b; exact ⟨rfl, g, rfl⟩
  | lockShared m' c' g h' _ => rw [h] at h'; injection h' with a b; cases a
  | read d c x h' _ => rw [h] at h'; injection h' with a b; cases a
  | write d f c x h' _ _ => rw [h] at h'; injection h' with a b; cases a
  | drop c y hs h' hy => rw [h] at h'; injection h' with a b; cases a

example : ∃ e : Exec pairPlan, ∀ N, ∃ n k, N ≤ n ∧ n ≤ k ∧ ¬ Ready pairPlan (e.st n) 1 ∧ e.act k = some (.run 1) ∧
    ∃ g, (e.thr (k + 1) 1).held = ⟨.excl, 0, g⟩ :: (e.thr n 1).held := by
  obtain ⟨e, hf, hp, _, hs, ho, _, hw⟩ := pair_exec
  refine ⟨e, fun N => ?_⟩
  obtain ⟨n, hn, h, hr⟩ := hw N
  obtain ⟨k, hk, h1, _, h2⟩ := lock_returns e hf hs ho hp h
  exact ⟨n, k, hn, hk, hr, h1, h2⟩

/-- **C119**: `lock_shared` returns, under the same hypotheses. -/
theorem lock_shared_returns [Nonempty α] (e : Exec p) (hf : e.Fair) (hs : p.Scoped) (ho : p.Ordered) (hp : e.ReadersPause) {n i m : Nat}
    {c : List (Cmd α)} (h : (e.thr n i).now = .lockShared m :: c) :
    ∃ k, n ≤ k ∧ e.act k = some (.run i) ∧ (e.thr (k + 1) i).now = c ∧
      ∃ g, (e.thr (k + 1) i).held = ⟨.shrd, m, g⟩ :: (e.thr n i).held := by
  obtain ⟨k, h1, h2, h3⟩ := e.next_exists hf hs ho hp.pauses (n := n) (i := i) (by rw [h]; simp)
  obtain ⟨C, C', he, _⟩ := e.thr_run hs h2
  refine ⟨k, h1, h2, ?_⟩
  rw [← h3] at h ⊢
  simp only [Exec.thr] at h he ⊢
  generalize (e.st (k + 1)).sys.thr i = t at he ⊢
  cases he with
  | lock m' c' g h' _ => rw [h] at h'; injection h' with a b; cases a
  | lockShared m' c' g h' _ => rw [h] at h'; injection h' with a b; injection a with a; subst a b; exact ⟨rfl, g, rfl⟩
  | read d c x h' _ => rw [h] at h'; injection h' with a b; cases a
  | write d f c x h' _ _ => rw [h] at h'; injection h' with a b; cases a
  | drop c y hs h' hy => rw [h] at h'; injection h' with a b; cases a

example : ∃ e : Exec pairPlan, ∃ n k, n ≤ k ∧ (e.thr n 0).now = [.lockShared 0, .drop] ∧
    ∃ g, (e.thr (k + 1) 0).held = ⟨.shrd, 0, g⟩ :: (e.thr n 0).held := by
  obtain ⟨e, hf, hp, _, hs, ho, h0, _⟩ := pair_exec
  obtain ⟨k, hk, _, _, h2⟩ := lock_shared_returns e hf hs ho hp h0
  exact ⟨e, 1, k, hk, h0, h2⟩

/-- **C119**: every block that a thread has begun comes to its end, and then the thread has no guard, under the same hypotheses. -/
theorem block_ends [Nonempty α] (e : Exec p) (hf : e.Fair) (hs : p.Scoped) (ho : p.Ordered) (hp : e.ReadersPause) (n i : Nat) :
    ∃ k, n ≤ k ∧ (e.thr k i).now = [] ∧ (e.thr k i).held = [] := by
  suffices ∀ len n, (e.thr n i).now.length = len → ∃ k, n ≤ k ∧ (e.thr k i).now = [] by
    obtain ⟨k, h1, h2⟩ := this _ n rfl
    obtain ⟨C, b⟩ := (e.inv hs k).base
    refine ⟨k, h1, h2, ?_⟩
    have hsc := b.scope i
    simp only [Exec.thr] at h2 ⊢
    rw [h2] at hsc
    simpa [wellScoped, kinds] using hsc
  intro len
  induction len with
  | zero => intro n hl; exact ⟨n, Nat.le_refl _, List.length_eq_zero_iff.1 hl⟩
  | succ len ih =>
    intro n hl
    obtain ⟨k, h1, h2, h3⟩ := e.next_exists hf hs ho hp.pauses (n := n) (i := i) (by intro h0; rw [h0] at hl; simp at hl)
    obtain ⟨C, C', he, _⟩ := e.thr_run hs h2
    rw [← h3] at hl
    obtain ⟨k', h4, h5⟩ := ih (k + 1) (by
      simp only [Exec.thr] at hl he ⊢
      generalize (e.st (k + 1)).sys.thr i = t at he ⊢
      cases he with
      | lock m c g h _ => rw [h] at hl; simpa using hl
      | lockShared m c g h _ => rw [h] at hl; simpa using hl
      | read d c x h _ => rw [h] at hl; simpa using hl
      | write d f c x h _ _ => rw [h] at hl; simpa using hl
      | drop c x hs h _ => rw [h] at hl; simpa using hl)
    exact ⟨k', by omega, h5⟩

example : ∃ e : Exec pairPlan, ∃ n k, n ≤ k ∧ (e.thr n 1).now = [.lock 0, .drop] ∧ (e.thr k 1).now = [] := by
  obtain ⟨e, hf, hp, _, hs, ho, _, hw⟩ := pair_exec
  obtain ⟨n, _, h, _⟩ := hw 0
  obtain ⟨k, hk, h1, _⟩ := block_ends e hf hs ho hp n 1
  exact ⟨e, n, k, hk, h, h1⟩

/-! ### When readers leave a gap -/

/-- A thread gets a shared guard only by a step of its own at `lock_shared`. -/
theorem Exec.new_shared [Nonempty α] (e : Exec p) (hs : p.Scoped) {n j m : Nat} (hno : ∀ c, e.act n = some (.run j) → (e.thr n j).now ≠ .lockShared m :: c)
    {x : Held} (hx : x ∈ (e.thr (n + 1) j).held) (hm : x.m = m) (hk : x.kind = .shrd) : x ∈ (e.thr n j).held := by
  by_cases hr : e.act n = some (.run j)
  · obtain ⟨C, C', he, _⟩ := e.thr_run hs hr
    have hno' := fun c => hno c hr
    simp only [Exec.thr] at he hx hno' ⊢
    generalize (e.st (n + 1)).sys.thr j = t at he hx
    cases he with
    | lock m' c' g h' _ =>
      rcases List.mem_cons.1 hx with rfl | hx
      · cases hk
      · exact hx
    | lockShared m' c' g h' _ =>
      rcases List.mem_cons.1 hx with rfl | hx
      · exact absurd h' (by simp only at hm; rw [hm]; exact hno' c')
      · exact hx
    | read d c x h' _ => exact hx
    | write d f c x h' _ _ => exact hx
    | drop c y hs h' hy => rw [hy]; exact List.mem_cons_of_mem _ hx
  · rcases e.ok n with ⟨_, h⟩ | ⟨a, ha, h⟩
    · simp only [Exec.thr, h] at hx ⊢; exact hx
    · cases a with
      | begin i =>
        simp only [step] at h
        split at h
        · split at h
          · injection h with h
            simp only [Exec.thr, ← h] at hx ⊢
            by_cases e' : j = i
            · subst e'; rw [upd_eq] at hx; exact hx
            · rw [upd_ne e'] at hx; exact hx
          · cases h
        · cases h
      | run i =>
        obtain ⟨_, _, _, hoth⟩ := e.thr_run hs ha
        rw [hoth j (fun e' => hr (by rw [ha, e']))] at hx
        exact hx

theorem Exec.held_thread [Nonempty α] (e : Exec p) (hs : p.Scoped) {n j : Nat} {x : Held} (hx : x ∈ (e.thr n j).held) : j < p.threads := by
  apply Nat.lt_of_not_le
  intro hle
  have h0 := (e.inv hs n).idle ((e.inv hs n).none j hle)
  simp only [Exec.thr] at hx
  rw [h0] at hx; cases hx

/-- **C119**: a `shared_mutex` that prefers writers leaves them a gap. -/
theorem writers_first_pause [Nonempty α] (e : Exec p) (hf : e.Fair) (hs : p.Scoped) (ho : p.Ordered) (hw : e.WritersFirst) : e.ReadersPause := by
  refine Exec.Pauses.readers hf hs ho ?_
  intro m i N hwait hups N'
  obtain ⟨N0, hN0⟩ := hw m i N hwait
  -- a thread without a shared guard of `m` gets none any more
  have keep : ∀ j n d, max N N0 ≤ n → (∀ x ∈ (e.thr n j).held, x.m = m → x.kind ≠ .shrd) → ∀ x ∈ (e.thr (n + d) j).held, x.m = m → x.kind ≠ .shrd := by
    intro j n d hn h
    induction d with
    | zero => exact h
    | succ d ih =>
      intro x hx hxm hxk
      exact ih x (e.new_shared hs (n := n + d) (fun c hr => hN0 (n + d) (by omega) j c hr) hx hxm hxk) hxm hxk
  have one : ∀ j n, max N N0 ≤ n → ∃ q, n ≤ q ∧ ∀ x ∈ (e.thr q j).held, x.m = m → x.kind ≠ .shrd := by
    intro j n hn
    by_cases h : ∃ x ∈ (e.thr n j).held, x.m = m
    · obtain ⟨x, hx, hxm⟩ := h
      obtain ⟨q, hq, h1, _⟩ := hups n (by omega) j x hx hxm
      refine ⟨q + 1, by omega, fun y hy hym _ => ?_⟩
      obtain ⟨C, b⟩ := (e.inv hs q).base
      have hnd := b.nodup j
      simp only [Exec.thr] at h1 hy
      rw [h1] at hnd
      simp only [names, List.map_cons, List.nodup_cons] at hnd
      exact hnd.1 (List.mem_map.2 ⟨y, hy, hym.trans hxm.symm⟩)
    · exact ⟨n, Nat.le_refl _, fun x hx hxm => absurd ⟨x, hx, hxm⟩ h⟩
  have all : ∀ t, ∃ q, max (max N N0) N' ≤ q ∧ ∀ j, j < t → ∀ x ∈ (e.thr q j).held, x.m = m → x.kind ≠ .shrd := by
    intro t
    induction t with
    | zero => exact ⟨_, Nat.le_refl _, fun j hj => by omega⟩
    | succ t ih =>
      obtain ⟨q, hq, h1⟩ := ih
      obtain ⟨q', hq', h2⟩ := one t q (by omega)
      refine ⟨q', by omega, fun j hj => ?_⟩
      by_cases e' : j = t
      · subst e'; exact h2
      · have := keep j q (q' - q) (by omega) (h1 j (by omega))
        rwa [show q + (q' - q) = q' by omega] at this
  obtain ⟨q, hq, h⟩ := all p.threads
  exact ⟨q, by omega, fun j x hx hxm => h j (e.held_thread hs hx) x hx hxm⟩

example : ∃ e : Exec pairPlan, e.Fair ∧ e.WritersFirst ∧ e.ReadersPause := by
  obtain ⟨e, hf, _, hw, hs, ho, _⟩ := pair_exec
  exact ⟨e, hf, hw, writers_first_pause e hf hs ho hw⟩

/-- Shared guards of a mutex are with the threads whose blocks say so. -/
theorem Exec.reader [Nonempty α] (e : Exec p) (hs : p.Scoped) :
    ∀ n i, (∀ m, Cmd.lockShared m ∈ (e.thr n i).now → ∃ k, Cmd.lockShared m ∈ p.work i k) ∧
      ∀ h ∈ (e.thr n i).held, h.kind = .shrd → ∃ k, Cmd.lockShared h.m ∈ p.work i k
  | 0, i => by simp [Exec.thr, e.start, Forever.start]
  | n + 1, i => by
    have ih := e.reader hs n
    rcases e.ok n with ⟨_, h⟩ | ⟨a, ha, h⟩
    · simp only [Exec.thr, h]; exact ih i
    · cases a with
      | begin j =>
        simp only [step] at h
        split at h
        · split at h
          · injection h with h
            by_cases e' : i = j
            · subst e'; simp only [Exec.thr, ← h, upd_eq]; exact ⟨fun m hm => ⟨_, hm⟩, (ih i).2⟩
            · simp only [Exec.thr, ← h, upd_ne e']; exact ih i
          · cases h
        · cases h
      | run j =>
        obtain ⟨C, C', he, hoth⟩ := e.thr_run hs ha
        by_cases e' : i = j
        · subst e'
          have ihi := ih i
          simp only [Exec.thr] at ihi he ⊢
          generalize (e.st (n + 1)).sys.thr i = t at he ⊢
          cases he with
          | lock m c g h _ =>
            rw [h] at ihi
            refine ⟨fun m hm => ihi.1 m (List.mem_cons_of_mem _ hm), fun y hy hk => ?_⟩
            rcases List.mem_cons.1 hy with rfl | hy
            · cases hk
            · exact ihi.2 y hy hk
          | lockShared m c g h _ =>
            rw [h] at ihi
            refine ⟨fun m hm => ihi.1 m (List.mem_cons_of_mem _ hm), fun y hy hk => ?_⟩
            rcases List.mem_cons.1 hy with rfl | hy
            · exact ihi.1 m List.mem_cons_self
            · exact ihi.2 y hy hk
          | read d c x h _ => rw [h] at ihi; exact ⟨fun m hm => ihi.1 m (List.mem_cons_of_mem _ hm), ihi.2⟩
          | write d f c x h _ _ => rw [h] at ihi; exact ⟨fun m hm => ihi.1 m (List.mem_cons_of_mem _ hm), ihi.2⟩
          | drop c x hs h hy =>
            rw [h] at ihi
            refine ⟨fun m hm => ihi.1 m (List.mem_cons_of_mem _ hm), fun y hy' => ihi.2 y ?_⟩
            rw [hy]; exact List.mem_cons_of_mem _ hy'
        · rw [hoth i e']; exact ih i

/-- **C119**: one reader per mutex always leaves a gap: whatever the blocks are, if no two threads use `lock_shared` of the same
mutex. -/
theorem one_reader_pause [Nonempty α] (e : Exec p) (hf : e.Fair) (hs : p.Scoped) (ho : p.Ordered) (h1 : p.OneReader) : e.ReadersPause := by
  refine Exec.Pauses.readers hf hs ho ?_
  intro m i N hwait hups N'
  by_cases h : ∃ j x, x ∈ (e.thr (max N N') j).held ∧ x.m = m ∧ x.kind = .shrd
  · obtain ⟨j, x, hx, hxm, hxk⟩ := h
    obtain ⟨q, hq, h2, _⟩ := hups _ (by omega) j x hx hxm
    refine ⟨q + 1, by omega, fun j' y hy hym hyk => ?_⟩
    obtain ⟨k, hk⟩ := (e.reader hs _ j).2 x hx hxk
    obtain ⟨k', hk'⟩ := (e.reader hs _ j').2 y hy hyk
    rw [hxm] at hk; rw [hym] at hk'
    have e' := h1 m j j' k k' hk hk'
    subst e'
    obtain ⟨C, b⟩ := (e.inv hs q).base
    have hnd := b.nodup j
    simp only [Exec.thr] at h2
    rw [h2] at hnd
    simp only [names, List.map_cons, List.nodup_cons] at hnd
    exact hnd.1 (List.mem_map.2 ⟨y, hy, hym.trans hxm.symm⟩)
  · exact ⟨max N N', by omega, fun j x hx hxm hxk => h ⟨j, x, hx, hxm, hxk⟩⟩

example : pairPlan.OneReader ∧ ∃ e : Exec pairPlan, e.ReadersPause := by
  obtain ⟨e, hf, _, _, hs, ho, _, _⟩ := pair_exec
  exact ⟨pair_one, e, one_reader_pause e hf hs ho pair_one⟩

/-- **C119**: with `mutex` only (no `lock_shared`) every call of `lock` returns under a fair scheduler, if all threads lock in the
same order. -/
theorem mutex_lock_returns [Nonempty α] (e : Exec p) (hf : e.Fair) (hs : p.Scoped) (ho : p.Ordered) (hx : p.Exclusive) {n i m : Nat}
    {c : List (Cmd α)} (h : (e.thr n i).now = .lock m :: c) :
    ∃ k, n ≤ k ∧ e.act k = some (.run i) ∧ (e.thr (k + 1) i).now = c ∧
      ∃ g, (e.thr (k + 1) i).held = ⟨.excl, m, g⟩ :: (e.thr n i).held :=
  lock_returns e hf hs ho (exclusive_pause e hs hx) h

/-- **C119**: with `mutex` only every block comes to its end. -/
theorem mutex_block_ends [Nonempty α] (e : Exec p) (hf : e.Fair) (hs : p.Scoped) (ho : p.Ordered) (hx : p.Exclusive) (n i : Nat) :
    ∃ k, n ≤ k ∧ (e.thr k i).now = [] ∧ (e.thr k i).held = [] :=
  block_ends e hf hs ho (exclusive_pause e hs hx) n i

example : ∃ e : Exec weakPlan, ∃ n k, n ≤ k ∧ (e.thr n 1).now = [.lock 0, .drop] ∧ (e.thr k 1).now = [] := by
  obtain ⟨e, hf, _, hs, ho, hx, hw⟩ := turns_exec
  obtain ⟨n, _, h, _⟩ := hw 0
  obtain ⟨k, hk, h1, _⟩ := mutex_block_ends e hf hs ho hx n 1
  exact ⟨e, n, k, hk, h, h1⟩

/-- **C119**: with a `shared_mutex` that prefers writers every call of `lock` returns under a fair scheduler, if all threads lock in
the same order. -/
theorem writers_first_lock_returns [Nonempty α] (e : Exec p) (hf : e.Fair) (hs : p.Scoped) (ho : p.Ordered) (hw : e.WritersFirst)
    {n i m : Nat} {c : List (Cmd α)} (h : (e.thr n i).now = .lock m :: c) :
    ∃ k, n ≤ k ∧ e.act k = some (.run i) ∧ (e.thr (k + 1) i).now = c ∧
      ∃ g, (e.thr (k + 1) i).held = ⟨.excl, m, g⟩ :: (e.thr n i).held :=
  lock_returns e hf hs ho (writers_first_pause e hf hs ho hw) h

example : ∃ e : Exec pairPlan, ∃ n k, n ≤ k ∧ (e.thr n 1).now = [.lock 0, .drop] ∧ e.act k = some (.run 1) := by
  obtain ⟨e, hf, _, hw', hs, ho, _, hw⟩ := pair_exec
  obtain ⟨n, _, h, _⟩ := hw 0
  obtain ⟨k, hk, h1, _⟩ := writers_first_lock_returns e hf hs ho hw' h
  exact ⟨e, n, k, hk, h, h1⟩

/-- **C119**: with one reader per mutex every call of `lock` returns under a fair scheduler, if all threads lock in the same order. -/
theorem one_reader_lock_returns [Nonempty α] (e : Exec p) (hf : e.Fair) (hs : p.Scoped) (ho : p.Ordered) (h1 : p.OneReader)
    {n i m : Nat} {c : List (Cmd α)} (h : (e.thr n i).now = .lock m :: c) :
    ∃ k, n ≤ k ∧ e.act k = some (.run i) ∧ (e.thr (k + 1) i).now = c ∧
      ∃ g, (e.thr (k + 1) i).held = ⟨.excl, m, g⟩ :: (e.thr n i).held :=
  lock_returns e hf hs ho (one_reader_pause e hf hs ho h1) h

example : ∃ e : Exec pairPlan, ∃ n k, n ≤ k ∧ (e.thr n 1).now = [.lock 0, .drop] ∧ e.act k = some (.run 1) := by
  obtain ⟨e, hf, _, _, hs, ho, _, hw⟩ := pair_exec
  obtain ⟨n, _, h, _⟩ := hw 0
  obtain ⟨k, hk, h1, _⟩ := one_reader_lock_returns e hf hs ho pair_one h
  exact ⟨e, n, k, hk, h, h1⟩

example : ∃ e : Exec weakPlan, ∃ n k, n ≤ k ∧ e.act k = some (.run 1) ∧ ¬ Ready weakPlan (e.st n) 1 ∧
    ∃ g, (e.thr (k + 1) 1).held = [⟨.excl, 0, g⟩] := by
  obtain ⟨e, hf, _, hs, ho, hx, hw⟩ := turns_exec
  obtain ⟨n, _, hn, hr⟩ := hw 0
  obtain ⟨k, hk, h1, _, g, hg⟩ := mutex_lock_returns e hf hs ho hx hn
  refine ⟨e, n, k, hk, h1, hr, g, ?_⟩
  have h0 : (e.thr n 1).held = [] := by
    obtain ⟨C, b⟩ := (e.inv hs n).base
    have hb := b.scope 1
    simp only [Exec.thr] at hn ⊢
    rw [hn] at hb
    cases hh : ((e.st n).sys.thr 1).held with
    | nil => rfl
    | cons x xs => rw [hh] at hb; cases xs <;> simp [wellScoped, kinds] at hb
  rw [hg, h0]

/-! ### Readers that take turns keep a writer out for ever -/

/-- Two readers and a writer of one value. -/
def starvePlan : Plan Nat := ⟨[0], 3, fun i _ => if i = 2 then [.lock 0, .drop] else [.lockShared 0, .drop]⟩

/-- The readers overlap: one takes a guard before the other gives up its guard. -/
def starveTab : Nat → Table Nat
  | 0 => [([], []), ([], []), ([], [])]
  | 1 => [([.lockShared 0, .drop], []), ([], []), ([], [])]
  | 2 => [([.drop], [(.shrd, 0)]), ([], []), ([], [])]
  | 3 => [([.drop], [(.shrd, 0)]), ([], []), ([.lock 0, .drop], [])]
  | 4 => [([.drop], [(.shrd, 0)]), ([.lockShared 0, .drop], []), ([.lock 0, .drop], [])]
  | 5 => [([.drop], [(.shrd, 0)]), ([.drop], [(.shrd, 0)]), ([.lock 0, .drop], [])]
  | 6 => [([], []), ([.drop], [(.shrd, 0)]), ([.lock 0, .drop], [])]
  | 7 => [([.lockShared 0, .drop], []), ([.drop], [(.shrd, 0)]), ([.lock 0, .drop], [])]
  | _ => [([.drop], [(.shrd, 0)]), ([.drop], [(.shrd, 0)]), ([.lock 0, .drop], [])]

/-- The steps between the states of `starveTab`. -/
def starveAct : Nat → Act
  | 0 => .begin 0 | 1 => .run 0 | 2 => .begin 2 | 3 => .begin 1 | 4 => .run 1 | 5 => .run 0 | 6 => .begin 0 | 7 => .run 0 | _ => .run 1

/-- Three states to begin with, then six for ever. -/
def starvePhase (n : Nat) : Nat := if n < 3 then n else 3 + (n - 3) % 6

theorem starve_cases (n : Nat) : (n < 3 ∧ starvePhase n = n ∧ starvePhase (n + 1) = n + 1) ∨
    (3 ≤ n ∧ ∃ r, r < 6 ∧ starvePhase n = 3 + r ∧ starvePhase (n + 1) = 3 + (r + 1) % 6) := by
  unfold starvePhase
  by_cases h : n < 3
  · refine .inl ⟨h, by simp [h], ?_⟩
    split <;> omega
  · refine .inr ⟨by omega, (n - 3) % 6, Nat.mod_lt _ (by omega), by simp [h], ?_⟩
    have : ¬ n + 1 < 3 := by omega
    simp only [this, if_false]
    omega

/-- **C119**: readers of a `shared_mutex` that take turns without a gap keep a writer in `lock` for ever, although the scheduler is
fair: with strong fairness, scopes respected and one mutex only, so that the order of locking cannot matter. So the hypothesis on
readers cannot be dropped from `lock_returns`. -/
theorem writer_starves_refuted : ∃ p : Plan Nat, p.Scoped ∧ p.Ordered ∧ ∃ e : Exec p, e.Fair ∧
    ∃ n i, ∀ k, n ≤ k → (e.thr k i).now = [.lock 0, .drop] ∧ (e.thr k i).held = [] := by
  have hs : starvePlan.Scoped := by intro i k; by_cases h : i = 2 <;> simp [starvePlan, h] <;> rfl
  have ho : starvePlan.Ordered := by intro i k; by_cases h : i = 2 <;> simp [starvePlan, h] <;> rfl
  obtain ⟨e, ha, hv⟩ := exec_of_tables (w := fun i => if i = 2 then [.lock 0, .drop] else [.lockShared 0, .drop]) hs (fun _ _ => rfl)
    (fun n => starveTab (starvePhase n)) (fun n => some (starveAct (starvePhase n)))
    (view_start rfl (by intro x hx; simpa [starveTab, starvePhase] using hx)) (fun n => .inr ⟨_, rfl, by
      rcases starve_cases n with ⟨h, h1, h2⟩ | ⟨_, r, hr, h1, h2⟩
      · rw [h1, h2]
        match n, h with
        | 0, _ => rfl
        | 1, _ => rfl
        | 2, _ => rfl
      · rw [h1, h2]
        match r, hr with
        | 0, _ => rfl
        | 1, _ => rfl
        | 2, _ => rfl
        | 3, _ => rfl
        | 4, _ => rfl
        | 5, _ => rfl⟩)
  have hph : ∀ N r, r < 6 → starvePhase (3 + 6 * N + r) = 3 + r := by
    intro N r hr
    unfold starvePhase
    split <;> omega
  have hlate : ∀ n, 3 ≤ n → (∃ (j : Nat) (x : List (Cmd Nat) × List (Kind × Nat)), (starveTab (starvePhase n))[j]? = some x ∧ x.2.any (fun h => h.2 == 0) = true) ∧
      (starveTab (starvePhase n))[2]? = some ([.lock 0, .drop], []) := by
    intro n hn
    rcases starve_cases n with ⟨h, _⟩ | ⟨_, r, hr, h1, _⟩
    · omega
    · rw [h1]
      match r, hr with
      | 0, _ => exact ⟨⟨0, _, rfl, rfl⟩, rfl⟩
      | 1, _ => exact ⟨⟨0, _, rfl, rfl⟩, rfl⟩
      | 2, _ => exact ⟨⟨0, _, rfl, rfl⟩, rfl⟩
      | 3, _ => exact ⟨⟨1, _, rfl, rfl⟩, rfl⟩
      | 4, _ => exact ⟨⟨1, _, rfl, rfl⟩, rfl⟩
      | 5, _ => exact ⟨⟨1, _, rfl, rfl⟩, rfl⟩
  refine ⟨starvePlan, hs, ho, e, ?_, 3, 2, fun k hk => ?_⟩
  · intro i hr N
    by_cases h0 : i = 0
    · exact ⟨3 + 6 * N + 2, by omega, by rw [ha]; simp only [hph N 2 (by omega)]; rw [h0]; rfl⟩
    by_cases h1 : i = 1
    · exact ⟨3 + 6 * N + 1, by omega, by rw [ha]; simp only [hph N 1 (by omega)]; rw [h1]; rfl⟩
    exfalso
    obtain ⟨n, hn, hn'⟩ := hr 3
    by_cases h2 : i = 2
    · subst h2
      obtain ⟨⟨j, x, hj, hx⟩, hw⟩ := hlate n hn
      exact (hv n).not_ready hw hj hx hn'
    · exact not_thread (by show 3 ≤ i; omega) hn'
  · have := (hv k).at (hlate k hk).2
    refine ⟨this.1, ?_⟩
    simpa [kinds, Exec.thr] using this.2.1

/-! ### Weak fairness is not enough -/

/-- The first thread takes the mutex again and again, the second waits. -/
def weakTab : Nat → Table Nat
  | 0 => [([], []), ([], [])]
  | 1 => [([], []), ([.lock 0, .drop], [])]
  | 2 => [([.lock 0, .drop], []), ([.lock 0, .drop], [])]
  | _ => [([.drop], [(.excl, 0)]), ([.lock 0, .drop], [])]

/-- The steps between the states of `weakTab`. -/
def weakAct : Nat → Act
  | 0 => .begin 1 | 1 => .begin 0 | _ => .run 0

/-- One state to begin with, then three for ever. -/
def weakPhase (n : Nat) : Nat := if n < 1 then n else 1 + (n - 1) % 3

/-- **C119**: a mutex that is fair only to threads for which it stays free (weak fairness) may leave a thread in `lock` for ever: the
other thread takes the mutex again each time. All other hypotheses of `mutex_lock_returns` hold. -/
theorem weak_fairness_refuted : ∃ p : Plan Nat, p.Scoped ∧ p.Ordered ∧ p.Exclusive ∧ ∃ e : Exec p, e.WeakFair ∧
    ∃ n i, ∀ k, n ≤ k → (e.thr k i).now = [.lock 0, .drop] ∧ (e.thr k i).held = [] := by
  have hs : weakPlan.Scoped := by intro i k; rfl
  have ho : weakPlan.Ordered := by intro i k; rfl
  have hx : weakPlan.Exclusive := by intro i k m; simp [weakPlan]
  have hcase : ∀ n, (n < 1 ∧ weakPhase n = n ∧ weakPhase (n + 1) = n + 1) ∨
      (1 ≤ n ∧ ∃ r, r < 3 ∧ weakPhase n = 1 + r ∧ weakPhase (n + 1) = 1 + (r + 1) % 3) := by
    intro n
    unfold weakPhase
    by_cases h : n < 1
    · refine .inl ⟨h, by simp [h], ?_⟩
      split <;> omega
    · refine .inr ⟨by omega, (n - 1) % 3, Nat.mod_lt _ (by omega), by simp [h], ?_⟩
      have : ¬ n + 1 < 1 := by omega
      simp only [this, if_false]
      omega
  obtain ⟨e, ha, hv⟩ := exec_of_tables (w := fun _ => [.lock 0, .drop]) hs (fun _ _ => rfl)
    (fun n => weakTab (weakPhase n)) (fun n => some (weakAct (weakPhase n)))
    (view_start rfl (by intro x hx; simpa [weakTab, weakPhase] using hx)) (fun n => .inr ⟨_, rfl, by
      rcases hcase n with ⟨h, h1, h2⟩ | ⟨_, r, hr, h1, h2⟩
      · rw [h1, h2]
        match n, h with
        | 0, _ => rfl
      · rw [h1, h2]
        match r, hr with
        | 0, _ => rfl
        | 1, _ => rfl
        | 2, _ => rfl⟩)
  have hph : ∀ N r, r < 3 → weakPhase (1 + 3 * N + r) = 1 + r := by
    intro N r hr
    unfold weakPhase
    split <;> omega
  refine ⟨weakPlan, hs, ho, hx, e, ?_, 1, 1, fun k hk => ?_⟩
  · intro i hr N
    by_cases h0 : i = 0
    · exact ⟨1 + 3 * N + 1, by omega, by rw [ha]; simp only [hph N 1 (by omega)]; rw [h0]; rfl⟩
    exfalso
    obtain ⟨M, hM⟩ := hr
    by_cases h1 : i = 1
    · subst h1
      have hn := hM (1 + 3 * M + 2) (by omega)
      have v := hv (1 + 3 * M + 2)
      simp only [hph M 2 (by omega)] at v
      exact v.not_ready (i := 1) (j := 0) (m := 0) rfl rfl rfl hn
    · exact not_thread (by show 2 ≤ i; omega) (hM M (Nat.le_refl _))
  · have hw : (weakTab (weakPhase k))[1]? = some ([.lock 0, .drop], []) := by
      rcases hcase k with ⟨h, _⟩ | ⟨_, r, hr, h1, _⟩
      · omega
      · rw [h1]
        match r, hr with
        | 0, _ => rfl
        | 1, _ => rfl
        | 2, _ => rfl
    have := (hv k).at hw
    refine ⟨this.1, ?_⟩
    simpa [kinds, Exec.thr] using this.2.1

/-! ### Different orders of locking -/

/-- Two threads that lock two mutexes in different orders. -/
def crossPlan : Plan Nat :=
  ⟨[0, 0], 2, fun i _ => if i = 0 then [.lock 0, .lock 1, .drop, .drop] else [.lock 1, .lock 0, .drop, .drop]⟩

/-- Each thread has one of the mutexes and waits for the other. -/
def crossTab : Nat → Table Nat
  | 0 => [([], []), ([], [])]
  | 1 => [([.lock 0, .lock 1, .drop, .drop], []), ([], [])]
  | 2 => [([.lock 0, .lock 1, .drop, .drop], []), ([.lock 1, .lock 0, .drop, .drop], [])]
  | 3 => [([.lock 1, .drop, .drop], [(.excl, 0)]), ([.lock 1, .lock 0, .drop, .drop], [])]
  | _ => [([.lock 1, .drop, .drop], [(.excl, 0)]), ([.lock 0, .drop, .drop], [(.excl, 1)])]

/-- The steps between the states of `crossTab`; then nothing happens any more. -/
def crossAct : Nat → Option Act
  | 0 => some (.begin 0) | 1 => some (.begin 1) | 2 => some (.run 0) | 3 => some (.run 1) | _ => none

/-- **C119**: two threads that lock two mutexes in different orders may both wait for ever, whatever the scheduler does. -/
theorem cross_order_refuted : ∃ p : Plan Nat, p.Scoped ∧ p.Exclusive ∧ ∃ e : Exec p, e.Fair ∧
    ∃ n, ∀ k, n ≤ k → (e.thr k 0).now = [.lock 1, .drop, .drop] ∧ (e.thr k 1).now = [.lock 0, .drop, .drop] := by
  have hs : crossPlan.Scoped := by intro i k; by_cases h : i = 0 <;> simp [crossPlan, h] <;> rfl
  have hx : crossPlan.Exclusive := by intro i k m; by_cases h : i = 0 <;> simp [crossPlan, h]
  obtain ⟨e, ha, hv⟩ := exec_of_tables
    (w := fun i => if i = 0 then [.lock 0, .lock 1, .drop, .drop] else [.lock 1, .lock 0, .drop, .drop]) hs (fun _ _ => rfl)
    crossTab crossAct (view_start rfl (by intro x hx; simpa [crossTab] using hx)) (fun n => by
      match n with
      | 0 => exact .inr ⟨_, rfl, rfl⟩
      | 1 => exact .inr ⟨_, rfl, rfl⟩
      | 2 => exact .inr ⟨_, rfl, rfl⟩
      | 3 => exact .inr ⟨_, rfl, rfl⟩
      | n + 4 => exact .inl ⟨rfl, rfl⟩)
  have late : ∀ k, 4 ≤ k → crossTab k = [([.lock 1, .drop, .drop], [(.excl, 0)]), ([.lock 0, .drop, .drop], [(.excl, 1)])] := by
    intro k hk
    obtain ⟨q, rfl⟩ : ∃ q, k = q + 4 := ⟨k - 4, by omega⟩
    rfl
  refine ⟨crossPlan, hs, hx, e, ?_, 4, fun k hk => ?_⟩
  · intro i hr N
    exfalso
    obtain ⟨n, hn, hn'⟩ := hr 4
    have v := hv n
    rw [late n hn] at v
    by_cases h0 : i = 0
    · subst h0; exact v.not_ready (i := 0) (j := 1) (m := 1) rfl rfl rfl hn'
    by_cases h1 : i = 1
    · subst h1; exact v.not_ready (i := 1) (j := 0) (m := 0) rfl rfl rfl hn'
    exact not_thread (by show 2 ≤ i; omega) hn'
  · have v := hv k
    rw [late k hk] at v
    exact ⟨(v.at (i := 0) rfl).1, (v.at (i := 1) rfl).1⟩

end Verif.Forever
