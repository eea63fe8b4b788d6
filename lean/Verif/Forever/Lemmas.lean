import Verif.Forever.Model

/-!
Lemmas for C119: invariants of infinite executions, and that no thread waits for ever.
-/
namespace Verif.Forever

open Verif.Critical (Cmd Thr Held exec1 wellScoped ordered Act Base Eff names kinds upd_eq upd_ne)
open Verif.Pipeline (upd)
open Verif.Guards (Kind Owns)

variable {α : Type} {p : Plan α}

/-! ### Invariants -/

/-- The plan for the theory of blocks with guards: nothing to do but what the threads have begun. -/
def Plan.base (p : Plan α) : Critical.Plan α := ⟨p.values, p.threads, fun _ => []⟩

/-- Who holds what. -/
structure Inv (p : Plan α) (s : Sys α) : Prop where
  base : ∃ C, Base p.base C s.sys
  none : ∀ i, p.threads ≤ i → (s.sys.thr i).now = []

theorem inv_start [Nonempty α] : Inv p (start p) := by
  refine ⟨?_, fun i _ => rfl⟩
  obtain ⟨v⟩ := ‹Nonempty α›
  refine ⟨fun m => p.values.getD m v, ?_⟩
  exact Critical.base_start (p := p.base) (fun m hm => by simp [Plan.base] at hm ⊢; simp [hm]) (fun i t ht => by simp [Plan.base] at ht)

theorem Inv.idle {s : Sys α} (v : Inv p s) {i : Nat} (hn : (s.sys.thr i).now = []) : (s.sys.thr i).held = [] := by
  obtain ⟨C, b⟩ := v.base
  have := b.scope i
  rw [hn] at this
  simpa [wellScoped, kinds] using this

theorem inv_begin {s : Sys α} (hs : p.Scoped) (v : Inv p s) {i : Nat} (hi : i < p.threads) (hn : (s.sys.thr i).now = []) :
    Inv p ⟨{ s.sys with thr := upd s.sys.thr i { s.sys.thr i with now := p.work i (s.begun i) } }, upd s.begun i (s.begun i + 1)⟩ := by
  obtain ⟨C, b⟩ := v.base
  have h0 := v.idle hn
  refine ⟨⟨C, ?_⟩, fun j hj => ?_⟩
  · exact b.same (S := (s.sys.thr i).seen) b.reach (fun _ _ _ => Iff.rfl) b.vals (by rw [h0]; exact hs i _)
  · show (upd s.sys.thr i _ j).now = []
    rw [upd_ne (by omega)]; exact v.none j hj

theorem inv_step {s s' : Sys α} (hs : p.Scoped) (v : Inv p s) {a : Act} (h : step p s a = some s') : Inv p s' := by
  cases a with
  | begin i =>
    simp only [step] at h
    split at h
    · rename_i hi
      split at h
      · rename_i hn
        injection h with h; subst h
        exact inv_begin hs v hi hn
      · cases h
    · cases h
  | run i =>
    simp only [step] at h
    split at h
    · rename_i hi
      simp only [Option.map_eq_some_iff] at h
      obtain ⟨t, ht, rfl⟩ := h
      obtain ⟨C, b⟩ := v.base
      obtain ⟨C', u, he, hu, hb⟩ := Critical.exec1_eff b ht
      refine ⟨⟨C', hb⟩, fun j hj => ?_⟩
      show (t.thr j).now = []
      rw [hu, upd_ne (by omega)]; exact v.none j hj
    · cases h

theorem Exec.inv [Nonempty α] (e : Exec p) (hs : p.Scoped) : ∀ n, Inv p (e.st n)
  | 0 => by rw [e.start]; exact inv_start
  | n + 1 => by
    rcases e.ok n with ⟨_, h⟩ | ⟨a, _, h⟩
    · rw [h]; exact e.inv hs n
    · exact inv_step hs (e.inv hs n) h

/-! ### One thread -/

/-- An instant at which thread `i` does nothing leaves it as it is. -/
theorem Exec.thr_same (e : Exec p) {n i : Nat} (hr : e.act n ≠ some (.run i)) (hn : (e.thr n i).now ≠ []) : e.thr (n + 1) i = e.thr n i := by
  rcases e.ok n with ⟨_, h⟩ | ⟨a, ha, h⟩
  · simp only [Exec.thr, h]
  · cases a with
    | begin j =>
      simp only [step] at h
      split at h
      · split at h
        · rename_i hj
          injection h with h
          by_cases e' : i = j
          · subst e'; exact absurd hj hn
          · simp only [Exec.thr, ← h, upd_ne e']
        · cases h
      · cases h
    | run j =>
      have hj : i ≠ j := fun e' => hr (by rw [ha, e'])
      simp only [step] at h
      split at h
      · simp only [Option.map_eq_some_iff] at h
        obtain ⟨t, ht, h⟩ := h
        obtain ⟨u, x, hu, _⟩ := Critical.exec1_thr ht
        simp only [Exec.thr, ← h, hu, upd_ne hj]
      · cases h

/-- A step of thread `i` executes the first of its commands. -/
theorem Exec.thr_run [Nonempty α] (e : Exec p) (hs : p.Scoped) {n i : Nat} (hr : e.act n = some (.run i)) :
    ∃ C C', Eff C (e.st n).sys.thr i C' (e.thr (n + 1) i) ∧ ∀ j, j ≠ i → e.thr (n + 1) j = e.thr n j := by
  rcases e.ok n with ⟨h, _⟩ | ⟨a, ha, h⟩
  · rw [h] at hr; cases hr
  · rw [hr] at ha; injection ha with ha; subst ha
    simp only [step] at h
    split at h
    · simp only [Option.map_eq_some_iff] at h
      obtain ⟨t, ht, h⟩ := h
      obtain ⟨C, b⟩ := (e.inv hs n).base
      obtain ⟨C', u, he, hu, _⟩ := Critical.exec1_eff b ht
      refine ⟨C, C', ?_, fun j hj => ?_⟩
      · simp only [Exec.thr, ← h, hu, upd_eq]; exact he
      · simp only [Exec.thr, ← h, hu, upd_ne hj]
    · cases h

theorem ordered_eff {C C' : Nat → α} {thr : Nat → Thr α} {i : Nat} {t : Thr α} (h : Eff C thr i C' t)
    (hn : ordered (names (thr i).held) (thr i).now = true) : ordered (names t.held) t.now = true := by
  cases h with
  | lock m c g h free => rw [h] at hn; simp only [ordered, Bool.and_eq_true] at hn; exact hn.2
  | lockShared m c g h free => rw [h] at hn; simp only [ordered, Bool.and_eq_true] at hn; exact hn.2
  | read d c x h hx => rw [h] at hn; simpa [ordered] using hn
  | write d f c x h hx hk => rw [h] at hn; simpa [ordered] using hn
  | drop c x hs h hx => rw [h] at hn; simp only [ordered, hx, names, List.map_cons, List.tail_cons] at hn; exact hn

/-- What is left of a block locks above the mutexes the thread has guards of. -/
theorem Exec.now [Nonempty α] (e : Exec p) (hs : p.Scoped) (ho : p.Ordered) :
    ∀ n i, ordered (names ((e.st n).sys.thr i).held) ((e.st n).sys.thr i).now = true
  | 0, i => by rw [e.start]; rfl
  | n + 1, i => by
    have ih := e.now hs ho n
    rcases e.ok n with ⟨_, h⟩ | ⟨a, ha, h⟩
    · rw [h]; exact ih i
    · cases a with
      | begin j =>
        simp only [step] at h
        split at h
        · split at h
          · rename_i hn
            injection h with h
            by_cases e' : i = j
            · subst e'; simp only [← h, upd_eq]; rw [(e.inv hs n).idle hn]; exact ho i _
            · simp only [← h, upd_ne e']; exact ih i
          · cases h
        · cases h
      | run j =>
        obtain ⟨C, C', he, hoth⟩ := e.thr_run hs ha
        by_cases e' : i = j
        · subst e'; exact ordered_eff he (ih i)
        · have := hoth i e'
          simp only [Exec.thr] at this
          rw [this]; exact ih i

/-- Until its next step a thread inside a block does not change. -/
theorem Exec.thr_until (e : Exec p) {n i : Nat} (hn : (e.thr n i).now ≠ []) : ∀ k, (∀ j, n ≤ j → j < n + k → e.act j ≠ some (.run i)) → e.thr (n + k) i = e.thr n i
  | 0, _ => rfl
  | k + 1, h => by
    have ih := e.thr_until hn k fun j h1 h2 => h j h1 (by omega)
    rw [show n + (k + 1) = (n + k) + 1 by omega, e.thr_same (h (n + k) (by omega) (by omega)) (by rw [ih]; exact hn), ih]

/-- The first step of a thread from some instant on, if there is one. -/
theorem first {P : Nat → Prop} : ∀ k n, P (n + k) → ∃ m, n ≤ m ∧ P m ∧ ∀ j, n ≤ j → j < m → ¬ P j
  | 0, n, h => ⟨n, Nat.le_refl _, h, fun j h1 h2 => by omega⟩
  | k + 1, n, h => by
    by_cases h0 : P n
    · exact ⟨n, Nat.le_refl _, h0, fun j h1 h2 => by omega⟩
    · obtain ⟨m, h1, h2, h3⟩ := first (P := P) k (n + 1) (by rw [show n + 1 + k = n + (k + 1) by omega]; exact h)
      refine ⟨m, by omega, h2, fun j h4 h5 => ?_⟩
      by_cases e : j = n
      · subst e; exact h0
      · exact h3 j (by omega) h5

/-- The next step of thread `i` from instant `n` on is at instant `k`; until then the thread does not change. -/
def Exec.Next (e : Exec p) (n i k : Nat) : Prop := n ≤ k ∧ e.act k = some (.run i) ∧ e.thr k i = e.thr n i

theorem Exec.next_or (e : Exec p) {n i : Nat} (hn : (e.thr n i).now ≠ []) :
    (∃ k, e.Next n i k) ∨ ∀ k, n ≤ k → e.act k ≠ some (.run i) ∧ e.thr k i = e.thr n i := by
  by_cases h : ∃ k, n ≤ k ∧ e.act k = some (.run i)
  · obtain ⟨k, hk, ha⟩ := h
    obtain ⟨m, h1, h2, h3⟩ := first (P := fun k => e.act k = some (.run i)) (k - n) n (by rw [show n + (k - n) = k by omega]; exact ha)
    refine .inl ⟨m, h1, h2, ?_⟩
    have := e.thr_until hn (m - n) fun j h4 h5 => h3 j h4 (by omega)
    rwa [show n + (m - n) = m by omega] at this
  · have h' : ∀ k, n ≤ k → e.act k ≠ some (.run i) := fun k hk ha => h ⟨k, hk, ha⟩
    refine .inr fun k hk => ⟨h' k hk, ?_⟩
    have := e.thr_until hn (k - n) fun j h4 _ => h' j h4
    rwa [show n + (k - n) = k by omega] at this

/-- The thread waits for mutex `m`. -/
def AtLock (t : Thr α) (m : Nat) : Prop := ∃ c, t.now = .lock m :: c ∨ t.now = .lockShared m :: c

theorem ready_iff {s : Sys α} {i : Nat} : Ready p s i ↔ i < p.threads ∧ exec1 s.sys i ≠ none := by
  unfold Ready step
  by_cases hi : i < p.threads
  · simp only [hi, if_true, true_and]
    cases exec1 s.sys i <;> simp
  · simp [hi]

theorem Inv.lt {s : Sys α} (v : Inv p s) {i : Nat} (h : (s.sys.thr i).now ≠ []) : i < p.threads := by
  apply Nat.lt_of_not_le
  intro hle
  exact h (v.none i hle)

/-- A thread that never makes its next step under fairness waits for a mutex that is always held. -/
theorem Exec.stuck_waits [Nonempty α] (e : Exec p) (hf : e.Fair) (hs : p.Scoped) {n i : Nat} (hn : (e.thr n i).now ≠ [])
    (hst : ∀ k, n ≤ k → e.act k ≠ some (.run i) ∧ e.thr k i = e.thr n i) :
    ∃ m, AtLock (e.thr n i) m ∧ ∃ N, n ≤ N ∧ ∀ k, N ≤ k → exec1 (e.st k).sys i = none := by
  have hnr : ¬ ∀ N, ∃ k, N ≤ k ∧ Ready p (e.st k) i := by
    intro h
    obtain ⟨k, hk, ha⟩ := hf i h n
    exact (hst k hk).1 ha
  simp only [Classical.not_forall] at hnr
  obtain ⟨N, hN⟩ := hnr
  have hno : ∀ k, max N n ≤ k → exec1 (e.st k).sys i = none := by
    intro k hk
    apply Classical.byContradiction
    intro hne
    refine hN ⟨k, by omega, ready_iff.2 ⟨(e.inv hs k).lt ?_, hne⟩⟩
    have := (hst k (by omega)).2
    simp only [Exec.thr] at this hn ⊢
    rw [this]; exact hn
  obtain ⟨C, b⟩ := (e.inv hs (max N n)).base
  have ht := (hst (max N n) (by omega)).2
  simp only [Exec.thr] at ht hn
  obtain ⟨m, c, j, x, h1, _⟩ := Critical.blocked b (by rw [ht]; exact hn) (hno _ (Nat.le_refl _))
  rw [ht] at h1
  exact ⟨m, ⟨c, h1⟩, max N n, by omega, hno⟩

/-- Whoever holds a mutex gives it up, if it never waits for ever. -/
theorem Exec.gives_up [Nonempty α] (e : Exec p) (hs : p.Scoped) {j : Nat} {x : Held} :
    ∀ len n, (e.thr n j).now.length = len → x ∈ (e.thr n j).held →
      (∀ k, n ≤ k → x ∈ (e.thr k j).held → ∃ k', e.Next k j k') →
      ∃ k, n ≤ k ∧ (e.thr k j).held = x :: (e.thr (k + 1) j).held ∧ ∀ i, i ≠ j → e.thr (k + 1) i = e.thr k i := by
  intro len
  induction len using Nat.strongRecOn with
  | ind len ih =>
    intro n hl hx hnext
    obtain ⟨k, h1, h2, h3⟩ := hnext n (Nat.le_refl _) hx
    obtain ⟨C, C', he, hoth⟩ := e.thr_run hs h2
    by_cases hx' : x ∈ (e.thr (k + 1) j).held
    · have hlen : (e.thr (k + 1) j).now.length < len := by
        have h4 : (e.thr k j).now.length = len := by rw [h3]; exact hl
        simp only [Exec.thr] at h4 he ⊢
        generalize (e.st (k + 1)).sys.thr j = t at he ⊢
        cases he with
        | lock m c g h _ => rw [h] at h4; simp at h4 ⊢; omega
        | lockShared m c g h _ => rw [h] at h4; simp at h4 ⊢; omega
        | read d c x h _ => rw [h] at h4; simp at h4 ⊢; omega
        | write d f c x h _ _ => rw [h] at h4; simp at h4 ⊢; omega
        | drop c x hs h _ => rw [h] at h4; simp at h4 ⊢; omega
      obtain ⟨k', h5, h6⟩ := ih _ hlen (k + 1) rfl hx' fun q hq => hnext q (by omega)
      exact ⟨k', by omega, h6⟩
    · refine ⟨k, h1, ?_, hoth⟩
      rw [← h3] at hx
      simp only [Exec.thr] at hx hx' he ⊢
      generalize (e.st (k + 1)).sys.thr j = t at he hx' ⊢
      cases he with
      | lock m c g h _ => exact absurd (List.mem_cons_of_mem _ hx) hx'
      | lockShared m c g h _ => exact absurd (List.mem_cons_of_mem _ hx) hx'
      | read d c x h _ => exact absurd hx hx'
      | write d f c x h _ _ => exact absurd hx hx'
      | drop c y hs h hy =>
        rw [hy] at hx ⊢
        rcases List.mem_cons.1 hx with rfl | hx
        · rfl
        · exact absurd hx hx'

/-! ### No thread waits for ever -/

theorem lock_ready {s : Sys α} {C} (b : Base p.base C s.sys) {i m : Nat} (hw : AtLock (s.sys.thr i) m)
    (hfree : ∀ j, ∀ h ∈ (s.sys.thr j).held, h.m ≠ m) : exec1 s.sys i ≠ none := by
  intro h
  obtain ⟨c, hc⟩ := hw
  obtain ⟨m', c', j, x, h1, h2, h3, _⟩ := Critical.blocked b (by rcases hc with hc | hc <;> rw [hc] <;> simp) h
  have hmm : m' = m := by
    rcases hc with hc | hc <;> rcases h1 with h1 | h1 <;> rw [hc] at h1 <;> simp at h1 <;> exact h1.1.symm
  exact hfree j x h2 (h3.trans hmm)

theorem shared_ready {s : Sys α} {C} (b : Base p.base C s.sys) {i m : Nat} {c : List (Cmd α)} (hw : (s.sys.thr i).now = .lockShared m :: c)
    (hfree : ∀ j, ∀ h ∈ (s.sys.thr j).held, h.m = m → h.kind = .shrd) : exec1 s.sys i ≠ none := by
  intro h
  have hsc := b.scope i
  rw [hw] at hsc
  simp only [wellScoped, Bool.and_eq_true, decide_eq_true_eq] at hsc
  unfold exec1 at h
  simp only [hw, Option.map_eq_none_iff] at h
  have := (not_congr (Guards.lock_shared_iff b.reach (Critical.lt_of_vals (b.vals m hsc.1.1)))).1 (by rintro ⟨r, hr⟩; rw [h] at hr; cases hr)
  simp only [Classical.not_forall, Classical.not_not] at this
  obtain ⟨g, hg⟩ := this
  obtain ⟨j, hj⟩ := b.all g _ m hg
  have := hfree j _ hj rfl
  cases this

/-- Thread `j` gives up its guard `x` at instant `q`; nothing else happens then. -/
def Exec.GivesUp (e : Exec p) (q j : Nat) (x : Held) : Prop :=
  (e.thr q j).held = x :: (e.thr (q + 1) j).held ∧ ∀ i, i ≠ j → e.thr (q + 1) i = e.thr q i

/-- `ReadersPause`, where it may be used that all guards of the mutex are given up. -/
def Exec.Pauses (e : Exec p) : Prop :=
  ∀ m i N, (∀ n, N ≤ n → ∃ c, (e.thr n i).now = .lock m :: c) →
    (∀ k, N ≤ k → ∀ j x, x ∈ (e.thr k j).held → x.m = m → ∃ q, k ≤ q ∧ e.GivesUp q j x) → ∀ N', ∃ n, N' ≤ n ∧ NoReader (e.st n) m

theorem Exec.ReadersPause.pauses {e : Exec p} (h : e.ReadersPause) : e.Pauses := fun m i N hw _ => h m i N hw

theorem Exec.next_always [Nonempty α] (e : Exec p) (hf : e.Fair) (hs : p.Scoped) (ho : p.Ordered) (hp : e.Pauses) :
    ∀ d n i, (e.thr n i).now ≠ [] → (∀ m, AtLock (e.thr n i) m → p.values.length - d ≤ m) → ∃ k, e.Next n i k := by
  intro d
  induction d with
  | zero =>
    intro n i hn hm
    rcases e.next_or hn with h | h
    · exact h
    · obtain ⟨m, hw, _⟩ := e.stuck_waits hf hs hn h
      have h1 := hm m hw
      obtain ⟨C, b⟩ := (e.inv hs n).base
      obtain ⟨c, hc⟩ := hw
      have hsc := b.scope i
      simp only [Exec.thr] at hc
      have hlt : m < p.values.length := by
        rcases hc with hc | hc <;> rw [hc] at hsc <;> simp only [wellScoped, Bool.and_eq_true, decide_eq_true_eq] at hsc <;> exact hsc.1.1
      omega
  | succ d ih =>
    intro n i hn hm
    rcases e.next_or hn with h | h
    · exact h
    exfalso
    obtain ⟨m, hw, N, hN, hno⟩ := e.stuck_waits hf hs hn h
    have hwk : ∀ k, N ≤ k → AtLock ((e.st k).sys.thr i) m := fun k hk => by
      have := (h k (by omega)).2
      simp only [Exec.thr] at this hw
      rw [this]; exact hw
    -- whoever holds `m` gives it up
    have ups : ∀ k, n ≤ k → ∀ j x, x ∈ (e.thr k j).held → x.m = m → ∃ q, k ≤ q ∧ e.GivesUp q j x := by
      intro k hk j x hx hxm
      refine e.gives_up hs (x := x) _ k rfl hx fun q hq hxq => ?_
      obtain ⟨C, b⟩ := (e.inv hs q).base
      refine ih q j ?_ ?_
      · intro h0
        have hsc := b.scope j
        simp only [Exec.thr] at h0 hxq
        rw [h0] at hsc
        simp [wellScoped, kinds] at hsc
        rw [hsc] at hxq; cases hxq
      · rintro m2 ⟨c2, h2⟩
        have hon := e.now hs ho q j
        have hmem : m ∈ names ((e.st q).sys.thr j).held := List.mem_map.2 ⟨x, hxq, hxm⟩
        have hlt : m < m2 := by
          simp only [Exec.thr] at h2
          rcases h2 with h2 | h2 <;> rw [h2] at hon <;> simp only [ordered, Bool.and_eq_true, List.all_eq_true,
            decide_eq_true_eq] at hon <;> exact hon.1 m hmem
        have := hm m hw
        omega
    -- and if it was held exclusively it is free then
    have key : ∀ k, N ≤ k → ∀ j x, x ∈ (e.thr k j).held → x.kind = .excl → x.m = m → False := by
      intro k hk j x hx hkind hxm
      obtain ⟨q, hq, hx1, hoth⟩ := ups k (by omega) j x hx hxm
      obtain ⟨C, b⟩ := (e.inv hs q).base
      obtain ⟨C', b'⟩ := (e.inv hs (q + 1)).base
      refine lock_ready b' (hwk (q + 1) (by omega)) ?_ (hno (q + 1) (by omega))
      intro i' h' hh' hm'
      have hxq : x ∈ ((e.st q).sys.thr j).held := by simp only [Exec.thr] at hx1; rw [hx1]; simp
      by_cases hij : i' = j
      · subst hij
        have hnd := b.nodup i'
        simp only [Exec.thr] at hx1
        rw [hx1] at hnd
        simp only [names, List.map_cons, List.nodup_cons] at hnd
        exact hnd.1 (List.mem_map.2 ⟨h', hh', hm'.trans hxm.symm⟩)
      · have : e.thr (q + 1) i' = e.thr q i' := hoth i' hij
        simp only [Exec.thr] at this
        rw [this] at hh'
        exact hij (b.excl j i' x h' hxq hkind hh' (hm'.trans hxm.symm)).symm
    obtain ⟨c, hc | hc⟩ := hw
    · -- `lock`: again and again there is no reader
      obtain ⟨k, hk, hnr⟩ := hp m i n (fun k hk => ⟨c, by rw [(h k hk).2]; exact hc⟩) ups N
      obtain ⟨C, b⟩ := (e.inv hs k).base
      refine lock_ready b (hwk k hk) ?_ (hno k hk)
      intro j x hx hxm
      cases hkd : x.kind with
      | excl => exact key k hk j x hx hkd hxm
      | shrd => exact hnr j x hx hxm hkd
    · obtain ⟨C, b⟩ := (e.inv hs N).base
      refine shared_ready b (i := i) (m := m) (c := c) ?_ ?_ (hno N (Nat.le_refl _))
      · have := (h N hN).2
        simp only [Exec.thr] at this hc
        rw [this]; exact hc
      · intro j x hx hxm
        cases hkd : x.kind with
        | shrd => rfl
        | excl => exact (key N (Nat.le_refl _) j x hx hkd hxm).elim

theorem Exec.next_exists [Nonempty α] (e : Exec p) (hf : e.Fair) (hs : p.Scoped) (ho : p.Ordered) (hp : e.Pauses) {n i : Nat}
    (hn : (e.thr n i).now ≠ []) : ∃ k, e.Next n i k :=
  e.next_always hf hs ho hp p.values.length n i hn fun m _ => by omega

/-! ### Programs with `mutex` only -/

theorem Exec.no_shared [Nonempty α] (e : Exec p) (hs : p.Scoped) (hx : p.Exclusive) :
    ∀ n i, (∀ m, Cmd.lockShared m ∉ (e.thr n i).now) ∧ ∀ h ∈ (e.thr n i).held, h.kind ≠ .shrd
  | 0, i => by simp [Exec.thr, e.start, Forever.start]
  | n + 1, i => by
    have ih := e.no_shared hs hx n
    rcases e.ok n with ⟨_, h⟩ | ⟨a, ha, h⟩
    · simp only [Exec.thr, h]; exact ih i
    · cases a with
      | begin j =>
        simp only [step] at h
        split at h
        · split at h
          · injection h with h
            by_cases e' : i = j
            · subst e'; simp only [Exec.thr, ← h, upd_eq]; exact ⟨fun m => hx i _ m, (ih i).2⟩
            · simp only [Exec.thr, ← h, upd_ne e']; exact ih i
          · cases h
        · cases h
      | run j =>
        obtain ⟨C, C', he, hoth⟩ := e.thr_run hs ha
        by_cases e' : i = j
        · subst e'
          have ihi := ih i
          simp only [Exec.thr] at ihi he ⊢
          generalize (e.st (n + 1)).sys.thr i = t at he ⊢
          cases he with
          | lock m c g h _ =>
            rw [h] at ihi
            refine ⟨fun m hm => ihi.1 m (List.mem_cons_of_mem _ hm), fun y hy => ?_⟩
            rcases List.mem_cons.1 hy with rfl | hy
            · simp
            · exact ihi.2 y hy
          | lockShared m c g h _ => rw [h] at ihi; exact absurd (List.mem_cons_self) (ihi.1 m)
          | read d c x h _ => rw [h] at ihi; exact ⟨fun m hm => ihi.1 m (List.mem_cons_of_mem _ hm), ihi.2⟩
          | write d f c x h _ _ => rw [h] at ihi; exact ⟨fun m hm => ihi.1 m (List.mem_cons_of_mem _ hm), ihi.2⟩
          | drop c x hs h hy =>
            rw [h] at ihi
            refine ⟨fun m hm => ihi.1 m (List.mem_cons_of_mem _ hm), fun y hy' => ihi.2 y ?_⟩
            rw [hy]; exact List.mem_cons_of_mem _ hy'
        · rw [hoth i e']; exact ih i

/-! ### When readers leave a gap -/

theorem Exec.Pauses.readers [Nonempty α] {e : Exec p} (hf : e.Fair) (hs : p.Scoped) (ho : p.Ordered) (hp : e.Pauses) : e.ReadersPause := by
  intro m i N hw
  exfalso
  obtain ⟨c, hc⟩ := hw N (Nat.le_refl _)
  obtain ⟨k, h1, h2, h3⟩ := e.next_exists hf hs ho hp (n := N) (i := i) (by rw [hc]; simp)
  obtain ⟨C, C', he, _⟩ := e.thr_run hs h2
  obtain ⟨c', hc'⟩ := hw (k + 1) (by omega)
  have hsc : ∃ C, Base p.base C (e.st (k + 1)).sys := (e.inv hs (k + 1)).base
  obtain ⟨C1, b⟩ := hsc
  have hb := b.scope i
  rw [← h3] at hc
  simp only [Exec.thr] at hc hc' he
  generalize (e.st (k + 1)).sys.thr i = t at he hc' hb
  cases he with
  | lock m' c'' g h' _ =>
    rw [hc] at h'; injection h' with e1 e2; injection e1 with e1; subst e1
    rw [hc'] at hb
    simp [wellScoped, kinds] at hb
  | lockShared m' c' g h' _ => rw [hc] at h'; cases h'
  | read d c x h' _ => rw [hc] at h'; cases h'
  | write d f c x h' _ _ => rw [hc] at h'; cases h'
  | drop c y hs h' hy => rw [hc] at h'; cases h'

/-- With `mutex` only there are no readers. -/
theorem exclusive_pause [Nonempty α] (e : Exec p) (hs : p.Scoped) (hx : p.Exclusive) : e.ReadersPause :=
  fun _ _ _ _ N' => ⟨N', Nat.le_refl _, fun j x hx' _ => (e.no_shared hs hx N' j).2 x hx'⟩

end Verif.Forever
