import Verif.Forever.Lemmas

/-!
Infinite executions from tables, for examples and counterexamples.
-/
namespace Verif.Forever

open Verif.Critical (Cmd Thr Held exec1 wellScoped ordered Act Base Eff names kinds upd_eq upd_ne)
open Verif.Pipeline (upd)
open Verif.Guards (Kind)

variable {α : Type} {p : Plan α}

/-! ### Executions from tables -/

/-- What is left of each thread's block, and its guards without their names (mutex.hpp:41-52). -/
abbrev Table (α : Type) := List (List (Cmd α) × List (Kind × Nat))

/-- One step in terms of tables (mutex.hpp:111, shared_mutex.hpp:113, 140; guards end at mutex.hpp:41-52). -/
def tstep (w : Nat → List (Cmd α)) (L : Table α) : Act → Option (Table α)
  | .begin i => match L[i]? with
    | some ([], hs) => some (L.set i (w i, hs))
    | _ => none
  | .run i => match L[i]? with
    | some (.lock m :: c, hs) => if L.all fun x => x.2.all fun h => h.2 != m then some (L.set i (c, (.excl, m) :: hs)) else none
    | some (.lockShared m :: c, hs) =>
      if L.all fun x => x.2.all fun h => h.2 != m || h.1 == .shrd then some (L.set i (c, (.shrd, m) :: hs)) else none
    | some (.drop :: c, _ :: hs) => some (L.set i (c, hs))
    | _ => none

/-- The table describes the state (of programs over mutex.hpp:111-129, shared_mutex.hpp:113-158). -/
structure View (p : Plan α) (s : Sys α) (L : Table α) : Prop where
  inv : Inv p s
  len : p.threads = L.length
  eq : ∀ i, ((s.sys.thr i).now, kinds (s.sys.thr i).held) = L.getD i ([], [])

theorem View.at {s : Sys α} {L : Table α} (v : View p s L) {i : Nat} {x} (h : L[i]? = some x) :
    (s.sys.thr i).now = x.1 ∧ kinds (s.sys.thr i).held = x.2 ∧ i < p.threads := by
  have := v.eq i
  simp only [List.getD_eq_getElem?_getD, h, Option.getD_some] at this
  refine ⟨congrArg Prod.fst this, congrArg Prod.snd this, ?_⟩
  rw [v.len]
  exact (List.getElem?_eq_some_iff.1 h).1

/-- Every guard of a thread is in the table. -/
theorem View.held {s : Sys α} {L : Table α} (v : View p s L) {j : Nat} {h : Held} (hh : h ∈ (s.sys.thr j).held) :
    ∃ x ∈ L, (h.kind, h.m) ∈ x.2 := by
  have := v.eq j
  have hm : (h.kind, h.m) ∈ kinds (s.sys.thr j).held := List.mem_map.2 ⟨h, hh, rfl⟩
  cases hL : L[j]? with
  | none => simp only [List.getD_eq_getElem?_getD, hL, Option.getD_none] at this; rw [(Prod.mk.inj this).2] at hm; cases hm
  | some x =>
    rw [(v.at hL).2.1] at hm
    exact ⟨x, List.mem_of_getElem? hL, hm⟩

theorem View.upd {s s' : Sys α} {L : Table α} (v : View p s L) (hs : Inv p s') {i : Nat} {x t} (hi : L[i]? = some x) (ht : s'.sys.thr = upd s.sys.thr i t) :
    View p s' (L.set i (t.now, kinds t.held)) where
  inv := hs
  len := by simp [v.len]
  eq j := by
    have hlt := (List.getElem?_eq_some_iff.1 hi).1
    rw [ht]
    by_cases e : j = i
    · subst e; simp [upd_eq, List.getD_eq_getElem?_getD, hlt]
    · rw [upd_ne e, v.eq j]
      simp [List.getD_eq_getElem?_getD, List.getElem?_set_ne (Ne.symm e)]

theorem View.step {s : Sys α} {L L' : Table α} {w : Nat → List (Cmd α)} (hs : p.Scoped) (hw : ∀ i k, p.work i k = w i)
    (v : View p s L) {a : Act} (h : tstep w L a = some L') : ∃ s', step p s a = some s' ∧ View p s' L' := by
  cases a with
  | begin i =>
    simp only [tstep] at h
    split at h
    · rename_i hL
      injection h with h; subst h
      obtain ⟨h1, h2, h3⟩ := v.at hL
      have hstep : Forever.step p s (.begin i) = some ⟨{ s.sys with thr := Pipeline.upd s.sys.thr i { s.sys.thr i with now := p.work i (s.begun i) } },
          Pipeline.upd s.begun i (s.begun i + 1)⟩ := by simp only [Forever.step, h3, if_true, h1]
      refine ⟨_, hstep, ?_⟩
      have := v.upd (inv_step hs v.inv hstep) hL rfl
      simpa only [hw, h2] using this
    · cases h
  | run i =>
    obtain ⟨C, b⟩ := v.inv.base
    have main : ∀ {x}, L[i]? = some x → exec1 s.sys i ≠ none → ∃ s' t C', Forever.step p s (.run i) = some s' ∧
        Eff C s.sys.thr i C' t ∧ View p s' (L.set i (t.now, kinds t.held)) := by
      intro x hL hne
      cases hx : exec1 s.sys i with
      | none => exact absurd hx hne
      | some s1 =>
        obtain ⟨C', t, he, hu, _⟩ := Critical.exec1_eff b hx
        have hstep : Forever.step p s (.run i) = some ⟨s1, s.begun⟩ := by simp [Forever.step, (v.at hL).2.2, hx]
        exact ⟨_, t, C', hstep, he, v.upd (inv_step hs v.inv hstep) hL hu⟩
    simp only [tstep] at h
    split at h
    · rename_i m c hs' hL
      obtain ⟨h1, h2, h3⟩ := v.at hL
      split at h
      · rename_i hall
        injection h with h; subst h
        have hfree : ∀ j, ∀ x ∈ (s.sys.thr j).held, x.m ≠ m := by
          intro j x hx
          obtain ⟨y, hy, hy'⟩ := v.held hx
          have := List.all_eq_true.1 (List.all_eq_true.1 hall y hy) _ hy'
          simpa using this
        obtain ⟨s', t, C', g1, g2, g3⟩ := main hL (lock_ready b ⟨c, .inl h1⟩ hfree)
        refine ⟨s', g1, ?_⟩
        cases g2 with
        | lock m' c' g h' _ =>
          rw [h1] at h'; injection h' with e1 e2; injection e1 with e1; subst e1 e2
          subst h2; exact g3
        | lockShared m' c' g h' _ => rw [h1] at h'; cases h'
        | read d c x h' _ => rw [h1] at h'; cases h'
        | write d f c x h' _ _ => rw [h1] at h'; cases h'
        | drop c y hs h' hy => rw [h1] at h'; cases h'
      · cases h
    · rename_i m c hs' hL
      obtain ⟨h1, h2, h3⟩ := v.at hL
      split at h
      · rename_i hall
        injection h with h; subst h
        have hfree : ∀ j, ∀ x ∈ (s.sys.thr j).held, x.m = m → x.kind = .shrd := by
          intro j x hx hxm
          obtain ⟨y, hy, hy'⟩ := v.held hx
          have := List.all_eq_true.1 (List.all_eq_true.1 hall y hy) _ hy'
          simpa [hxm] using this
        obtain ⟨s', t, C', g1, g2, g3⟩ := main hL (shared_ready b h1 hfree)
        refine ⟨s', g1, ?_⟩
        cases g2 with
        | lock m' c' g h' _ => rw [h1] at h'; cases h'
        | lockShared m' c' g h' _ =>
          rw [h1] at h'; injection h' with e1 e2; injection e1 with e1; subst e1 e2
          subst h2; exact g3
        | read d c x h' _ => rw [h1] at h'; cases h'
        | write d f c x h' _ _ => rw [h1] at h'; cases h'
        | drop c y hs h' hy => rw [h1] at h'; cases h'
      · cases h
    · rename_i c h0 hs' hL
      injection h with h; subst h
      obtain ⟨h1, h2, h3⟩ := v.at hL
      have hne : exec1 s.sys i ≠ none := by
        intro hx
        obtain ⟨m, c', j, x, hw', _⟩ := Critical.blocked b (by rw [h1]; simp) hx
        rw [h1] at hw'
        rcases hw' with hw' | hw' <;> cases hw'
      obtain ⟨s', t, C', g1, g2, g3⟩ := main hL hne
      refine ⟨s', g1, ?_⟩
      cases g2 with
      | lock m' c' g h' _ => rw [h1] at h'; cases h'
      | lockShared m' c' g h' _ => rw [h1] at h'; cases h'
      | read d c x h' _ => rw [h1] at h'; cases h'
      | write d f c x h' _ _ => rw [h1] at h'; cases h'
      | drop c' y ys h' hy =>
        rw [h1] at h'; injection h' with e1 e2; subst e2
        rw [hy] at h2
        simp only [kinds, List.map_cons] at h2
        injection h2 with _ h2
        simpa only [kinds, h2] using g3
    · cases h

/-- A thread at `lock` of a mutex of which somebody has a guard cannot run. -/
theorem View.not_ready {s : Sys α} {L : Table α} (v : View p s L) {i j m : Nat} {c hs x} (hi : L[i]? = some (.lock m :: c, hs)) (hj : L[j]? = some x)
    (hm : x.2.any (fun h => h.2 == m) = true) : ¬ Ready p s i := by
  intro h
  obtain ⟨hlt, hne⟩ := ready_iff.1 h
  obtain ⟨C, b⟩ := v.inv.base
  obtain ⟨k, hk, hkm⟩ := List.any_eq_true.1 hm
  rw [← (v.at hj).2.1] at hk
  obtain ⟨y, hy, rfl⟩ := List.mem_map.1 hk
  cases hx : exec1 s.sys i with
  | none => exact hne hx
  | some s1 =>
    obtain ⟨C', t, he, _⟩ := Critical.exec1_eff b hx
    have h1 := (v.at hi).1
    cases he with
    | lock m' c' g h' hfree =>
      rw [h1] at h'; injection h' with e1 e2; injection e1 with e1; subst e1
      exact hfree j y hy (by simpa using hkm)
    | lockShared m' c' g h' _ => rw [h1] at h'; cases h'
    | read d c x h' _ => rw [h1] at h'; cases h'
    | write d f c x h' _ _ => rw [h1] at h'; cases h'
    | drop c y hs h' hy => rw [h1] at h'; cases h'

theorem not_thread {s : Sys α} {i : Nat} (hi : p.threads ≤ i) : ¬ Ready p s i := by
  intro h
  have := (ready_iff.1 h).1
  omega

/-- The execution that a sequence of tables describes. -/
theorem exec_of_tables {w : Nat → List (Cmd α)} (hs : p.Scoped) (hw : ∀ i k, p.work i k = w i) (L : Nat → Table α) (a : Nat → Option Act)
    (h0 : View p (start p) (L 0)) (h : ∀ n, (a n = none ∧ L (n + 1) = L n) ∨ ∃ x, a n = some x ∧ tstep w (L n) x = some (L (n + 1))) :
    ∃ e : Exec p, e.act = a ∧ ∀ n, View p (e.st n) (L n) := by
  have nxt : ∀ n s, View p s (L n) → ∃ s', View p s' (L (n + 1)) ∧ ((a n = none ∧ s' = s) ∨ ∃ x, a n = some x ∧ step p s x = some s') := by
    intro n s v
    rcases h n with ⟨h1, h2⟩ | ⟨x, h1, h2⟩
    · exact ⟨s, by rw [h2]; exact v, .inl ⟨h1, rfl⟩⟩
    · obtain ⟨s', h3, h4⟩ := v.step hs hw h2
      exact ⟨s', h4, .inr ⟨x, h1, h3⟩⟩
  let st : (n : Nat) → { s // View p s (L n) } := fun n => Nat.rec (motive := fun n => { s // View p s (L n) }) ⟨start p, h0⟩
    (fun n s => ⟨Classical.choose (nxt n s.1 s.2), (Classical.choose_spec (nxt n s.1 s.2)).1⟩) n
  refine ⟨⟨fun n => (st n).1, a, rfl, fun n => (Classical.choose_spec (nxt n (st n).1 (st n).2)).2⟩, rfl, fun n => (st n).2⟩

theorem view_start [Nonempty α] {L : Table α} (hl : p.threads = L.length) (h : ∀ x ∈ L, x = ([], [])) : View p (start p) L where
  inv := inv_start
  len := hl
  eq i := by
    show ([], []) = L.getD i ([], [])
    cases hi : L[i]? with
    | none => simp [List.getD_eq_getElem?_getD, hi]
    | some x => simp [List.getD_eq_getElem?_getD, hi, h x (List.mem_of_getElem? hi)]

/-! ### Executions that meet the hypotheses -/

/-- Two threads that lock one mutex (mutex.hpp:111). -/
def weakPlan : Plan Nat := ⟨[0], 2, fun _ _ => [.lock 0, .drop]⟩

/-- The states of two threads that take turns (mutex.hpp:111). -/
def turnTab : Nat → Table Nat
  | 0 => [([], []), ([], [])]
  | 1 => [([.lock 0, .drop], []), ([], [])]
  | 2 => [([.lock 0, .drop], []), ([.lock 0, .drop], [])]
  | 3 => [([.drop], [(.excl, 0)]), ([.lock 0, .drop], [])]
  | 4 => [([], []), ([.lock 0, .drop], [])]
  | _ => [([], []), ([.drop], [(.excl, 0)])]

/-- The steps between the states of `turnTab` (mutex.hpp:111). -/
def turnAct : Nat → Act
  | 0 => .begin 0 | 1 => .begin 1 | 2 => .run 0 | 3 => .run 0 | _ => .run 1

/-- Two threads take turns with a mutex for ever; the execution is fair, thread 1 has to wait again and again, and
`mutex_lock_returns` and `mutex_block_ends` apply to it. -/
theorem turns_exec : ∃ e : Exec weakPlan, e.Fair ∧ e.ReadersPause ∧ weakPlan.Scoped ∧ weakPlan.Ordered ∧ weakPlan.Exclusive ∧
    ∀ N, ∃ n, N ≤ n ∧ (e.thr n 1).now = [.lock 0, .drop] ∧ ¬ Ready weakPlan (e.st n) 1 := by
  have hs : weakPlan.Scoped := by intro i k; rfl
  have ho : weakPlan.Ordered := by intro i k; rfl
  have hx : weakPlan.Exclusive := by intro i k m; simp [weakPlan]
  have hnext : ∀ n, n % 6 < 6 ∧ (n + 1) % 6 = (n % 6 + 1) % 6 := by intro n; omega
  obtain ⟨e, ha, hv⟩ := exec_of_tables (w := fun _ => [.lock 0, .drop]) hs (fun _ _ => rfl)
    (fun n => turnTab (n % 6)) (fun n => some (turnAct (n % 6)))
    (view_start rfl (by intro x hx; simpa [turnTab] using hx)) (fun n => .inr ⟨_, rfl, by
      obtain ⟨hr, h2⟩ := hnext n
      rw [h2]
      generalize n % 6 = r at hr ⊢
      match r, hr with
      | 0, _ => rfl
      | 1, _ => rfl
      | 2, _ => rfl
      | 3, _ => rfl
      | 4, _ => rfl
      | 5, _ => rfl⟩)
  have hph : ∀ N r, r < 6 → (6 * N + r) % 6 = r := by intro N r hr; omega
  refine ⟨e, ?_, exclusive_pause e hs hx, hs, ho, hx, fun N => ?_⟩
  · intro i hr N
    by_cases h0 : i = 0
    · exact ⟨6 * N + 2, by omega, by rw [ha]; simp only [hph N 2 (by omega)]; rw [h0]; rfl⟩
    by_cases h1 : i = 1
    · exact ⟨6 * N + 4, by omega, by rw [ha]; simp only [hph N 4 (by omega)]; rw [h1]; rfl⟩
    exfalso
    obtain ⟨n, _, hn'⟩ := hr 0
    exact not_thread (by show 2 ≤ i; omega) hn'
  · have v := hv (6 * N + 3)
    simp only [hph N 3 (by omega)] at v
    exact ⟨6 * N + 3, by omega, (v.at (i := 1) rfl).1, v.not_ready (i := 1) (j := 0) (m := 0) rfl rfl rfl⟩

/-- A reader and a writer of one value (shared_mutex.hpp:113, 140). -/
def pairPlan : Plan Nat := ⟨[0], 2, fun i _ => if i = 0 then [.lockShared 0, .drop] else [.lock 0, .drop]⟩

/-- The states of a reader and a writer that take turns (shared_mutex.hpp:113, 140). -/
def pairTab : Nat → Table Nat
  | 0 => [([], []), ([], [])]
  | 1 => [([.lockShared 0, .drop], []), ([], [])]
  | 2 => [([.drop], [(.shrd, 0)]), ([], [])]
  | 3 => [([.drop], [(.shrd, 0)]), ([.lock 0, .drop], [])]
  | 4 => [([], []), ([.lock 0, .drop], [])]
  | _ => [([], []), ([.drop], [(.excl, 0)])]

/-- The steps between the states of `pairTab` (shared_mutex.hpp:113, 140). -/
def pairAct : Nat → Act
  | 0 => .begin 0 | 1 => .run 0 | 2 => .begin 1 | 3 => .run 0 | _ => .run 1

theorem pair_one : pairPlan.OneReader := by
  intro m i j k l hi hj
  by_cases h : i = 0
  · by_cases h' : j = 0
    · rw [h, h']
    · simp [pairPlan, h'] at hj
  · simp [pairPlan, h] at hi
/-- A reader and a writer take turns for ever; the execution is fair and the writer has to wait for the reader again and again. -/
theorem pair_exec : ∃ e : Exec pairPlan, e.Fair ∧ e.ReadersPause ∧ e.WritersFirst ∧ pairPlan.Scoped ∧ pairPlan.Ordered ∧
    (e.thr 1 0).now = [.lockShared 0, .drop] ∧ ∀ N, ∃ n, N ≤ n ∧ (e.thr n 1).now = [.lock 0, .drop] ∧ ¬ Ready pairPlan (e.st n) 1 := by
  have hs : pairPlan.Scoped := by intro i k; by_cases h : i = 0 <;> simp [pairPlan, h] <;> rfl
  have ho : pairPlan.Ordered := by intro i k; by_cases h : i = 0 <;> simp [pairPlan, h] <;> rfl
  have hnext : ∀ n, n % 6 < 6 ∧ (n + 1) % 6 = (n % 6 + 1) % 6 := by intro n; omega
  obtain ⟨e, ha, hv⟩ := exec_of_tables (w := fun i => if i = 0 then [.lockShared 0, .drop] else [.lock 0, .drop]) hs (fun _ _ => rfl)
    (fun n => pairTab (n % 6)) (fun n => some (pairAct (n % 6)))
    (view_start rfl (by intro x hx; simpa [pairTab] using hx)) (fun n => .inr ⟨_, rfl, by
      obtain ⟨hr, h2⟩ := hnext n
      rw [h2]
      generalize n % 6 = r at hr ⊢
      match r, hr with
      | 0, _ => rfl
      | 1, _ => rfl
      | 2, _ => rfl
      | 3, _ => rfl
      | 4, _ => rfl
      | 5, _ => rfl⟩)
  have hph : ∀ N r, r < 6 → (6 * N + r) % 6 = r := by intro N r hr; omega
  have never : ∀ m i N, ¬ ∀ n, N ≤ n → ∃ c, (e.thr n i).now = .lock m :: c := by
    intro m i N hw
    have v := hv (6 * N + 0)
    simp only [hph N 0 (by omega)] at v
    obtain ⟨c, hc⟩ := hw (6 * N + 0) (by omega)
    have hi := v.eq i
    simp only [Exec.thr] at hc
    rw [hc] at hi
    match i with
    | 0 => cases hi
    | 1 => cases hi
    | i + 2 => cases hi
  refine ⟨e, ?_, fun m i N hw => absurd hw (never m i N), fun m i N hw => absurd hw (never m i N), hs, ho, ((hv 1).at (i := 0) rfl).1, fun N => ?_⟩
  · intro i hr N
    by_cases h0 : i = 0
    · exact ⟨6 * N + 1, by omega, by rw [ha]; simp only [hph N 1 (by omega)]; rw [h0]; rfl⟩
    by_cases h1 : i = 1
    · exact ⟨6 * N + 4, by omega, by rw [ha]; simp only [hph N 4 (by omega)]; rw [h1]; rfl⟩
    exfalso
    obtain ⟨n, _, hn'⟩ := hr 0
    exact not_thread (by show 2 ≤ i; omega) hn'
  · have v := hv (6 * N + 3)
    simp only [hph N 3 (by omega)] at v
    exact ⟨6 * N + 3, by omega, (v.at (i := 1) rfl).1, v.not_ready (i := 1) (j := 0) (m := 0) rfl rfl rfl⟩

end Verif.Forever
