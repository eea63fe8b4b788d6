import Verif.Net.TreeProps

/-!
What `network_forest_no_deadlock` (C124) asks for is needed: without one of its conditions, and with all others, there are
networks that deadlock.
-/
namespace Verif.Net

open Verif.Channel

/-- Thread 0 pushes two elements into channel 0 and then one into channel 1, thread 1 first reads channel 1 to the end, and then
channel 0 (example for channel.hpp:58-194). -/
def twist : Plan Nat where
  cap _ := 1
  prod _ := 0
  cons _ := 1
  prog i rs := match i with
    | 0 => match rs.length with
      | 0 => .push 0 1
      | 1 => .push 0 2
      | 2 => .push 1 3
      | 3 => .close 0
      | 4 => .close 1
      | _ => .stop
    | 1 => match rs.count (.val none) with
      | 0 => .pop 1
      | 1 => .pop 0
      | _ => .stop
    | _ => .stop

theorem first_nones {rs : List (Res Nat)} : ∀ n, n < rs.count (.val none) →
    ∃ pre, pre ++ [.val none] <+: rs ∧ pre.count (.val none) = n := by
  induction rs with
  | nil => intro n h; simp at h
  | cons r rs ih =>
    intro n h
    by_cases hr : r = .val none
    · subst hr
      cases n with
      | zero => exact ⟨[], ⟨rs, rfl⟩, rfl⟩
      | succ n =>
        simp at h
        obtain ⟨pre, ⟨t, e⟩, hc⟩ := ih n h
        exact ⟨.val none :: pre, ⟨t, by simp [← e]⟩, by simp [hc]⟩
    · rw [List.count_cons_of_ne hr] at h
      obtain ⟨pre, ⟨t, e⟩, hc⟩ := ih n h
      exact ⟨r :: pre, ⟨t, by simp [← e]⟩, by rw [List.count_cons_of_ne hr, hc]⟩

theorem twist_tidy : Tidy twist 2 := by
  intro s _ j hj k hk
  constructor
  · intro e
    have e0 : j = 0 := e.symm
    subst e0
    have hlen : 5 ≤ (s.thr 0).res.length := by
      by_contra hl
      have : ∀ l : Nat, l < 5 → (match l with | 0 => Req.push 0 1 | 1 => .push 0 2 | 2 => .push 1 3 | 3 => .close 0 | 4 => .close 1 | _ => .stop) ≠
        (Req.stop : Req Nat) := by decide
      exact this _ (by omega) hj
    generalize (s.thr 0).res = rs at hlen
    match rs, hlen with
    | a :: b :: c :: d :: f :: rest, _ =>
      match k, hk with
      | 0, _ => exact ⟨[a, b, c], d, ⟨f :: rest, rfl⟩, rfl⟩
      | 1, _ => exact ⟨[a, b, c, d], f, ⟨rest, rfl⟩, rfl⟩
  · intro e
    have e0 : j = 1 := e.symm
    subst e0
    generalize (s.thr 1).res = rs at hj
    have hn : 2 ≤ rs.count (.val none) := by
      by_contra hl
      have : ∀ l : Nat, l < 2 → (match l with | 0 => Req.pop 1 | 1 => .pop 0 | _ => .stop) ≠ (Req.stop : Req Nat) := by decide
      exact this _ (by omega) hj
    match k, hk with
    | 0, _ =>
      obtain ⟨pre, h1, h2⟩ := first_nones (rs := rs) 1 (by omega)
      exact ⟨pre, h1, by simp [twist, h2]⟩
    | 1, _ =>
      obtain ⟨pre, h1, h2⟩ := first_nones (rs := rs) 0 (by omega)
      exact ⟨pre, h1, by simp [twist, h2]⟩

theorem twist_run : (exec twist (start Nat) (sched twist 2 300 (start Nat))).map
    (fun s => (s.thr 0, s.thr 1, (s.chan 0).pcs, (s.chan 1).pcs)) =
    some (⟨[.bool true], true⟩, ⟨[], true⟩, [.eSleep 2, .idle], [.idle, .pSleep]) := by decide +kernel

/-- **C124** Without the forest: two channels between the same two threads, which are tidy, with room in the channels. One thread
waits for room in one channel, the other for an element of the other channel. -/
theorem network_cycle_deadlock_refuted : ∃ (p : Plan Nat) (s : Sys Nat), p.Owned ∧
    (∀ i, 2 ≤ i → ∀ rs, p.prog i rs = .stop) ∧ (∀ i rs k, p.prog i rs = .pop k → k < 2) ∧
    (∀ i rs k x, p.prog i rs = .push k x → k < 2) ∧ (∀ k, k < 2 → p.prod k = 0 ∧ p.cons k = 1) ∧
    Tidy p 2 ∧ (∀ k, k < 2 → 1 ≤ p.cap k) ∧ Reach p s ∧ Stuck p s ∧
    p.prog 0 (s.thr 0).res = .push 0 2 ∧ p.prog 1 (s.thr 1).res = .pop 1 := by
  have h := twist_run
  simp only [Option.map_eq_some_iff] at h
  obtain ⟨s, h1, h2⟩ := h
  simp only [Prod.mk.injEq] at h2
  obtain ⟨t0, t1, c0, c1⟩ := h2
  refine ⟨twist, s, ?_, ?_, ?_, ?_, fun _ _ => ⟨rfl, rfl⟩, twist_tidy, fun _ _ => Nat.le_refl _, ⟨_, h1⟩, ?_, by rw [t0]; rfl,
    by rw [t1]; rfl⟩
  · intro i rs
    match i with
    | 0 => simp only [twist]; split <;> simp
    | 1 => simp only [twist]; split <;> simp
    | n + 2 => simp [twist]
  · intro i hi rs
    match i, hi with
    | n + 2, _ => rfl
  · intro i rs k
    match i with
    | 0 => simp only [twist]; split <;> simp
    | 1 => simp only [twist]; split <;> simp <;> omega
    | n + 2 => simp [twist]
  · intro i rs k x
    match i with
    | 0 => simp only [twist]; split <;> simp <;> omega
    | 1 => simp only [twist]; split <;> simp
    | n + 2 => simp [twist]
  · intro i w
    match i with
    | 0 => simp [step, Sys.begin, Sys.run, t0, twist, Plan.callOf, Plan.side, next, c0, stepAt]
    | 1 => simp [step, Sys.begin, Sys.run, t1, twist, Plan.callOf, Plan.side, next, c1, stepAt]
    | n + 2 =>
      have : ∀ rs, twist.callOf (n + 2) (twist.prog (n + 2) rs) = none := fun rs => rfl
      simp only [step, Sys.begin, Sys.run, this]
      cases (s.thr (n + 2)).inside <;> simp

/-- One channel of capacity `cap`: thread 0 pushes two elements and closes it; thread 1 reads it to the end, or not at all (example
for channel.hpp:58-194). -/
def single (cap : Nat) (reads : Bool) : Plan Nat where
  cap _ := cap
  prod _ := 0
  cons _ := 1
  prog i rs := match i with
    | 0 => match rs.length with
      | 0 => .push 0 1
      | 1 => .push 0 2
      | 2 => .close 0
      | _ => .stop
    | 1 => if reads = false ∨ .val none ∈ rs then .stop else .pop 0
    | _ => .stop

theorem single_owned (cap : Nat) (reads : Bool) : (single cap reads).Owned := by
  intro i rs
  match i with
  | 0 => simp only [single]; split <;> simp
  | 1 => simp only [single]; split <;> simp
  | n + 2 => simp [single]

theorem single_forest (cap : Nat) (reads : Bool) : Forest (single cap reads) 2 1 where
  threads i hi rs := by
    match i, hi with
    | n + 2, _ => rfl
  pops i rs k := by
    match i with
    | 0 => simp only [single]; split <;> simp
    | 1 => simp only [single]; split <;> simp; omega
    | n + 2 => simp [single]
  pushes i rs k x := by
    match i with
    | 0 => simp only [single]; split <;> simp <;> omega
    | 1 => simp only [single]; split <;> simp
    | n + 2 => simp [single]
  ends k hk := by simp [single]
  parent k k' h h' _ := by omega

theorem single_closes (cap : Nat) (reads : Bool) (rs : List (Res Nat)) (h : (single cap reads).prog 0 rs = .stop) :
    HasClosed (single cap reads) 0 0 rs := by
  have hlen : 3 ≤ rs.length := by
    by_contra hl
    have : ∀ l : Nat, l < 3 → (match l with | 0 => Req.push 0 1 | 1 => .push 0 2 | 2 => .close 0 | _ => .stop) ≠
      (Req.stop : Req Nat) := by decide
    exact this _ (by omega) h
  match rs, hlen with
  | a :: b :: c :: rest, _ => exact ⟨[a, b], c, ⟨rest, rfl⟩, rfl⟩

theorem single_tidy (cap : Nat) : Tidy (single cap true) 1 := by
  intro s _ j hj k hk
  have hk0 : k = 0 := by omega
  subst hk0
  constructor
  · intro e
    have e0 : j = 0 := e.symm
    subst e0
    exact single_closes _ _ _ hj
  · intro e
    have e0 : j = 1 := e.symm
    subst e0
    generalize (s.thr 1).res = rs at hj
    have hmem : .val none ∈ rs := by
      by_contra hn
      simp [single, hn] at hj
    obtain ⟨as, bs, rfl, hno⟩ := List.eq_append_cons_of_mem hmem
    exact ⟨as, ⟨bs, by simp⟩, by simp [single, hno]⟩

theorem leave_run : (exec (single 1 false) (start Nat) (sched (single 1 false) 2 300 (start Nat))).map
    (fun s => (s.thr 0, s.thr 1, (s.chan 0).pcs)) = some (⟨[.bool true], true⟩, ⟨[], false⟩, [.eSleep 2, .idle]) := by
  decide +kernel

theorem zero_run : (exec (single 0 true) (start Nat) (sched (single 0 true) 2 300 (start Nat))).map
    (fun s => (s.thr 0, s.thr 1, (s.chan 0).pcs)) = some (⟨[], true⟩, ⟨[], true⟩, [.eSleep 1, .pSleep]) := by
  decide +kernel

/-- **C124** Without tidiness of the consumer, which finishes before it has seen the end of its channel: the producer waits for room
for ever. All other conditions hold, and the producer closes what it writes. -/
theorem network_untidy_deadlock_refuted : ∃ (p : Plan Nat) (s : Sys Nat), p.Owned ∧ Forest p 2 1 ∧
    (∀ s, Reach p s → p.prog 0 (s.thr 0).res = .stop → HasClosed p 0 0 (s.thr 0).res) ∧ (∀ k, k < 1 → 1 ≤ p.cap k) ∧
    Reach p s ∧ Stuck p s ∧ p.prog 0 (s.thr 0).res = .push 0 2 := by
  have h := leave_run
  simp only [Option.map_eq_some_iff] at h
  obtain ⟨s, h1, h2⟩ := h
  simp only [Prod.mk.injEq] at h2
  obtain ⟨t0, t1, c0⟩ := h2
  refine ⟨single 1 false, s, single_owned _ _, single_forest _ _, fun s _ h => single_closes _ _ _ h, fun _ _ => Nat.le_refl _,
    ⟨_, h1⟩, ?_, by rw [t0]; rfl⟩
  intro i w
  match i with
  | 0 => simp [step, Sys.begin, Sys.run, t0, single, Plan.callOf, Plan.side, next, c0, stepAt]
  | 1 => simp [step, Sys.begin, Sys.run, t1, single, Plan.callOf]
  | n + 2 =>
    have : ∀ rs, (single 1 false).callOf (n + 2) ((single 1 false).prog (n + 2) rs) = none := fun rs => rfl
    simp only [step, Sys.begin, Sys.run, this]
    cases (s.thr (n + 2)).inside <;> simp

/-- **C124** Without room: in a channel of capacity 0 the producer and the consumer wait for each other, although the graph is a
forest and the threads are tidy. -/
theorem network_zero_deadlock_refuted : ∃ (p : Plan Nat) (s : Sys Nat), p.Owned ∧ Forest p 2 1 ∧ Tidy p 1 ∧ p.cap 0 = 0 ∧
    Reach p s ∧ Stuck p s ∧ p.prog 0 (s.thr 0).res = .push 0 1 ∧ p.prog 1 (s.thr 1).res = .pop 0 := by
  have h := zero_run
  simp only [Option.map_eq_some_iff] at h
  obtain ⟨s, h1, h2⟩ := h
  simp only [Prod.mk.injEq] at h2
  obtain ⟨t0, t1, c0⟩ := h2
  refine ⟨single 0 true, s, single_owned _ _, single_forest _ _, single_tidy _, rfl, ⟨_, h1⟩, ?_, by rw [t0]; rfl, by rw [t1]; rfl⟩
  intro i w
  match i with
  | 0 => simp [step, Sys.begin, Sys.run, t0, single, Plan.callOf, Plan.side, next, c0, stepAt]
  | 1 => simp [step, Sys.begin, Sys.run, t1, single, Plan.callOf, Plan.side, next, c0, stepAt]
  | n + 2 =>
    have : ∀ rs, (single 0 true).callOf (n + 2) ((single 0 true).prog (n + 2) rs) = none := fun rs => rfl
    simp only [step, Sys.begin, Sys.run, this]
    cases (s.thr (n + 2)).inside <;> simp

end Verif.Net
