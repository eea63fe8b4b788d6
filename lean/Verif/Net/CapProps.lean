import Verif.Net.EndProps

/-!
The capacities of the channels of a network change no result (C123): they only decide whether the network gets stuck, and more
room never makes it stuck earlier.
-/
namespace Verif.Net

open Verif.Channel

variable {α : Type}

/-- The same network with other capacities (channel.hpp:40). -/
def Plan.withCap (p : Plan α) (cap : Nat → Nat) : Plan α := { p with cap := cap }

theorem areach_cap {p : Plan α} {cap cap' : Nat → Nat} (h : ∀ k, cap k ≤ cap' k) {A : Nat → List (Res α)}
    (hA : AReach (p.withCap cap) A) : AReach (p.withCap cap') A := by
  induction hA with
  | start => exact .start
  | @step A i r _ hs ih =>
    refine .step ih ?_
    rcases hs with hs | hs | ⟨k, x, hp, hr, hc, hl⟩ | hs | hs
    · exact .inl hs
    · exact .inr (.inl hs)
    · refine .inr (.inr (.inl ⟨k, x, hp, hr, hc, ?_⟩))
      have : (p.withCap cap).cap k ≤ (p.withCap cap').cap k := h k
      have e1 : sent (p.withCap cap') A k = sent (p.withCap cap) A k := rfl
      have e2 : got (p.withCap cap') A k = got (p.withCap cap) A k := rfl
      rw [e1, e2]; omega
    · exact .inr (.inr (.inr (.inl hs)))
    · exact .inr (.inr (.inr (.inr hs)))

/-- **C123** Executions with different capacities have the same results, as far as both go. -/
theorem network_capacity_results {p : Plan α} (ho : p.Owned) {cap cap' : Nat → Nat} {s s' : Sys α} (h : Reach (p.withCap cap) s)
    (h' : Reach (p.withCap cap') s') (i : Nat) :
    (s.thr i).res <+: (s'.thr i).res ∨ (s'.thr i).res <+: (s.thr i).res := by
  have hi := (inv_reach (p := p.withCap cap) ho h).areach
  have hi' := (inv_reach (p := p.withCap cap') ho h').areach
  have g : AReach (p.withCap fun k => cap k + cap' k) (eff (p.withCap cap) s) := areach_cap (fun k => by omega) hi
  have g' : AReach (p.withCap fun k => cap k + cap' k) (eff (p.withCap cap') s') := areach_cap (fun k => by omega) hi'
  rcases determined (p := p.withCap fun k => cap k + cap' k) ho g g' i with hc | hc
  · exact List.prefix_or_prefix_of_prefix ((res_eff _ s i).trans hc) (res_eff _ s' i)
  · exact List.prefix_or_prefix_of_prefix (res_eff _ s i) ((res_eff _ s' i).trans hc)

/-- **C123** With more room an execution that cannot go on has got at least as far, in every thread, as any execution with less. -/
theorem network_capacity_more {p : Plan α} (ho : p.Owned) {cap cap' : Nat → Nat} (hc : ∀ k, cap k ≤ cap' k) {s s' : Sys α}
    (h : Reach (p.withCap cap) s) (h' : Reach (p.withCap cap') s') (hs' : Stuck (p.withCap cap') s') (i : Nat) :
    (s.thr i).res <+: (s'.thr i).res := by
  have hi := (inv_reach (p := p.withCap cap) ho h).areach
  have hi' := inv_reach (p := p.withCap cap') ho h'
  obtain ⟨h1, h2⟩ := stuck_abstract (p := p.withCap cap') ho hi' hs'
  have := maximal (p := p.withCap cap') ho hi'.areach h2 (areach_cap hc hi) i
  rw [h1 i] at this
  exact (res_eff _ s i).trans this

/-- **C123** If all threads finish in one execution with some capacities, then with at least as much room every execution that
cannot go on has all threads finished, with the same results. -/
theorem network_capacity_finish {p : Plan α} (ho : p.Owned) {cap cap' : Nat → Nat} (hc : ∀ k, cap k ≤ cap' k) {s s' : Sys α}
    (h : Reach (p.withCap cap) s) (hf : ∀ i, p.prog i (s.thr i).res = .stop) (h' : Reach (p.withCap cap') s')
    (hs' : Stuck (p.withCap cap') s') (i : Nat) : (s'.thr i).res = (s.thr i).res ∧ p.prog i (s'.thr i).res = .stop := by
  have h1 := network_capacity_more ho hc h h' hs' i
  have : (s'.thr i).res = (s.thr i).res := by
    rcases prefix_next h1 with e | ⟨r, hr⟩
    · exact e.symm
    · exfalso
      have := justified (p := p.withCap cap') ho (inv_reach (p := p.withCap cap') ho h').areach i _ r (hr.trans (res_eff _ s' i))
      have hfi : (p.withCap cap').prog i (s.thr i).res = .stop := hf i
      rcases this with ⟨k', x', hp, -⟩ | ⟨k', hp, -⟩ | ⟨k', x', hp, -⟩ | ⟨k', x', hp, -⟩ | ⟨k', hp, -⟩ <;>
        rw [hfi] at hp <;> cases hp
  exact ⟨this, by rw [this]; exact hf i⟩

/-- One thread pushes two elements into each of two channels, the other pops them in the other order (example for
channel.hpp:85-194). -/
def crossed : Plan Nat where
  cap _ := 1
  prod _ := 0
  cons _ := 1
  prog i rs := match i, rs with
    | 0, [] => .push 0 1
    | 0, [_] => .push 0 2
    | 0, [_, _] => .push 1 3
    | 1, [] => .pop 1
    | 1, [_] => .pop 0
    | 1, [_, _] => .pop 0
    | _, _ => .stop

theorem crossed_owned : crossed.Owned := by
  intro i rs
  simp only [crossed]
  split <;> simp

theorem crossed_stop {i : Nat} (hi : 2 ≤ i) (rs : List (Res Nat)) : crossed.prog i rs = .stop := by
  match i, hi with
  | n + 2, _ => rfl

/-- `crossed` deadlocks with room for one element and finishes with room for two. -/
theorem crossed_one : (exec (crossed.withCap fun _ => 1) (start Nat) (sched (crossed.withCap fun _ => 1) 2 300 (start Nat))).map
    (fun s => ((s.thr 0), (s.thr 1), (s.chan 0).pcs, (s.chan 1).pcs)) =
      some (⟨[.bool true], true⟩, ⟨[], true⟩, [.eSleep 2, .idle], [.idle, .pSleep]) := by decide +kernel

theorem crossed_two : (exec (crossed.withCap fun _ => 2) (start Nat) (sched (crossed.withCap fun _ => 2) 2 300 (start Nat))).map
    (fun s => ((s.thr 0), (s.thr 1))) =
      some (⟨[.bool true, .bool true, .bool true], false⟩, ⟨[.val (some 3), .val (some 1), .val (some 2)], false⟩) := by
  decide +kernel

/-- **C123** More room can be needed: the same network is stuck with one capacity and finishes with another. -/
theorem network_capacity_needed : ∃ (p : Plan Nat) (s s' : Sys Nat), p.Owned ∧ Reach (p.withCap fun _ => 1) s ∧
    Stuck (p.withCap fun _ => 1) s ∧ p.prog 1 (s.thr 1).res ≠ .stop ∧ Reach (p.withCap fun _ => 2) s' ∧
    ∀ i, (s'.thr i).inside = false ∧ p.prog i (s'.thr i).res = .stop := by
  have h1 := crossed_one
  have h2 := crossed_two
  simp only [Option.map_eq_some_iff] at h1 h2
  obtain ⟨s, h1, e1⟩ := h1
  obtain ⟨s', h2, e2⟩ := h2
  simp only [Prod.mk.injEq] at e1 e2
  obtain ⟨a1, a2, a3, a4⟩ := e1
  obtain ⟨b1, b2⟩ := e2
  have hout : ∀ (cap : Nat → Nat) (s : Sys Nat), Reach (crossed.withCap cap) s → ∀ i, 2 ≤ i → s.thr i = ⟨[], false⟩ := by
    intro cap s ⟨acts, h⟩ i hi
    have hc : ∀ rs, (crossed.withCap cap).callOf i ((crossed.withCap cap).prog i rs) = none := by
      intro rs
      have : (crossed.withCap cap).prog i rs = .stop := crossed_stop hi rs
      rw [this]; rfl
    have : ∀ (l : List NAct) (s0 s : Sys Nat), exec (crossed.withCap cap) s0 l = some s → s0.thr i = ⟨[], false⟩ → s.thr i = ⟨[], false⟩ := by
      intro l
      induction l with
      | nil => intro s0 s h0 h; simp [exec] at h0; subst h0; exact h
      | cons a l ih =>
        intro s0 s h0 h
        simp only [exec, Option.bind_eq_some_iff] at h0
        obtain ⟨s1, g1, g2⟩ := h0
        refine ih s1 s g2 ?_
        have hb : ∀ j, s0.begin (crossed.withCap cap) j = some s1 → s1.thr i = ⟨[], false⟩ := by
          intro j hb
          unfold Sys.begin at hb
          split at hb <;> [skip; simp at hb]
          rename_i hcall
          rw [Option.map_eq_some_iff] at hb
          obtain ⟨c, -, rfl⟩ := hb
          by_cases e : j = i
          · subst e; rw [hc] at hcall; simp at hcall
          · exact (upd_other _ _ (fun e' => e e'.symm)).trans h
        have hr : ∀ j act, s0.run (crossed.withCap cap) j act = some s1 → s1.thr i = ⟨[], false⟩ := by
          intro j act hb
          unfold Sys.run at hb
          split at hb <;> [skip; simp at hb]
          rename_i hcall
          rw [Option.map_eq_some_iff] at hb
          obtain ⟨c, -, rfl⟩ := hb
          by_cases e : j = i
          · subst e; rw [hc] at hcall; simp at hcall
          · split
            · exact (upd_other _ _ (fun e' => e e'.symm)).trans h
            · exact h
        cases a with
        | begin j => exact hb j g1
        | run j w => exact hr j _ g1
        | spurious j => exact hr j _ g1
        | stale j => exact hr j _ g1
    exact this acts _ _ h rfl
  refine ⟨crossed, s, s', crossed_owned, ⟨_, h1⟩, ?_, by rw [a2]; simp [crossed], ⟨_, h2⟩, ?_⟩
  · intro i w
    match i with
    | 0 => simp [step, Sys.begin, Sys.run, a1, crossed, Plan.withCap, Plan.callOf, Plan.side, next, a3, stepAt]
    | 1 => simp [step, Sys.begin, Sys.run, a2, crossed, Plan.withCap, Plan.callOf, Plan.side, next, a4, stepAt]
    | n + 2 =>
      have := hout _ s ⟨_, h1⟩ (n + 2) (by omega)
      have hc : (crossed.withCap fun _ => 1).callOf (n + 2) ((crossed.withCap fun _ => 1).prog (n + 2) []) = none := rfl
      simp [step, Sys.begin, Sys.run, this, hc]
  · intro i
    match i with
    | 0 => rw [b1]; exact ⟨rfl, rfl⟩
    | 1 => rw [b2]; exact ⟨rfl, rfl⟩
    | n + 2 => rw [hout _ s' ⟨_, h2⟩ (n + 2) (by omega)]; exact ⟨rfl, rfl⟩

/-- By `network_capacity_needed` the theorems apply to a network that deadlocks with less room; what it computes until then is
what it computes with more. -/
example : ∃ s, Reach (crossed.withCap fun _ => 2) s ∧ ∀ s', Reach (crossed.withCap fun _ => 1) s' →
    (s'.thr 1).res <+: [.val (some 3), .val (some 1), .val (some 2)] ∨ [.val (some 3), .val (some 1), .val (some 2)] <+: (s'.thr 1).res := by
  have h2 := crossed_two
  simp only [Option.map_eq_some_iff] at h2
  obtain ⟨s, h2, e2⟩ := h2
  simp only [Prod.mk.injEq] at e2
  refine ⟨s, ⟨_, h2⟩, fun s' h' => ?_⟩
  have := network_capacity_results crossed_owned h' ⟨_, h2⟩ 1
  rw [e2.2] at this
  exact this

/-- `network_capacity_more` and `network_capacity_finish` apply to `cycle` with room for one and for five. -/
example : ∃ s, Reach (cycle.withCap fun _ => 1) s ∧ (∀ i, i < 2 → cycle.prog i (s.thr i).res = .stop) ∧
    ∃ s', Reach (cycle.withCap fun _ => 5) s' ∧ Stuck (cycle.withCap fun _ => 5) s' := by
  have _u1 := @network_capacity_more Nat cycle cycle_owned
  have _u2 := @network_capacity_finish Nat cycle cycle_owned
  have h1 : (exec (cycle.withCap fun _ => 1) (start Nat) (sched (cycle.withCap fun _ => 1) 2 400 (start Nat))).map
      (fun s => (s.thr 0, s.thr 1)) = some (⟨[.bool true, .val (some 6), .bool true, .val (some 12), .unit], false⟩,
      ⟨[.val (some 3), .bool true, .val (some 6), .bool true, .val none, .unit], false⟩) := by decide +kernel
  have h2 : (exec (cycle.withCap fun _ => 5) (start Nat) (sched (cycle.withCap fun _ => 5) 2 400 (start Nat))).map
      (fun s => (s.thr 0, s.thr 1)) = some (⟨[.bool true, .val (some 6), .bool true, .val (some 12), .unit], false⟩,
      ⟨[.val (some 3), .bool true, .val (some 6), .bool true, .val none, .unit], false⟩) := by decide +kernel
  simp only [Option.map_eq_some_iff] at h1 h2
  obtain ⟨s, h1, e1⟩ := h1
  obtain ⟨s', h2, e2⟩ := h2
  simp only [Prod.mk.injEq] at e1 e2
  refine ⟨s, ⟨_, h1⟩, ?_, s', ⟨_, h2⟩, ?_⟩
  · intro i hi
    match i, hi with
    | 0, _ => rw [e1.1]; rfl
    | 1, _ => rw [e1.2]; rfl
  · intro i w
    match i with
    | 0 => simp [step, Sys.begin, Sys.run, e2.1, cycle, Plan.withCap, Plan.callOf]
    | 1 => simp [step, Sys.begin, Sys.run, e2.2, cycle, Plan.withCap, Plan.callOf]
    | n + 2 =>
      have : ∀ rs, (cycle.withCap fun _ => 5).callOf (n + 2) ((cycle.withCap fun _ => 5).prog (n + 2) rs) = none := fun rs => rfl
      simp only [step, Sys.begin, Sys.run, this]
      cases (s'.thr (n + 2)).inside <;> simp

end Verif.Net
