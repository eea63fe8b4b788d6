import Verif.Channel.DestroyProps
import Verif.Exchange.DestroyProps
import Verif.Relay.Props

/-! When the channels of a pipeline or of a relay may be destroyed (C109). -/
namespace Verif.Pipeline

open Verif.Channel

variable {α : Type}

/-- **C109**: in a pipeline the channel between two threads may be destroyed as soon as both of them are over, whatever the
other threads do. -/
theorem pipeline_destroy {p : Plan α} {s : Sys α} (h : Reach p s) {k : Nat} (hk : k ≤ p.inner)
    (h1 : (s.stage k).pos = .over) (h2 : (s.stage (k + 1)).pos = .over) :
    MayDestroy (p.cfg k) (s.chan k) 0 ∧ MayDestroy (p.cfg k) (s.chan k) 1 := by
  have hl := (inv_reach h).links k hk
  obtain ⟨pc0, pc1, e, e0, e1, -⟩ := hl.pcs
  simp only [ProdOk, h1] at e0
  simp only [ConsOk, h2] at e1
  have i0 := next_ne_idle_cls e0.1
  have i1 := next_ne_idle_cls e1.1
  subst i0 i1
  have hc : ∀ pc ∈ (s.chan k).pcs, Clear pc := by
    rw [e]; intro pc hp; simp at hp; exact .inl hp
  exact ⟨(channel_destroy_iff hl.reach (by rw [e]; rfl)).mpr hc, (channel_destroy_iff hl.reach (by rw [e]; rfl)).mpr hc⟩

/-- One element from one thread to another (example for channel.hpp:58-194). -/
def single : Plan Nat := { inner := 0, cap := fun _ => 1, source := [7], body := fun _ x => [x] }

theorem single_run : (exec single (start single) (sched single 100 (start single))).map
    (fun s => ((s.stage 0).pos, (s.stage 1).pos, (s.stage 1).got)) = some (.over, .over, [7]) := by decide +kernel

example : ∃ s, Reach single s ∧ (s.stage 0).pos = .over ∧ (s.stage 1).pos = .over := by
  have _use := @pipeline_destroy Nat single
  have h := single_run
  simp only [Option.map_eq_some_iff] at h
  obtain ⟨s, h1, h2⟩ := h
  simp only [Prod.mk.injEq] at h2
  exact ⟨s, ⟨_, h1⟩, h2.1, h2.2.1⟩

theorem single_early : (exec single (start single) (sched single 32 (start single))).map
    (fun s => ((s.stage 1).pos, (s.stage 1).got, (s.chan 0).pcs)) = some (.over, [7], [.cNotifyF, .idle]) := by decide +kernel

/-- **C109** (refuted claim): the last thread must not destroy the channel when its loop is over, although it has got
everything: the other thread is still about to notify. -/
theorem pipeline_destroy_refuted : ∃ (p : Plan Nat) (s : Sys Nat), Reach p s ∧ (s.stage (p.inner + 1)).pos = .over ∧
    (s.stage (p.inner + 1)).got = stream p p.inner ∧ ¬ MayDestroy (p.cfg p.inner) (s.chan p.inner) 1 := by
  have h := single_early
  simp only [Option.map_eq_some_iff] at h
  obtain ⟨s, h1, h2⟩ := h
  simp only [Prod.mk.injEq] at h2
  refine ⟨single, s, ⟨_, h1⟩, h2.1, h2.2.1.trans (by decide), ?_⟩
  have hr : Reach single s := ⟨_, h1⟩
  have hl := (inv_reach hr).links 0 (Nat.le_refl _)
  show ¬ MayDestroy (single.cfg 0) (s.chan 0) 1
  rw [channel_destroy_iff hl.reach (by rw [h2.2.2]; rfl), h2.2.2]
  simp [Clear]

end Verif.Pipeline

namespace Verif.Relay

open Verif.Exchange

variable {α : Type}

/-- **C109**: in a relay the exchange channel between two threads may be destroyed as soon as both of them are over. -/
theorem relay_destroy {p : Plan α} {s : Sys α} (h : Reach p s) {k : Nat} (hk : k ≤ p.inner)
    (h1 : (s.stage k).pos = .over) (h2 : (s.stage (k + 1)).pos = .over) :
    MayDestroy {} (s.chan k) 0 ∧ MayDestroy {} (s.chan k) 1 := by
  have hl := (inv_reach h).links k hk
  obtain ⟨pc0, pc1, -, e, e0, e1, -⟩ := hl.pcs
  simp only [ProdOk, h1] at e0
  simp only [ConsOk, h2] at e1
  have i0 := idle_of_cls e0.1
  have i1 := idle_of_cls e1.1
  subst i0 i1
  have hc : ∀ pc ∈ (s.chan k).pcs, Clear pc := by
    rw [e]; intro pc hp; simp at hp; exact .inl hp
  exact ⟨(exchange_destroy_iff hl.reach (by rw [e]; rfl)).mpr hc, (exchange_destroy_iff hl.reach (by rw [e]; rfl)).mpr hc⟩

example : ∃ s, Reach squares s ∧ (s.stage 1).pos = .over ∧ (s.stage 2).pos = .over := by
  have _use := @relay_destroy Nat squares
  have h := squares_newest
  simp only [Option.map_eq_some_iff] at h
  obtain ⟨s, h1, h2⟩ := h
  simp only [report, Prod.mk.injEq, List.cons.injEq] at h2
  exact ⟨s, ⟨_, h1⟩, h2.1.2.1, h2.1.2.2.1⟩

end Verif.Relay
