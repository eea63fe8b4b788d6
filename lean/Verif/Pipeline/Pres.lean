import Verif.Pipeline.Inv

/-! Every action of the pipeline preserves the invariant. -/
namespace Verif.Pipeline

open Verif.Channel

variable {α : Type}

theorem upd_ne {β : Type} {f : Nat → β} {k j : Nat} {b : β} (h : j ≠ k) : upd f k b j = f j := by simp [upd, h]
theorem upd_eq {β : Type} {f : Nat → β} {k : Nat} {b : β} : upd f k b k = b := by simp [upd]

theorem inv_closeOut {p : Plan α} {s s' : Sys α} {i : Nat} (h : Inv p s) (hi : i ≤ p.inner + 1)
    (hpos : (s.stage i).pos = .shutOut ∨
      (i = 0 ∧ ((s.stage i).pos = .shutIn ∨ ((s.stage i).pos = .loop ∧ (s.stage i).todo = []))))
    (hs : s.closeOut p i = some s') : Inv p s' := by
  have hst := h.stages i hi
  have htodo : (s.stage i).rej = false → (s.stage i).todo = [] := by
    intro hr
    rcases hpos with hp | ⟨_, hp | ⟨_, hp⟩⟩
    · exact hst.todo hr (by simp [hp]) (by simp [hp])
    · exact hst.todo hr (by simp [hp]) (by simp [hp])
    · exact hp
  have hflag : flag (s.stage i).pos ≤ 2 := by
    rcases hpos with hp | ⟨_, hp | ⟨hp, _⟩⟩ <;> simp [hp, flag]
  have hcalls := hst.calls
  unfold Sys.closeOut at hs
  split at hs
  · rename_i hle
    simp only [Sys.call, Option.map_eq_some_iff] at hs
    obtain ⟨c, hc, rfl⟩ := hs
    refine inv_of h (fun k h1 _ => upd_ne h1) ?_ ?_ ?_
    · refine ⟨fun hr _ _ => htodo hr, hst.why, hst.rejLeft, by simp, by simp, by simp, by simp, hst.quota,
        fun h0 => ⟨(hst.first h0).1, by simp, by simp⟩, fun hl => by omega, ?_⟩
      simp only [made] at hcalls ⊢
      simp only [flag]
      omega
    · intro _
      rw [upd_eq]
      refine (h.links i hle).callP hc rfl rfl rfl ?_ ?_ (by simp [entry, cls])
      · rcases hpos with hp | ⟨_, hp | ⟨hp, _⟩⟩ <;> simp [hp]
      · intro b; simp [ProdOk, entry, cls]
    · rintro j rfl hj
      rw [upd_ne (by omega)]
      rcases hpos with hp | ⟨h0, _⟩
      · refine (h.links j hj).frameC rfl id ?_
        intro pc1 hk
        simpa only [ConsOk, hp] using hk
      · omega
  · rename_i hle
    injection hs with hs; subst hs
    have hp : (s.stage i).pos = .shutOut := by
      rcases hpos with hp | ⟨h0, _⟩
      · exact hp
      · omega
    refine inv_of h (fun k _ _ => rfl) ?_ (by omega) ?_
    · refine ⟨fun hr _ _ => htodo hr, hst.why, hst.rejLeft, by simp, by simp, by simp, by simp, hst.quota,
        fun h0 => by omega, fun hl => ⟨(hst.last hl).1, by simp, by simp, (hst.last hl).2.2.2⟩, ?_⟩
      simp only [made] at hcalls ⊢
      simp only [flag]
      omega
    · rintro j rfl hj
      refine (h.links j hj).frameC rfl id ?_
      intro pc1 hk
      simpa only [ConsOk, hp] using hk

theorem inv_leave {p : Plan α} {s s' : Sys α} {i : Nat} (h : Inv p s) (hi : i ≤ p.inner + 1)
    (hpos : (s.stage i).pos = .shutIn ∨
      (i ≠ 0 ∧ (s.stage i).pos = .loop ∧ (s.stage i).todo = [] ∧ p.enough i (s.stage i).got = true))
    (hs : s.leave p i = some s') : Inv p s' := by
  have hst := h.stages i hi
  unfold Sys.leave at hs
  split at hs
  · rename_i h0
    refine inv_closeOut h hi (.inr ⟨h0, ?_⟩) hs
    rcases hpos with hp | ⟨hn, _⟩
    · exact .inl hp
    · exact absurd h0 hn
  · rename_i h0
    have htodo : (s.stage i).rej = false → (s.stage i).todo = [] := by
      intro hr
      rcases hpos with hp | ⟨_, _, hp, _⟩
      · exact hst.todo hr (by simp [hp]) (by simp [hp])
      · exact hp
    have hflag : flag (s.stage i).pos ≤ 1 := by
      rcases hpos with hp | ⟨_, hp, _⟩ <;> simp [hp, flag]
    have hcalls := hst.calls
    simp only [Sys.call, Option.map_eq_some_iff] at hs
    obtain ⟨c, hc, rfl⟩ := hs
    refine inv_of h (fun k h1 h2 => upd_ne (by omega)) ?_ ?_ ?_
    · refine ⟨fun hr _ _ => htodo hr, ?_, fun _ => rfl, by simp, by simp, by simp, by simp, hst.quota,
        fun h0' => absurd h0' h0, fun hl => ⟨(hst.last hl).1, by simp, by simp, (hst.last hl).2.2.2⟩, ?_⟩
      · intro _
        rcases hpos with hp | ⟨hn, _, _, he⟩
        · exact .inl (hst.shutIn hp)
        · exact .inr ⟨hn, he⟩
      · simp only [made] at hcalls ⊢
        simp only [flag]
        omega
    · intro hle
      rw [upd_ne (by omega)]
      refine (h.links i hle).frameP rfl ?_ ?_
      · intro pc0 pc1 h1 _
        refine ⟨?_, [], by simp [made], by simp⟩
        rcases hpos with hp | ⟨_, hp, _⟩ <;> simpa only [ProdOk, hp] using h1
      · rcases hpos with hp | ⟨_, hp, _⟩ <;> simp [hp]
    · rintro j rfl hj
      simp only [Nat.add_sub_cancel] at hc
      simp only [Nat.add_sub_cancel, upd_eq]
      refine (h.links j hj).callC hc rfl (fun _ => rfl) ?_ (by simp [entry, cls])
      intro q b; simp [ConsOk, entry, cls]

theorem inv_begin {p : Plan α} {s s' : Sys α} {i : Nat} (h : Inv p s) (hi : i ≤ p.inner + 1)
    (hs : s.begin p i = some s') : Inv p s' := by
  have hst := h.stages i hi
  unfold Sys.begin at hs
  split at hs
  · rename_i y ys hp ht
    have hl := hst.stay (.inl hp)
    have hr : (s.stage i).rej = false := by
      cases hx : (s.stage i).rej with
      | false => rfl
      | true => rw [hst.rejLeft hx] at hl; simp at hl
    have hcalls := hst.calls
    split at hs
    · rename_i hle
      simp only [Sys.call, Option.map_eq_some_iff] at hs
      obtain ⟨c, hc, rfl⟩ := hs
      refine inv_of h (fun k h1 _ => upd_ne h1) ?_ ?_ ?_
      · refine ⟨by simp, hst.why, hst.rejLeft, by simp, by simp, fun _ => hl, by simp, hst.quota,
          fun h0 => ⟨(hst.first h0).1, by simp, by simp⟩, fun hl => by omega, ?_⟩
        simp only [flag, made, hp] at hcalls ⊢
        omega
      · intro _
        rw [upd_eq]
        refine (h.links i hle).callP hc rfl rfl rfl (by simp [hp]) ?_ (by simp [entry, cls])
        intro b
        simp only [ProdOk, entry, cls]
        exact ⟨y, ys, ht, .inl rfl⟩
      · rintro j rfl hj
        rw [upd_ne (by omega)]
        refine (h.links j hj).frameC rfl id ?_
        intro pc1 hk
        simpa only [ConsOk, hp] using hk
    · simp at hs
  · rename_i hp ht
    split at hs
    · rename_i h0
      exact inv_closeOut h hi (.inr ⟨h0, .inr ⟨hp, ht⟩⟩) hs
    · rename_i h0
      split at hs
      · rename_i he
        exact inv_leave h hi (.inr ⟨h0, hp, ht, he⟩) hs
      · rename_i he
        have hl := hst.stay (.inl hp)
        have hcalls := hst.calls
        simp only [Sys.call, Option.map_eq_some_iff] at hs
        obtain ⟨c, hc, rfl⟩ := hs
        refine inv_of h (fun k h1 h2 => upd_ne (by omega)) ?_ ?_ ?_
        · refine ⟨fun _ _ _ => ht, hst.why, hst.rejLeft, by simp, by simp, fun _ => hl, fun _ => by simpa using he,
            hst.quota, fun h0' => absurd h0' h0,
            fun hl => ⟨(hst.last hl).1, by simp, by simp, (hst.last hl).2.2.2⟩, ?_⟩
          simp only [flag, made, hp] at hcalls ⊢
          omega
        · intro hle
          rw [upd_ne (by omega)]
          refine (h.links i hle).frameP rfl ?_ (by simp [hp])
          intro pc0 pc1 h1 _
          refine ⟨?_, [], by simp [made], by simp⟩
          simpa only [ProdOk, hp] using h1
        · rintro j rfl hj
          simp only [Nat.add_sub_cancel] at hc
          simp only [Nat.add_sub_cancel, upd_eq]
          refine (h.links j hj).callC hc rfl id ?_ (by simp [entry, cls])
          intro q b; simp [ConsOk, entry, cls]
  · rename_i hp
    exact inv_leave h hi (.inl hp) hs
  · rename_i hp
    exact inv_closeOut h hi (.inl hp) hs
  · simp at hs

end Verif.Pipeline
