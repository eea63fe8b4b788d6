import Verif.Relay.Inv

/-! Every action of the relay preserves the invariant. -/
namespace Verif.Relay

open Verif.Exchange
open Verif.Channel (Op Res Ev Act)
open Verif.Pipeline (upd upd_eq upd_ne Cls taken rest)

variable {α : Type}

theorem inv_closeOut {p : Plan α} {s s' : Sys α} {i : Nat} (h : Inv p s) (hi : i ≤ p.inner + 1)
    (hpos : (s.stage i).pos = .shut ∨ (i = 0 ∧ (s.stage i).pos = .loop ∧ (s.stage i).todo = []))
    (hs : s.closeOut p i = some s') : Inv p s' := by
  have hst := h.stages i hi
  have htodo : (s.stage i).todo = [] := by
    rcases hpos with hp | ⟨_, _, hp⟩
    · exact hst.todo (by simp [hp]) (by simp [hp])
    · exact hp
  have hflag : flag (s.stage i).pos ≤ 1 := by
    rcases hpos with hp | ⟨_, hp, _⟩ <;> simp [hp, flag]
  have hcalls := hst.calls
  unfold Sys.closeOut at hs
  split at hs
  · rename_i hle
    simp only [Sys.call, Option.map_eq_some_iff] at hs
    obtain ⟨c, hc, rfl⟩ := hs
    refine inv_of h (fun k h1 _ => upd_ne h1) ?_ ?_ ?_
    · refine ⟨fun _ _ => htodo, fun h0 => ⟨(hst.first h0).1, by simp, by simp⟩, fun hl => by omega, ?_⟩
      simp only [made] at hcalls ⊢
      simp only [flag]
      omega
    · intro _
      rw [upd_eq]
      refine (h.links i hle).callP hc rfl rfl ?_
      rintro pc hpc -
      simp only [entry, Option.some.injEq] at hpc; subst hpc
      simp [ProdOk, cls]
    · rintro j rfl hj
      rw [upd_ne (by omega)]
      rcases hpos with hp | ⟨h0, _⟩
      · refine (h.links j hj).frameC rfl ?_
        intro k1 hk
        simpa only [ConsOk, hp] using hk
      · omega
  · rename_i hle
    injection hs with hs; subst hs
    have hp : (s.stage i).pos = .shut := by
      rcases hpos with hp | ⟨h0, _⟩
      · exact hp
      · omega
    refine inv_of h (fun k _ _ => rfl) ?_ (by omega) ?_
    · refine ⟨fun _ _ => htodo, fun h0 => by omega, fun hl => ⟨(hst.last hl).1, by simp, by simp⟩, ?_⟩
      simp only [made] at hcalls ⊢
      simp only [flag]
      omega
    · rintro j rfl hj
      refine (h.links j hj).frameC rfl ?_
      intro k1 hk
      simpa only [ConsOk, hp] using hk

theorem inv_begin {p : Plan α} {s s' : Sys α} {i : Nat} (h : Inv p s) (hi : i ≤ p.inner + 1)
    (hs : s.begin p i = some s') : Inv p s' := by
  have hst := h.stages i hi
  have hcalls := hst.calls
  unfold Sys.begin at hs
  split at hs
  · rename_i y ys hp ht
    split at hs
    · rename_i hle
      simp only [Sys.call, Option.map_eq_some_iff] at hs
      obtain ⟨c, hc, rfl⟩ := hs
      refine inv_of h (fun k h1 _ => upd_ne h1) ?_ ?_ ?_
      · refine ⟨by simp, fun h0 => ⟨(hst.first h0).1, by simp, by simp⟩, fun hl => by omega, ?_⟩
        simp only [flag, made, hp] at hcalls ⊢
        omega
      · intro _
        rw [upd_eq]
        refine (h.links i hle).callP hc rfl rfl ?_
        intro pc hpc hx
        simp only [entry, Option.some.injEq] at hpc; subst hpc
        simp only [ProdOk, hp] at hx
        simp [ProdOk, cls, ht, hx.2]
      · rintro j rfl hj
        rw [upd_ne (by omega)]
        refine (h.links j hj).frameC rfl ?_
        intro k1 hk
        simpa only [ConsOk, hp] using hk
    · simp at hs
  · rename_i hp ht
    split at hs
    · rename_i h0
      exact inv_closeOut h hi (.inr ⟨h0, hp, ht⟩) hs
    · rename_i h0
      simp only [Sys.call, Option.map_eq_some_iff] at hs
      obtain ⟨c, hc, rfl⟩ := hs
      refine inv_of h (fun k h1 h2 => upd_ne (by omega)) ?_ ?_ ?_
      · refine ⟨fun _ _ => ht, fun h0' => absurd h0' h0, fun hl => ⟨(hst.last hl).1, by simp, by simp⟩, ?_⟩
        simp only [flag, made, hp] at hcalls ⊢
        omega
      · intro hle
        rw [upd_ne (by omega)]
        refine (h.links i hle).frameP ?_
        intro k0 h1
        refine ⟨?_, [], by simp [made], by simp⟩
        simpa only [ProdOk, hp] using h1
      · rintro j rfl hj
        simp only [Nat.add_sub_cancel] at hc
        simp only [Nat.add_sub_cancel, upd_eq]
        refine (h.links j hj).callC hc rfl ?_
        intro pc hpc
        simp only [entry, Option.some.injEq] at hpc; subst hpc
        simp [ConsOk, cls]
  · rename_i hp
    exact inv_closeOut h hi (.inl hp) hs
  · simp at hs

theorem two {l : List (PC α)} (h : l.length = 2) : ∃ a b, l = [a, b] := by
  match l, h with
  | [a, b], _ => exact ⟨a, b, rfl⟩

theorem moved_two {c c' : St α} {t : Nat} {pc a b : PC α} (hm : Moved c c' t pc) (ht : t = 0 ∨ t = 1)
    (e : c.pcs = [a, b]) :
    ∃ a' b', c'.pcs = [a', b'] ∧ (t = 0 → cls b' = cls b) ∧ (t = 1 → cls a' = cls a) := by
  obtain ⟨a', b', e'⟩ := two (l := c'.pcs) (by rw [hm.len, e]; rfl)
  refine ⟨a', b', e', ?_, ?_⟩
  · rintro rfl
    have := hm.others 1 (by omega)
    simpa [e, e'] using this
  · rintro rfl
    have := hm.others 0 (by omega)
    simpa [e, e'] using this

theorem ConsOk.close {C : Stage α} {k : Cls α} {q : Option α} {b : Bool} (h : ConsOk C k q b) : ConsOk C k q true := by
  unfold ConsOk at h ⊢
  split <;> simp_all
  all_goals tauto

theorem ConsOk.insert {C : Stage α} {k : Cls α} {q q' : Option α} (h : ConsOk C k q false) : ConsOk C k q' false := by
  unfold ConsOk at h ⊢
  split <;> simp_all

/-- The producer goes on in its call. -/
theorem Link.runP {p : Plan α} {P C : Stage α} {k : Nat} {c c' : St α} {a : Act α} {pc : PC α} (h : Link p P C k c)
    (hn : next {} c a = some c') (h0 : c.pcs[0]? = some pc) (hm : Moved c c' 0 pc)
    (hd : ∀ op r, pc ≠ .done op r) : Link p P C k c' := by
  have hre := reach_next h.reach hn
  obtain ⟨pc0, pc1, pre, e, h1, h2, h3, h4⟩ := h.pcs
  obtain ⟨pc0', pc1', e', hb, -⟩ := moved_two hm (.inl rfl) e
  have hb := hb rfl
  obtain rfl : pc0 = pc := by simpa [e] using h0
  obtain ⟨x, hx, ht⟩ := hm.go hd
  obtain rfl : pc0' = x := by simpa [e'] using hx
  suffices hg : ∃ pre', ProdOk P (cls pc0') c'.closed ∧ ConsOk C (cls pc1) c'.slot c'.closed ∧
      made p k P = pre' ++ rest P.todo (cls pc0') ∧ Fresh (C.got ++ (taken (cls pc1) ++ c'.slot.toList)) pre' by
    obtain ⟨pre', hg⟩ := hg
    exact ⟨hre, pc0', pc1', pre', e', by rw [hb]; exact hg⟩
  generalize cls pc0 = k0 at *
  generalize cls pc0' = k0' at *
  generalize c.slot = q at *
  generalize c'.slot = q' at *
  generalize c.closed = b at *
  generalize c'.closed = b' at *
  cases ht with
  | same => exact ⟨pre, h1, h2, h3, h4⟩
  | @push q y =>
    unfold ProdOk at h1
    split at h1 <;> try (simp at h1; done)
    obtain ⟨z, ys, hy, hk, -⟩ := h1
    obtain rfl : y = z := by simpa using hk
    refine ⟨pre ++ [y], ?_, h2.insert, ?_, ?_⟩
    · rename_i hp
      simp [ProdOk, hp, hy]
    · rw [h3]; simp [rest, hy]
    · rw [← List.append_assoc] at h4 ⊢
      exact h4.push
  | refuse => unfold ProdOk at h1; split at h1 <;> simp_all
  | take => unfold ProdOk at h1; split at h1 <;> simp_all
  | fin => unfold ProdOk at h1; split at h1 <;> simp_all
  | close =>
    refine ⟨pre, ?_, h2.close, h3, h4⟩
    unfold ProdOk at h1 ⊢
    split at h1 <;> simp_all
  | oth => unfold ProdOk at h1; split at h1 <;> simp_all

/-- The consumer goes on in its call. -/
theorem Link.runC {p : Plan α} {P C : Stage α} {k : Nat} {c c' : St α} {a : Act α} {pc : PC α} (h : Link p P C k c)
    (hn : next {} c a = some c') (h0 : c.pcs[1]? = some pc) (hm : Moved c c' 1 pc)
    (hd : ∀ op r, pc ≠ .done op r) : Link p P C k c' := by
  have hre := reach_next h.reach hn
  obtain ⟨pc0, pc1, pre, e, h1, h2, h3, h4⟩ := h.pcs
  obtain ⟨pc0', pc1', e', -, hb⟩ := moved_two hm (.inr rfl) e
  have hb := hb rfl
  obtain rfl : pc1 = pc := by simpa [e] using h0
  obtain ⟨x, hx, ht⟩ := hm.go hd
  obtain rfl : pc1' = x := by simpa [e'] using hx
  suffices hg : ProdOk P (cls pc0) c'.closed ∧ ConsOk C (cls pc1') c'.slot c'.closed ∧
      Fresh (C.got ++ (taken (cls pc1') ++ c'.slot.toList)) pre by
    exact ⟨hre, pc0', pc1', pre, e', by rw [hb]; exact ⟨hg.1, hg.2.1, h3, hg.2.2⟩⟩
  generalize cls pc1 = k1 at *
  generalize cls pc1' = k1' at *
  generalize c.slot = q at *
  generalize c'.slot = q' at *
  generalize c.closed = b at *
  generalize c'.closed = b' at *
  cases ht with
  | same => exact ⟨h1, h2, h4⟩
  | push => unfold ConsOk at h2; split at h2 <;> simp_all
  | refuse => unfold ConsOk at h2; split at h2 <;> simp_all
  | take =>
    refine ⟨h1, ?_, by simpa [taken] using h4⟩
    unfold ConsOk at h2 ⊢
    split at h2 <;> simp_all
  | fin =>
    refine ⟨h1, ?_, by simpa [taken] using h4⟩
    unfold ConsOk at h2 ⊢
    split at h2 <;> simp_all
  | close => unfold ConsOk at h2; split at h2 <;> simp_all
  | oth => unfold ConsOk at h2; split at h2 <;> simp_all

theorem cls_done {op : Op α} {r : Res α} {k : Cls α} (h : cls (.done op r) = k) :
    (∀ x, k = .took x → r = .val (some x)) ∧ (k = .ended → r = .val none) ∧ k ≠ .idle ∧ k ≠ .closing ∧
      k ≠ .popping ∧ (∀ y, k ≠ .pushing y) := by
  subst h
  cases op <;> rcases r with (_ | _) | (_ | _) | _ | _ <;> simp [cls]

/-- The call of the producer returns. -/
theorem Link.retP {p : Plan α} {P C : Stage α} {k i : Nat} {c c' : St α} {a : Act α} {op : Op α} {r : Res α}
    (h : Link p P C k c) (hn : next {} c a = some c') (h0 : c.pcs[0]? = some (.done op r))
    (hm : Moved c c' 0 (.done op r)) :
    Link p (deliver p i P r) C k c' ∧ (P.pos = .inPush → ∃ y ys, P.todo = y :: ys) := by
  have hre := reach_next h.reach hn
  obtain ⟨pc0, pc1, pre, e, h1, h2, h3, h4⟩ := h.pcs
  obtain ⟨pc0', pc1', e', hb, -⟩ := moved_two hm (.inl rfl) e
  have hb := hb rfl
  obtain rfl : pc0 = .done op r := by simpa [e] using h0
  obtain ⟨hx, hq, hcq⟩ := hm.done op r rfl
  obtain rfl : pc0' = .idle := by simpa [e'] using hx
  have hk := cls_done (op := op) (r := r) rfl
  generalize cls (.done op r : PC α) = k0 at *
  obtain ⟨k3, k4, k5, k6, k7, k8⟩ := hk
  unfold ProdOk at h1
  split at h1
  · rename_i hp
    obtain ⟨y, ys, ht, h1 | h1, hc⟩ := h1
    · exact absurd h1 (k8 y)
    · subst h1
      refine ⟨⟨hre, .idle, pc1', pre, e', ?_, ?_, ?_, ?_⟩, fun _ => ⟨y, ys, ht⟩⟩
      · simp [ProdOk, deliver, hp, cls, hcq, hc]
      · rw [hb, hq, hcq]; exact h2
      · simp only [deliver, hp, made] at h3 ⊢
        rw [h3]
        simp [rest, cls]
      · rw [hb, hq]; exact h4
  · rename_i hp
    obtain h1 | ⟨h1, hc⟩ := h1
    · exact absurd h1 k6
    · subst h1
      refine ⟨⟨hre, .idle, pc1', pre, e', ?_, ?_, ?_, ?_⟩, by simp [hp]⟩
      · simp [ProdOk, deliver, hp, cls, hcq, hc]
      · rw [hb, hq, hcq]; exact h2
      · simp only [deliver, hp, made] at h3 ⊢
        rw [h3]
        simp [rest, cls]
      · rw [hb, hq]; exact h4
  · exact absurd h1.1 k5
  · exact absurd h1.1 k5

/-- The call of the consumer returns. -/
theorem Link.retC {p : Plan α} {P C : Stage α} {k i : Nat} {c c' : St α} {a : Act α} {op : Op α} {r : Res α}
    (h : Link p P C k c) (hn : next {} c a = some c') (h0 : c.pcs[1]? = some (.done op r))
    (hm : Moved c c' 1 (.done op r)) :
    Link p P (deliver p i C r) k c' ∧ (C.pos = .inPop → (∃ x, r = .val (some x)) ∨ r = .val none) := by
  have hre := reach_next h.reach hn
  obtain ⟨pc0, pc1, pre, e, h1, h2, h3, h4⟩ := h.pcs
  obtain ⟨pc0', pc1', e', -, hb⟩ := moved_two hm (.inr rfl) e
  have hb := hb rfl
  obtain rfl : pc1 = .done op r := by simpa [e] using h0
  obtain ⟨hx, hq, hcq⟩ := hm.done op r rfl
  obtain rfl : pc1' = .idle := by simpa [e'] using hx
  have hk := cls_done (op := op) (r := r) rfl
  generalize cls (.done op r : PC α) = k0 at *
  obtain ⟨k3, k4, k5, k6, k7, k8⟩ := hk
  unfold ConsOk at h2
  split at h2
  · rename_i hp
    obtain h2 | ⟨x, h2⟩ | ⟨h2, hc, hqe⟩ := h2
    · exact absurd h2 k7
    · have hr := k3 x h2
      subst hr h2
      refine ⟨⟨hre, pc0', .idle, pre, e', ?_, ?_, ?_, ?_⟩, fun _ => .inl ⟨x, rfl⟩⟩
      · rw [hb, hcq]; exact h1
      · simp [ConsOk, deliver, hp, cls]
      · rw [hb]; exact h3
      · rw [hq]
        simpa [deliver, hp, taken, cls] using h4
    · have hr := k4 h2
      subst hr h2
      refine ⟨⟨hre, pc0', .idle, pre, e', ?_, ?_, ?_, ?_⟩, fun _ => .inr rfl⟩
      · rw [hb, hcq]; exact h1
      · simp [ConsOk, deliver, hp, cls, hcq, hc, hq, hqe]
      · rw [hb]; exact h3
      · rw [hq]
        simpa [deliver, hp, taken, cls] using h4
  · exact absurd h2.1 k5
  · exact absurd h2.1 k5
  · exact absurd h2.1 k5
  · exact absurd h2 k5

/-- The state after a call has returned. -/
theorem StInv.deliver {p : Plan α} {i : Nat} {st : Stage α} {r : Res α} (h : StInv p i st)
    (hpush : st.pos = .inPush → ∃ y ys, st.todo = y :: ys)
    (hpop : st.pos = .inPop → (∃ x, r = .val (some x)) ∨ r = .val none) : StInv p i (deliver p i st r) := by
  have hcalls := h.calls
  cases hp : st.pos with
  | loop => simpa only [Relay.deliver, hp] using h
  | shut => simpa only [Relay.deliver, hp] using h
  | over => simpa only [Relay.deliver, hp] using h
  | inPush =>
    obtain ⟨y, ys, ht⟩ := hpush hp
    simp only [Relay.deliver, hp]
    refine ⟨by simp, fun h0 => ⟨(h.first h0).1, by simp, by simp⟩, fun hl => absurd hp (h.last hl).2.1, ?_⟩
    simp only [made, ht, hp, flag, List.length_cons, List.tail_cons] at hcalls ⊢
    omega
  | inPop =>
    have ht := h.todo (by simp [hp]) (by simp [hp])
    have h0 : i ≠ 0 := fun h0 => absurd hp (h.first h0).2.1
    obtain ⟨x, rfl⟩ | rfl := hpop hp
    · simp only [Relay.deliver, hp]
      refine ⟨by simp, fun h0' => absurd h0' h0, fun hl => ⟨?_, by simp, by simp⟩, ?_⟩
      · rw [if_neg (by omega)]
      · simp only [made, hp, flag, ht, h0, if_false] at hcalls ⊢
        by_cases hle : i ≤ p.inner
        · simp only [hle, if_true, List.length_append, List.length_map,
            List.length_cons, List.length_nil] at hcalls ⊢
          omega
        · simp only [hle, if_false, List.length_append, List.length_cons, List.length_nil] at hcalls ⊢
          omega
    · simp only [Relay.deliver, hp]
      refine ⟨fun _ _ => ht, fun h0' => absurd h0' h0, fun hl => ⟨(h.last hl).1, by simp, by simp⟩, ?_⟩
      simp only [made, hp, flag] at hcalls ⊢
      omega
  | inClose =>
    simp only [Relay.deliver, hp]
    refine ⟨fun _ _ => h.todo (by simp [hp]) (by simp [hp]), fun h0 => ⟨(h.first h0).1, by simp, by simp⟩,
      fun hl => absurd hp (h.last hl).2.2, ?_⟩
    simp only [made, hp, flag] at hcalls ⊢
    omega

theorem inv_same {p : Plan α} {s : Sys α} {i : Nat} {chan' : Nat → St α}
    (h : Inv p ⟨chan', upd s.stage i (s.stage i)⟩) : Inv p ⟨chan', s.stage⟩ := by
  have : upd s.stage i (s.stage i) = s.stage := by
    funext j; simp only [upd]; split
    · rename_i e; rw [e]
    · rfl
  rwa [this] at h

theorem inv_inside {p : Plan α} {s s' : Sys α} {i : Nat} {a : Nat → Act α} (h : Inv p s) (hi : i ≤ p.inner + 1)
    (ha : ∀ t, (∃ w, a t = .step t w) ∨ a t = .spurious t ∨ a t = .stale t)
    (hs : s.inside p i a = some s') : Inv p s' := by
  have hst := h.stages i hi
  unfold Sys.inside at hs
  split at hs
  · simp at hs
  · rename_i k t hpl
    simp only [Option.map_eq_some_iff] at hs
    obtain ⟨c, hc, rfl⟩ := hs
    have hside : (t = 0 ∧ k = i ∧ i ≤ p.inner ∧ ((s.stage i).pos = .inPush ∨ (s.stage i).pos = .inClose)) ∨
        (t = 1 ∧ i = k + 1 ∧ k ≤ p.inner ∧ (s.stage i).pos = .inPop) := by
      cases hp : (s.stage i).pos <;> simp only [place, hp] at hpl <;> simp at hpl <;> obtain ⟨rfl, rfl⟩ := hpl
      · have : i ≠ 0 := fun h0 => (hst.first h0).2.1 hp
        exact .inr ⟨rfl, by omega, by omega, by simp⟩
      · have : i ≠ p.inner + 1 := fun h0 => (hst.last h0).2.1 hp
        exact .inl ⟨rfl, rfl, by omega, by simp⟩
      · have : i ≠ p.inner + 1 := fun h0 => (hst.last h0).2.2 hp
        exact .inl ⟨rfl, rfl, by omega, by simp⟩
    rcases hside with ⟨rfl, rfl, hle, hpos⟩ | ⟨rfl, rfl, hle, hp⟩
    · have hlk := h.links k hle
      obtain ⟨pc, hpc, hm⟩ := moved_next (lockBody_reach hlk.reach).2 (ha 0) hc
      split
      · rename_i op r hd
        rw [hpc] at hd; injection hd with hd; subst hd
        obtain ⟨hl, hx⟩ := hlk.retP (i := k) hc hpc hm
        refine inv_of h (fun j h1 _ => upd_ne h1) (hst.deliver hx ?_) (fun _ => by rw [upd_eq]; exact hl) ?_
        · rcases hpos with hp | hp <;> simp [hp]
        · rintro j rfl hj
          rw [upd_ne (by omega)]
          rcases hpos with hp | hp
          · refine (h.links j hj).frameC (by simp [deliver, hp]) ?_
            intro k1; simp [ConsOk, deliver, hp]
          · refine (h.links j hj).frameC (by simp [deliver, hp]) ?_
            intro k1; simp [ConsOk, deliver, hp]
      · rename_i hd
        refine inv_same (i := k) (inv_of h (fun j h1 _ => upd_ne h1) hst (fun _ => ?_) ?_)
        · rw [upd_eq]
          exact hlk.runP hc hpc hm (fun op r e => hd op r (by rw [hpc, e]))
        · rintro j rfl hj
          rw [upd_ne (by omega)]
          exact h.links j hj
    · have hlk := h.links k hle
      obtain ⟨pc, hpc, hm⟩ := moved_next (lockBody_reach hlk.reach).2 (ha 1) hc
      split
      · rename_i op r hd
        rw [hpc] at hd; injection hd with hd; subst hd
        obtain ⟨hl, hx⟩ := hlk.retC (i := k + 1) hc hpc hm
        refine inv_of h (fun j h1 h2 => upd_ne (by omega)) (hst.deliver (by simp [hp]) hx) ?_ ?_
        · intro hk
          rw [upd_ne (by omega)]
          have ht := hst.todo (by simp [hp]) (by simp [hp])
          obtain ⟨x, rfl⟩ | rfl := hx hp
          · refine (h.links (k + 1) hk).frameP ?_
            intro k0 h1
            have h1' : k0 = .idle ∧ (s.chan (k + 1)).closed = false := by simpa only [ProdOk, hp] using h1
            refine ⟨by simp [ProdOk, deliver, hp, h1'], [p.body (k + 1) x], ?_, ?_⟩
            · simp [made, deliver, hp]
            · simp [deliver, hp, h1', rest, ht, hk]
          · refine (h.links (k + 1) hk).frameP ?_
            intro k0 h1
            refine ⟨?_, [], by simp [made, deliver, hp], by simp [deliver, hp]⟩
            simpa only [ProdOk, deliver, hp] using h1
        · intro j hj _
          obtain rfl : j = k := by omega
          rw [upd_eq]
          exact hl
      · rename_i hd
        refine inv_same (i := k + 1) (inv_of h (fun j h1 h2 => upd_ne (by omega)) hst ?_ ?_)
        · intro hk
          rw [upd_ne (by omega)]
          exact h.links (k + 1) hk
        · intro j hj _
          obtain rfl : j = k := by omega
          rw [upd_eq]
          exact hlk.runC hc hpc hm (fun op r e => hd op r (by rw [hpc, e]))

theorem inv_step {p : Plan α} {s s' : Sys α} {a : RAct} (h : Inv p s) (hs : step p s a = some s') : Inv p s' := by
  cases a <;> simp only [step] at hs <;> split at hs <;> try (simp at hs; done)
  · rename_i hi; exact inv_begin h hi hs
  · rename_i hi; exact inv_inside h hi (fun t => .inl ⟨_, rfl⟩) hs
  · rename_i hi; exact inv_inside h hi (fun t => .inr (.inl rfl)) hs
  · rename_i hi; exact inv_inside h hi (fun t => .inr (.inr rfl)) hs

theorem inv_exec {p : Plan α} {s s' : Sys α} {acts : List RAct} (h : Inv p s) (hs : exec p s acts = some s') :
    Inv p s' := by
  induction acts generalizing s with
  | nil => simp [exec] at hs; subst hs; exact h
  | cons a l ih =>
    simp only [exec, Option.bind_eq_some_iff] at hs
    obtain ⟨s1, h1, h2⟩ := hs
    exact ih (inv_step h h1) h2

theorem inv_reach {p : Plan α} {s : Sys α} (h : Reach p s) : Inv p s := by
  obtain ⟨acts, h⟩ := h
  exact inv_exec (inv_start p) h

end Verif.Relay
