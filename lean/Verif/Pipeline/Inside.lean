import Verif.Pipeline.Pres

/-! Actions inside the calls preserve the invariant of the pipelines. -/
namespace Verif.Pipeline

open Verif.Channel

variable {α : Type}

theorem ConsOk.close {C : Stage α} {k : Cls α} {q : List α} {b : Bool} (h : ConsOk C k q b) : ConsOk C k q true := by
  unfold ConsOk at h ⊢
  split <;> simp_all
  all_goals tauto

theorem ConsOk.insert {C : Stage α} {k : Cls α} {q q' : List α} (h : ConsOk C k q false) : ConsOk C k q' false := by
  unfold ConsOk at h ⊢
  split <;> simp_all

theorem ProdOk.close {P : Stage α} {k : Cls α} {b : Bool} (h : ProdOk P k b) : ProdOk P k true := by
  unfold ProdOk at h ⊢
  split <;> simp_all
  · obtain ⟨y, hy, hk⟩ := h
    exact ⟨y, hy, by tauto⟩
  all_goals tauto

theorem two {l : List (PC α)} (h : l.length = 2) : ∃ a b, l = [a, b] := by
  match l, h with
  | [a, b], _ => exact ⟨a, b, rfl⟩

theorem moved_two {c c' : St α} {t : Nat} {pc a b : PC α} (hm : Moved c c' t pc) (ht : t = 0 ∨ t = 1)
    (hl : c'.pcs.length = c.pcs.length) (e : c.pcs = [a, b]) :
    ∃ a' b', c'.pcs = [a', b'] ∧ (t = 0 → cls b' = cls b) ∧ (t = 1 → cls a' = cls a) := by
  obtain ⟨a', b', e'⟩ := two (l := c'.pcs) (by rw [hl, e]; rfl)
  refine ⟨a', b', e', ?_, ?_⟩
  · rintro rfl
    have := hm.others 1 (by omega)
    simpa [e, e'] using this
  · rintro rfl
    have := hm.others 0 (by omega)
    simpa [e, e'] using this

/-- The producer goes on in its call. -/
theorem Link.runP {p : Plan α} {P C : Stage α} {k : Nat} {c c' : St α} {a : Act α} {pc : PC α} (h : Link p P C k c)
    (hn : next (p.cfg k) c a = some c') (h0 : c.pcs[0]? = some pc) (hm : Moved c c' 0 pc)
    (hd : ∀ op r, pc ≠ .done op r) : Link p P C k c' := by
  have hre := reach_next h.reach hn
  obtain ⟨pc0, pc1, e, h1, h2, h3⟩ := h.pcs
  obtain ⟨pc0', pc1', e', hb, -⟩ := moved_two hm (.inl rfl) (next_length hn) e
  have hb := hb rfl
  obtain rfl : pc0 = pc := by simpa [e] using h0
  obtain ⟨x, hx, ht⟩ := hm.go hd
  obtain rfl : pc0' = x := by simpa [e'] using hx
  have hcl := h.closed
  refine ⟨hre, ⟨pc0', pc1', e', ?_⟩, ?_, h.rejected⟩
  · rw [hb]
    revert h1 h2 h3 hcl
    generalize cls pc0 = k0 at ht
    generalize cls pc0' = k0' at ht
    generalize c.q = q at ht
    generalize c'.q = q' at ht
    generalize c.closed = b at ht
    generalize c'.closed = b' at ht
    intro h1 h2 h3 hcl
    cases ht with
    | same => exact ⟨h1, h2, h3⟩
    | @push q y =>
      refine ⟨?_, h2.insert, ?_⟩
      · unfold ProdOk at h1 ⊢
        split at h1 <;> simp_all
      · unfold ProdOk at h1
        split at h1 <;> simp_all [rest]
        obtain ⟨ys, hy⟩ := h1
        simp [hy]
    | @refuse q y =>
      refine ⟨?_, h2, ?_⟩
      · unfold ProdOk at h1 ⊢
        split at h1 <;> simp_all
      · rw [h3]; rfl
    | take => unfold ProdOk at h1; split at h1 <;> simp_all
    | fin => unfold ProdOk at h1; split at h1 <;> simp_all
    | close =>
      refine ⟨?_, h2.close, h3⟩
      unfold ProdOk at h1 ⊢
      split at h1 <;> simp_all
    | oth => unfold ProdOk at h1; split at h1 <;> simp_all
  · revert h1 hcl
    generalize cls pc0 = k0 at ht
    generalize cls pc0' = k0' at ht
    generalize c.q = q at ht
    generalize c'.q = q' at ht
    generalize c.closed = b at ht
    generalize c'.closed = b' at ht
    intro h1 hcl
    cases ht with
    | close =>
      intro _
      unfold ProdOk at h1
      split at h1 <;> simp_all
    | oth => unfold ProdOk at h1; split at h1 <;> simp_all
    | _ => exact hcl

/-- The consumer goes on in its call. -/
theorem Link.runC {p : Plan α} {P C : Stage α} {k : Nat} {c c' : St α} {a : Act α} {pc : PC α} (h : Link p P C k c)
    (hn : next (p.cfg k) c a = some c') (h0 : c.pcs[1]? = some pc) (hm : Moved c c' 1 pc)
    (hd : ∀ op r, pc ≠ .done op r) (hleft : C.pos = .inCloseIn → C.left = true) : Link p P C k c' := by
  have hre := reach_next h.reach hn
  obtain ⟨pc0, pc1, e, h1, h2, h3⟩ := h.pcs
  obtain ⟨pc0', pc1', e', -, hb⟩ := moved_two hm (.inr rfl) (next_length hn) e
  have hb := hb rfl
  obtain rfl : pc1 = pc := by simpa [e] using h0
  obtain ⟨x, hx, ht⟩ := hm.go hd
  obtain rfl : pc1' = x := by simpa [e'] using hx
  have hcl := h.closed
  have key : (ProdOk P (cls pc0) c'.closed ∧ ConsOk C (cls pc1') c'.q c'.closed ∧
      made p k P = C.got ++ taken (cls pc1') ++ c'.q ++ rest P.todo (cls pc0)) ∧
      (c'.closed = true → P.pos = .inCloseOut ∨ P.pos = .over ∨ C.left = true) := by
    revert h1 h2 h3 hcl
    generalize cls pc1 = k1 at ht
    generalize cls pc1' = k1' at ht
    generalize c.q = q at ht
    generalize c'.q = q' at ht
    generalize c.closed = b at ht
    generalize c'.closed = b' at ht
    intro h1 h2 h3 hcl
    cases ht with
    | same => exact ⟨⟨h1, h2, h3⟩, hcl⟩
    | push => unfold ConsOk at h2; split at h2 <;> simp_all
    | refuse => unfold ConsOk at h2; split at h2 <;> simp_all
    | @take x q b =>
      refine ⟨⟨h1, ?_, ?_⟩, hcl⟩
      · unfold ConsOk at h2 ⊢
        split at h2 <;> simp_all
      · rw [h3]; simp [taken]
    | fin =>
      refine ⟨⟨h1, ?_, ?_⟩, hcl⟩
      · unfold ConsOk at h2 ⊢
        split at h2 <;> simp_all
      · rw [h3]; simp [taken]
    | close =>
      refine ⟨⟨h1.close, ?_, ?_⟩, ?_⟩
      · unfold ConsOk at h2 ⊢
        split at h2 <;> simp_all
      · rw [h3]; simp [taken]
      · intro _
        unfold ConsOk at h2
        split at h2 <;> simp_all
    | oth => unfold ConsOk at h2; split at h2 <;> simp_all
  exact ⟨hre, ⟨pc0', pc1', e', by rw [hb]; exact key.1⟩, key.2, h.rejected⟩

theorem cls_done {op : Op α} {r : Res α} {k : Cls α} (h : cls (.done op r) = k) :
    (∀ y, k = .pushed y → r = .bool true) ∧ (∀ y, k = .refused y → r = .bool false) ∧
      (∀ x, k = .took x → r = .val (some x)) ∧ (k = .ended → r = .val none) ∧ k ≠ .idle ∧ k ≠ .closing ∧
      k ≠ .popping ∧ (∀ y, k ≠ .pushing y) := by
  subst h
  cases op <;> rcases r with (_ | _) | (_ | _) | _ | _ <;> simp [cls]

/-- The call of the producer returns. -/
theorem Link.retP {p : Plan α} {P C : Stage α} {k : Nat} {c c' : St α} {a : Act α} {op : Op α} {r : Res α}
    (h : Link p P C k c) (hn : next (p.cfg k) c a = some c') (h0 : c.pcs[0]? = some (.done op r))
    (hm : Moved c c' 0 (.done op r)) :
    Link p (deliver p k P r) C k c' ∧ (P.pos = .inPush → (∃ y ys, P.todo = y :: ys) ∧ (r = .bool true ∨ r = .bool false)) := by
  have hre := reach_next h.reach hn
  obtain ⟨pc0, pc1, e, h1, h2, h3⟩ := h.pcs
  obtain ⟨pc0', pc1', e', hb, -⟩ := moved_two hm (.inl rfl) (next_length hn) e
  have hb := hb rfl
  obtain rfl : pc0 = .done op r := by simpa [e] using h0
  obtain ⟨hx, hq, hcq⟩ := hm.done op r rfl
  obtain rfl : pc0' = .idle := by simpa [e'] using hx
  have hk := cls_done (op := op) (r := r) rfl
  have hcl := h.closed
  have hrj := h.rejected
  generalize cls (.done op r : PC α) = k0 at *
  obtain ⟨k1, k2, k3, k4, k5, k6, k7, k8⟩ := hk
  unfold ProdOk at h1
  split at h1
  · rename_i hp
    obtain ⟨y, ys, ht, h1 | h1 | ⟨h1, hc⟩⟩ := h1
    · exact absurd h1 (k8 y)
    · have hr := k1 y h1
      subst hr h1
      refine ⟨⟨hre, ⟨.idle, pc1', e', ?_, ?_, ?_⟩, ?_, ?_⟩, fun _ => ⟨⟨y, ys, ht⟩, .inl rfl⟩⟩
      · simp [ProdOk, deliver, hp, cls]
      · rw [hb, hq, hcq]; exact h2
      · rw [hb, hq]
        simp only [deliver, hp, made] at h3 ⊢
        rw [h3]
        simp [rest, cls]
      · rw [hcq]; simp only [deliver, hp]
        intro hx
        rcases hcl hx with h | h | h
        · simp [hp] at h
        · simp [hp] at h
        · exact .inr (.inr h)
      · simpa only [deliver, hp] using hrj
    · have hr := k2 y h1
      subst hr h1
      have hleft : C.left = true := by
        rcases hcl hc with h | h | h
        · simp [hp] at h
        · simp [hp] at h
        · exact h
      refine ⟨⟨hre, ⟨.idle, pc1', e', ?_, ?_, ?_⟩, fun _ => .inr (.inr hleft), fun _ => hleft⟩, fun _ => ⟨⟨y, ys, ht⟩, .inr rfl⟩⟩
      · simp [ProdOk, deliver, hp, cls]
      · rw [hb, hq, hcq]; exact h2
      · rw [hb, hq]
        simp only [deliver, hp, made] at h3 ⊢
        rw [h3]
        simp [rest, cls]
  · rename_i hp
    obtain h1 | ⟨h1, hc⟩ := h1
    · exact absurd h1 k6
    · subst h1
      refine ⟨⟨hre, ⟨.idle, pc1', e', ?_, ?_, ?_⟩, fun _ => .inr (.inl ?_), ?_⟩, by simp [hp]⟩
      · simp [ProdOk, deliver, hp, cls, hcq, hc]
      · rw [hb, hq, hcq]; exact h2
      · rw [hb, hq]
        simp only [deliver, hp, made] at h3 ⊢
        rw [h3]
        simp [rest, cls]
      · simp only [deliver, hp]
      · simpa only [deliver, hp] using hrj
  · exact absurd h1.1 k5
  · exact absurd h1 k5

/-- The call of the consumer returns. -/
theorem Link.retC {p : Plan α} {P C : Stage α} {k i : Nat} {c c' : St α} {a : Act α} {op : Op α} {r : Res α}
    (h : Link p P C k c) (hn : next (p.cfg k) c a = some c') (h0 : c.pcs[1]? = some (.done op r))
    (hm : Moved c c' 1 (.done op r)) (hleft : C.pos = .inCloseIn → C.left = true) :
    Link p P (deliver p i C r) k c' ∧ (C.pos = .inPop → (∃ x, r = .val (some x)) ∨ r = .val none) := by
  have hre := reach_next h.reach hn
  obtain ⟨pc0, pc1, e, h1, h2, h3⟩ := h.pcs
  obtain ⟨pc0', pc1', e', -, hb⟩ := moved_two hm (.inr rfl) (next_length hn) e
  have hb := hb rfl
  obtain rfl : pc1 = .done op r := by simpa [e] using h0
  obtain ⟨hx, hq, hcq⟩ := hm.done op r rfl
  obtain rfl : pc1' = .idle := by simpa [e'] using hx
  have hk := cls_done (op := op) (r := r) rfl
  have hcl := h.closed
  have hrj := h.rejected
  generalize cls (.done op r : PC α) = k0 at *
  obtain ⟨k1, k2, k3, k4, k5, k6, k7, k8⟩ := hk
  unfold ConsOk at h2
  split at h2
  · rename_i hp
    obtain h2 | ⟨x, h2⟩ | ⟨h2, hc, hqe⟩ := h2
    · exact absurd h2 k7
    · have hr := k3 x h2
      subst hr h2
      refine ⟨⟨hre, ⟨pc0', .idle, e', ?_, ?_, ?_⟩, ?_, ?_⟩, fun _ => .inl ⟨x, rfl⟩⟩
      · rw [hb, hcq]; exact h1
      · simp [ConsOk, deliver, hp, cls]
      · rw [hb, hq, h3]
        simp [deliver, hp, taken, cls]
      · rw [hcq]; simpa only [deliver, hp] using hcl
      · simpa only [deliver, hp] using hrj
    · have hr := k4 h2
      subst hr h2
      refine ⟨⟨hre, ⟨pc0', .idle, e', ?_, ?_, ?_⟩, ?_, ?_⟩, fun _ => .inr rfl⟩
      · rw [hb, hcq]; exact h1
      · simp [ConsOk, deliver, hp, cls, hcq, hc, hq, hqe]
      · rw [hb, hq, h3]
        simp [deliver, hp, taken, cls]
      · rw [hcq]; simpa only [deliver, hp] using hcl
      · simpa only [deliver, hp] using hrj
  · rename_i hp
    obtain h2 | ⟨h2, hc⟩ := h2
    · exact absurd h2 k6
    · subst h2
      refine ⟨⟨hre, ⟨pc0', .idle, e', ?_, ?_, ?_⟩, ?_, ?_⟩, by simp [hp]⟩
      · rw [hb, hcq]; exact h1
      · simp [ConsOk, deliver, hp, cls, hcq, hc, hleft hp]
      · rw [hb, hq, h3]
        simp [deliver, hp, taken, cls]
      · rw [hcq]; simpa only [deliver, hp] using hcl
      · simpa only [deliver, hp] using hrj
  · exact absurd h2.1 k5
  · exact absurd h2.1 k5
  · exact absurd h2.1 k5
  · exact absurd h2 k5

theorem StInv.rej_false {p : Plan α} {i : Nat} {st : Stage α} (h : StInv p i st) (hl : st.left = false) :
    st.rej = false := by
  cases hx : st.rej with
  | false => rfl
  | true => rw [h.rejLeft hx] at hl; simp at hl

theorem enough_false {p : Plan α} {i : Nat} {got : List α} (h : p.enough i got = false) {n : Nat}
    (hq : p.quota i = some n) : got.length < n := by
  simpa [Plan.enough, hq] using h

/-- The state after a call has returned. -/
theorem StInv.deliver {p : Plan α} {i : Nat} {st : Stage α} {r : Res α} (h : StInv p i st)
    (hpush : st.pos = .inPush → (∃ y ys, st.todo = y :: ys) ∧ (r = .bool true ∨ r = .bool false))
    (hpop : st.pos = .inPop → (∃ x, r = .val (some x)) ∨ r = .val none) : StInv p i (deliver p i st r) := by
  have hcalls := h.calls
  cases hp : st.pos with
  | loop => simpa only [Pipeline.deliver, hp] using h
  | shutIn => simpa only [Pipeline.deliver, hp] using h
  | shutOut => simpa only [Pipeline.deliver, hp] using h
  | over => simpa only [Pipeline.deliver, hp] using h
  | inPush =>
    have hl := h.stay (.inr (.inr hp))
    have hr := h.rej_false hl
    obtain ⟨⟨y, ys, ht⟩, rfl | rfl⟩ := hpush hp
    · simp only [Pipeline.deliver, hp]
      refine ⟨by simp, h.why, h.rejLeft, by simp, by simp, fun _ => hl, by simp, h.quota,
        fun h0 => ⟨(h.first h0).1, by simp, by simp⟩, fun hl => absurd hp (h.last hl).2.1, ?_⟩
      simp only [made, ht, hp, flag, List.length_cons, List.tail_cons] at hcalls ⊢
      omega
    · simp only [Pipeline.deliver, hp]
      refine ⟨by simp, fun _ => .inl rfl, fun _ => rfl, fun _ => rfl, by simp, by simp, by simp, h.quota,
        fun h0 => ⟨(h.first h0).1, by simp, by simp⟩, fun hl => absurd hp (h.last hl).2.1, ?_⟩
      simp only [made, hp, flag] at hcalls ⊢
      omega
  | inPop =>
    have hl := h.stay (.inr (.inl hp))
    have hr := h.rej_false hl
    have ht := h.todo hr (by simp [hp]) (by simp [hp])
    have h0 : i ≠ 0 := fun h0 => absurd hp (h.first h0).2.1
    obtain ⟨x, rfl⟩ | rfl := hpop hp
    · simp only [Pipeline.deliver, hp]
      refine ⟨by simp, by simp [hl], h.rejLeft, by simp, by simp, fun _ => hl, by simp, ?_,
        fun h0' => absurd h0' h0, fun hl => ⟨?_, by simp, by simp, (h.last hl).2.2.2⟩, ?_⟩
      · intro n hn
        have := enough_false (h.pop hp) hn
        simp; omega
      · rw [if_neg (by omega)]
      · simp only [made, hp, flag, ht, h0, if_false] at hcalls ⊢
        by_cases hle : i ≤ p.inner
        · simp only [hle, if_true, List.flatMap_append, List.length_append, List.flatMap_cons, List.flatMap_nil,
            List.length_cons, List.length_nil] at hcalls ⊢
          omega
        · simp only [hle, if_false, List.length_append, List.length_cons, List.length_nil] at hcalls ⊢
          omega
    · simp only [Pipeline.deliver, hp]
      refine ⟨fun _ _ _ => ht, h.why, h.rejLeft, by simp, by simp, by simp, by simp, h.quota,
        fun h0' => absurd h0' h0, fun hl => ⟨(h.last hl).1, by simp, by simp, (h.last hl).2.2.2⟩, ?_⟩
      simp only [made, hp, flag] at hcalls ⊢
      omega
  | inCloseIn =>
    have h0 : i ≠ 0 := fun h0 => absurd hp (h.first h0).2.2
    simp only [Pipeline.deliver, hp]
    refine ⟨fun hr _ _ => h.todo hr (by simp [hp]) (by simp [hp]), h.why, h.rejLeft, by simp, by simp, by simp,
      by simp, h.quota, fun h0' => absurd h0' h0,
      fun hl => ⟨(h.last hl).1, by simp, by simp, (h.last hl).2.2.2⟩, ?_⟩
    simp only [made, hp, flag] at hcalls ⊢
    omega
  | inCloseOut =>
    simp only [Pipeline.deliver, hp]
    refine ⟨fun hr _ _ => h.todo hr (by simp [hp]) (by simp [hp]), h.why, h.rejLeft, by simp, by simp, by simp,
      by simp, h.quota, fun h0 => ⟨(h.first h0).1, by simp, by simp⟩, fun hl => absurd hp (h.last hl).2.2.1, ?_⟩
    simp only [made, hp, flag] at hcalls ⊢
    omega

theorem inv_same {p : Plan α} {s : Sys α} {i : Nat} {chan' : Nat → St α}
    (h : Inv p ⟨chan', upd s.stage i (s.stage i)⟩) : Inv p ⟨chan', s.stage⟩ := by
  have : upd s.stage i (s.stage i) = s.stage := by
    funext j; simp only [upd]; split
    · rename_i e; rw [e]
    · rfl
  rwa [this] at h

theorem inv_inside {p : Plan α} {s s' : Sys α} {i : Nat} {a : Nat → Act α} (h : Inv p s) (hi : i ≤ p.inner + 1)
    (ha : ∀ t, (∃ w, a t = .step t w) ∨ a t = .spurious t ∨ a t = .stale t)
    (hs : s.inside p i a = some s') : Inv p s' := by
  have hst := h.stages i hi
  unfold Sys.inside at hs
  split at hs
  · simp at hs
  · rename_i k t hpl
    simp only [Option.map_eq_some_iff] at hs
    obtain ⟨c, hc, rfl⟩ := hs
    have hside : (t = 0 ∧ k = i ∧ i ≤ p.inner ∧ ((s.stage i).pos = .inPush ∨ (s.stage i).pos = .inCloseOut)) ∨
        (t = 1 ∧ i = k + 1 ∧ k ≤ p.inner ∧ ((s.stage i).pos = .inPop ∨ (s.stage i).pos = .inCloseIn)) := by
      cases hp : (s.stage i).pos <;> simp only [place, hp] at hpl <;> simp at hpl <;> obtain ⟨rfl, rfl⟩ := hpl
      · have : i ≠ 0 := fun h0 => (hst.first h0).2.1 hp
        exact .inr ⟨rfl, by omega, by omega, by simp⟩
      · have : i ≠ p.inner + 1 := fun h0 => (hst.last h0).2.1 hp
        exact .inl ⟨rfl, rfl, by omega, by simp⟩
      · have : i ≠ 0 := fun h0 => (hst.first h0).2.2 hp
        exact .inr ⟨rfl, by omega, by omega, by simp⟩
      · have : i ≠ p.inner + 1 := fun h0 => (hst.last h0).2.2.1 hp
        exact .inl ⟨rfl, rfl, by omega, by simp⟩
    rcases hside with ⟨rfl, rfl, hle, hpos⟩ | ⟨rfl, rfl, hle, hpos⟩
    · have hlk := h.links k hle
      obtain ⟨pc, hpc, hm⟩ := moved_next (lockBody_reach hlk.reach).2 (ha 0) hc
      split
      · rename_i op r hd
        rw [hpc] at hd; injection hd with hd; subst hd
        obtain ⟨hl, hx⟩ := hlk.retP hc hpc hm
        refine inv_of h (fun j h1 _ => upd_ne h1) (hst.deliver hx ?_) (fun _ => by rw [upd_eq]; exact hl) ?_
        · rcases hpos with hp | hp <;> simp [hp]
        · rintro j rfl hj
          rw [upd_ne (by omega)]
          rcases hpos with hp | hp
          · obtain ⟨-, rfl | rfl⟩ := hx hp
            · refine (h.links j hj).frameC (by simp [deliver, hp]) (by simp [deliver, hp]) ?_
              intro pc1; simp [ConsOk, deliver, hp]
            · refine (h.links j hj).frameC (by simp [deliver, hp]) (by simp [deliver, hp]) ?_
              intro pc1; simp [ConsOk, deliver, hp]
          · refine (h.links j hj).frameC (by simp [deliver, hp]) (by simp [deliver, hp]) ?_
            intro pc1; simp [ConsOk, deliver, hp]
      · rename_i hd
        refine inv_same (i := k) (inv_of h (fun j h1 _ => upd_ne h1) hst (fun _ => ?_) ?_)
        · rw [upd_eq]
          exact hlk.runP hc hpc hm (fun op r e => hd op r (by rw [hpc, e]))
        · rintro j rfl hj
          rw [upd_ne (by omega)]
          exact h.links j hj
    · have hlk := h.links k hle
      obtain ⟨pc, hpc, hm⟩ := moved_next (lockBody_reach hlk.reach).2 (ha 1) hc
      split
      · rename_i op r hd
        rw [hpc] at hd; injection hd with hd; subst hd
        obtain ⟨hl, hx⟩ := hlk.retC (i := k + 1) hc hpc hm hst.closeIn
        refine inv_of h (fun j h1 h2 => upd_ne (by omega)) (hst.deliver ?_ hx) ?_ ?_
        · rcases hpos with hp | hp <;> simp [hp]
        · intro hk
          rw [upd_ne (by omega)]
          rcases hpos with hp | hp
          · have ht := hst.todo (hst.rej_false (hst.stay (.inr (.inl hp)))) (by simp [hp]) (by simp [hp])
            obtain ⟨x, rfl⟩ | rfl := hx hp
            · refine (h.links (k + 1) hk).frameP (by simp [deliver, hp]) ?_ (by simp [hp])
              intro pc0 pc1 h1 _
              have h1' : cls pc0 = .idle := by simpa only [ProdOk, hp] using h1
              refine ⟨by simp [ProdOk, deliver, hp, h1'], p.body (k + 1) x, ?_, ?_⟩
              · simp [made, deliver, hp]
              · simp [deliver, hp, h1', rest, ht, hk]
            · refine (h.links (k + 1) hk).frameP (by simp [deliver, hp]) ?_ (by simp [hp])
              intro pc0 pc1 h1 _
              refine ⟨?_, [], by simp [made, deliver, hp], by simp [deliver, hp]⟩
              simpa only [ProdOk, deliver, hp] using h1
          · refine (h.links (k + 1) hk).frameP (by simp [deliver, hp]) ?_ (by simp [hp])
            intro pc0 pc1 h1 _
            refine ⟨?_, [], by simp [made, deliver, hp], by simp [deliver, hp]⟩
            simpa only [ProdOk, deliver, hp] using h1
        · intro j hj _
          obtain rfl : j = k := by omega
          rw [upd_eq]
          exact hl
      · rename_i hd
        refine inv_same (i := k + 1) (inv_of h (fun j h1 h2 => upd_ne (by omega)) hst ?_ ?_)
        · intro hk
          rw [upd_ne (by omega)]
          exact h.links (k + 1) hk
        · intro j hj _
          obtain rfl : j = k := by omega
          rw [upd_eq]
          exact hlk.runC hc hpc hm (fun op r e => hd op r (by rw [hpc, e])) hst.closeIn

theorem inv_step {p : Plan α} {s s' : Sys α} {a : PAct} (h : Inv p s) (hs : step p s a = some s') : Inv p s' := by
  cases a <;> simp only [step] at hs <;> split at hs <;> try (simp at hs; done)
  · rename_i hi; exact inv_begin h hi hs
  · rename_i hi; exact inv_inside h hi (fun t => .inl ⟨_, rfl⟩) hs
  · rename_i hi; exact inv_inside h hi (fun t => .inr (.inl rfl)) hs
  · rename_i hi; exact inv_inside h hi (fun t => .inr (.inr rfl)) hs

theorem inv_exec {p : Plan α} {s s' : Sys α} {acts : List PAct} (h : Inv p s) (hs : exec p s acts = some s') :
    Inv p s' := by
  induction acts generalizing s with
  | nil => simp [exec] at hs; subst hs; exact h
  | cons a l ih =>
    simp only [exec, Option.bind_eq_some_iff] at hs
    obtain ⟨s1, h1, h2⟩ := hs
    exact ih (inv_step h h1) h2

theorem inv_reach {p : Plan α} {s : Sys α} (h : Reach p s) : Inv p s := by
  obtain ⟨acts, h⟩ := h
  exact inv_exec (inv_start p) h

end Verif.Pipeline
