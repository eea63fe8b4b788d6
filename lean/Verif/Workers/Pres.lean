import Verif.Workers.Inv

/-! Every action of the workers preserves the invariant. -/
namespace Verif.Workers

open Verif.Channel
open Verif.Pipeline (upd upd_eq upd_ne Cls cls Trans Moved moved_next taken rest sumTo sumTo_congr reach_next cls_done
  next_ne_idle_cls)

variable {α : Type}

theorem call_facts {cfg : Cfg} {c c' : St α} {t : Nat} {op : Op α} (h : next cfg c (.call t op) = some c') :
    c'.q = c.q ∧ c'.closed = c.closed ∧ clsAt c t = .idle ∧ clsAt c' t = cls (entry op) ∧
      ∀ t', t' ≠ t → clsAt c' t' = clsAt c t' := by
  simp only [next] at h
  split at h
  · rename_i hp
    injection h with h; subst h
    refine ⟨rfl, rfl, by simp [clsAt, hp, cls], ?_, ?_⟩
    · simp [clsAt, St.goto, St.log, lt_of_getElem? hp]
    · intro t' ht
      simp [clsAt, St.goto, St.log, List.getElem?_set_ne (Ne.symm ht)]
  · simp at h

theorem live_one {w : Worker α} (h : w.pos = .loop ∨ w.pos = .inPop ∨ w.pos = .inPush ∨ w.pos = .ended) : live w = 1 := by
  rcases h with h | h | h | h <;> simp [live, h]

theorem upd_upd_worker {s : Sys α} {i j k : Nat} {c : St α} {w : Worker α} :
    ((s.setChan k c).setWorker i j w).worker = upd s.worker i (upd (s.worker i) j w) := rfl

/-- Not every worker of the layer before has finished, so the channel is open. -/
theorem Link.isOpen {p : Plan α} {P C : Nat → Worker α} {act k j : Nat} {c : St α} (h : Link p P C act k c)
    (hj : j < p.width k) (hl : ¬ gone (P j)) : c.closed = false := by
  cases hc : c.closed with
  | false => rfl
  | true => exact absurd (h.closed hc j hj) hl

theorem inv_finish {p : Plan α} {s s' : Sys α} {i j : Nat} (h : Inv p s) (hij : p.has i j)
    (hpos : (s.worker i j).pos = .ended ∨ (i = 0 ∧ (s.worker i j).pos = .loop ∧ (s.worker i j).todo = []))
    (hs : s.finish p i j = some s') : Inv p s' := by
  have hw := h.workers i j hij
  have htodo : (s.worker i j).todo = [] := by
    rcases hpos with hp | ⟨_, _, hp⟩
    · exact hw.todo (by simp [hp]) (by simp [hp])
    · exact hp
  have hflag : flag (s.worker i j).pos ≤ 1 := by
    rcases hpos with hp | ⟨_, hp, _⟩ <;> simp [hp, flag]
  have hlive : live (s.worker i j) = 1 := live_one (by rcases hpos with hp | ⟨_, hp, _⟩ <;> simp [hp])
  have hng : ¬ gone (s.worker i j) := by rw [← live_gone, hlive]; simp
  have hact : 1 ≤ s.active i := by
    have a := sumTo_change (n := p.width i) (F := fun x => live (s.worker i x))
      (F' := fun x => if x = j then 0 else live (s.worker i x)) hij.2 (fun x _ hx => by simp [hx])
    have b := h.counts i hij.1
    simp only [if_true] at a
    omega
  have hsolo : s.active i = 1 → ∀ j', j' < p.width i → j' ≠ j → gone (s.worker i j') := by
    intro ha j' hj' hne
    have a := sumTo_change (n := p.width i) (F := fun x => live (s.worker i x))
      (F' := fun x => if x = j then 0 else live (s.worker i x)) hij.2 (fun x _ hx => by simp [hx])
    have a' := sumTo_change (n := p.width i) (F := fun x => if x = j then 0 else live (s.worker i x))
      (F' := fun x => if x = j' then 0 else if x = j then 0 else live (s.worker i x)) hj' (fun x _ hx => by simp [hx])
    have b := h.counts i hij.1
    simp only [if_true, hne, if_false] at a a'
    exact live_gone.1 (by omega)
  have hcalls := hw.calls
  unfold Sys.finish at hs
  split at hs
  · rename_i hc
    obtain ⟨ha, hle⟩ := hc
    simp only [Sys.call, Option.map_eq_some_iff] at hs
    obtain ⟨c, hc, rfl⟩ := hs
    obtain ⟨hq, hcl, hi0, hi1, hio⟩ := call_facts hc
    have hopen := (h.links i hle).isOpen hij.2 hng
    refine inv_of (w' := { s.worker i j with pos := .inClose, calls := (s.worker i j).calls + 1 }) h hij rfl
      (fun k h1 _ => upd_ne h1) (fun k hk => upd_ne hk) ?_ ?_ ?_ ?_
    · rw [hlive]; simp only [Sys.setChan, Sys.setWorker, upd_eq]; simp only [live]; omega
    · refine ⟨fun _ _ => htodo, fun h0 => ⟨(hw.first h0).1, by simp, by simp⟩, fun hl => by omega, ?_⟩
      simp only [made] at hcalls ⊢
      simp only [flag]
      omega
    · intro _
      simp only [Sys.setChan, Sys.setWorker, upd_eq]
      refine (h.links i hle).prodStep hij.2 (reach_next (h.links i hle).reach hc) hio ?_ ?_ ?_ ?_ ?_ (fun _ => hsolo ha) (fun _ => .inl rfl) ?_
      · rw [hi1]; simp [ProdOk, entry, cls]
      · rw [hcl]; exact id
      · intro _; exact hq
      · intro g; rw [hq, hi1, hi0]; simp [made, rest, entry, cls]
      · intro hx; rw [hcl, hopen] at hx; simp at hx
      · intro _; exact .inr ⟨j, hij.2, by rw [upd_eq]⟩
    · rintro k rfl hk
      simp only [Sys.setChan, Sys.setWorker]
      rw [upd_ne (by omega)]
      have hp : (s.worker (k + 1) j).pos = .ended := by
        rcases hpos with hp | ⟨h0, _⟩
        · exact hp
        · omega
      have hlk := h.links k hk
      refine hlk.consStep hij.2 hlk.reach (fun _ _ => rfl) ?_ rfl id (fun g => rfl)
      have := hlk.cons j hij.2
      simpa only [ConsOk, hp] using this
  · rename_i hc
    injection hs with hs; subst hs
    refine inv_of (w' := { s.worker i j with pos := .over, calls := (s.worker i j).calls + 1 }) h hij rfl
      (fun k h1 _ => rfl) (fun k hk => upd_ne hk) ?_ ?_ ?_ ?_
    · rw [hlive]; simp only [Sys.setWorker, upd_eq]; simp only [live]; omega
    · refine ⟨fun _ _ => htodo, fun h0 => ⟨(hw.first h0).1, by simp, by simp⟩,
        fun hl => ⟨(hw.last hl).1, by simp, by simp⟩, ?_⟩
      simp only [made] at hcalls ⊢
      simp only [flag]
      omega
    · intro hle
      have hlk := h.links i hle
      have hopen := hlk.isOpen hij.2 hng
      simp only [Sys.setWorker, upd_eq]
      refine hlk.prodStep hij.2 hlk.reach (fun _ _ => rfl) ?_ id (fun _ => rfl) ?_ ?_ (by simp) (fun _ => .inr rfl) ?_
      · have := hlk.prod j hij.2
        rcases hpos with hp | ⟨_, hp, _⟩ <;> simpa only [ProdOk, hp] using this
      · intro g; simp [made]
      · intro hx; rw [hopen] at hx; simp at hx
      · intro hx; omega
    · rintro k rfl hk
      have hp : (s.worker (k + 1) j).pos = .ended := by
        rcases hpos with hp | ⟨h0, _⟩
        · exact hp
        · omega
      have hlk := h.links k hk
      have ha : upd s.active (k + 1) (s.active (k + 1) - 1) k = s.active k := upd_ne (by omega)
      simp only [Sys.setWorker]
      refine hlk.consStep hij.2 hlk.reach (fun _ _ => rfl) ?_ rfl id (fun g => rfl)
      have := hlk.cons j hij.2
      simpa only [ConsOk, hp] using this

theorem inv_begin {p : Plan α} {s s' : Sys α} {i j : Nat} (h : Inv p s) (hij : p.has i j)
    (hs : s.begin p i j = some s') : Inv p s' := by
  have hw := h.workers i j hij
  unfold Sys.begin at hs
  split at hs
  · rename_i y ys hp ht
    have hcalls := hw.calls
    have hng : ¬ gone (s.worker i j) := by simp [gone, hp]
    split at hs
    · rename_i hle
      simp only [Sys.call, Option.map_eq_some_iff] at hs
      obtain ⟨c, hc, rfl⟩ := hs
      obtain ⟨hq, hcl, hi0, hi1, hio⟩ := call_facts hc
      have hopen := (h.links i hle).isOpen hij.2 hng
      refine inv_of (w' := { s.worker i j with pos := .inPush, calls := (s.worker i j).calls + 1 }) h hij rfl
        (fun k h1 _ => upd_ne h1) (fun k hk => rfl) ?_ ?_ ?_ ?_
      · simp [Sys.setChan, Sys.setWorker, live, hp]
      · refine ⟨by simp, fun h0 => ⟨(hw.first h0).1, by simp, by simp⟩, fun hl => by omega, ?_⟩
        simp only [made, flag, hp] at hcalls ⊢
        omega
      · intro _
        simp only [Sys.setChan, Sys.setWorker, upd_eq]
        refine (h.links i hle).prodStep hij.2 (reach_next (h.links i hle).reach hc) hio ?_ ?_ ?_ ?_ ?_ (by simp) (fun hx => absurd hx hng) ?_
        · rw [hi1]
          simp only [ProdOk, entry, cls]
          exact ⟨y, ys, ht, .inl rfl⟩
        · rw [hcl]; exact id
        · intro _; exact hq
        · intro g; rw [hq, hi1, hi0]; simp [made, rest, entry, cls]
        · intro hx; rw [hcl, hopen] at hx; simp at hx
        · intro ha
          rcases (h.links i hle).last (by have := hij.2; omega) ha with hx | ⟨j', hj', hx⟩
          · rw [hopen] at hx; simp at hx
          · refine .inr ⟨j', hj', ?_⟩
            have : j' ≠ j := by rintro rfl; rw [hp] at hx; simp at hx
            rw [upd_ne this]; exact hx
      · rintro k rfl hk
        simp only [Sys.setChan, Sys.setWorker]
        rw [upd_ne (by omega)]
        have hlk := h.links k hk
        refine hlk.consStep hij.2 hlk.reach (fun _ _ => rfl) ?_ rfl id (fun g => rfl)
        have := hlk.cons j hij.2
        simpa only [ConsOk, hp] using this
    · simp at hs
  · rename_i hp ht
    split at hs
    · rename_i h0
      exact inv_finish h hij (.inr ⟨h0, hp, ht⟩) hs
    · rename_i h0
      have hcalls := hw.calls
      have hng : ¬ gone (s.worker i j) := by simp [gone, hp]
      obtain ⟨k, rfl⟩ : ∃ k, i = k + 1 := ⟨i - 1, by omega⟩
      have hk : k ≤ p.inner := by have := hij.1; omega
      simp only [Nat.add_sub_cancel] at hs
      simp only [Sys.call, Option.map_eq_some_iff] at hs
      obtain ⟨c, hc, rfl⟩ := hs
      obtain ⟨hq, hcl, hi0, hi1, hio⟩ := call_facts hc
      refine inv_of (w' := { s.worker (k + 1) j with pos := .inPop, calls := (s.worker (k + 1) j).calls + 1 }) h hij rfl
        (fun k' h1 h2 => upd_ne (by omega)) (fun k hk => rfl) ?_ ?_ ?_ ?_
      · simp [Sys.setChan, Sys.setWorker, live, hp]
      · refine ⟨fun _ _ => ht, fun h0 => by omega, fun hl => ⟨(hw.last hl).1, by simp, by simp⟩, ?_⟩
        simp only [made, flag, hp] at hcalls ⊢
        omega
      · intro hle
        have hlk := h.links (k + 1) hle
        have hopen := hlk.isOpen hij.2 hng
        simp only [Sys.setChan, Sys.setWorker]
        rw [upd_ne (by omega)]
        refine hlk.prodStep hij.2 hlk.reach (fun _ _ => rfl) ?_ id (fun _ => rfl) ?_ ?_ (by simp) (fun hx => absurd hx hng) ?_
        · have := hlk.prod j hij.2
          simpa only [ProdOk, hp] using this
        · intro g; simp [made]
        · intro hx; rw [hopen] at hx; simp at hx
        · intro ha
          rcases hlk.last (by have := hij.2; omega) ha with hx | ⟨j', hj', hx⟩
          · rw [hopen] at hx; simp at hx
          · refine .inr ⟨j', hj', ?_⟩
            have : j' ≠ j := by rintro rfl; rw [hp] at hx; simp at hx
            rw [upd_ne this]; exact hx
      · intro k' hk' _
        obtain rfl : k' = k := by omega
        simp only [Sys.setChan, Sys.setWorker, upd_eq]
        have hlk := h.links k' hk
        refine hlk.consStep hij.2 (reach_next hlk.reach hc) hio ?_ hcl (fun e => by rw [hq, e]) ?_
        · rw [hi1]; simp [ConsOk, entry, cls]
        · intro g; rw [hq, hi1, hi0]; simp [taken, entry, cls]
  · rename_i hp
    exact inv_finish h hij (.inl hp) hs
  · simp at hs

theorem cls_moved {c c' : St α} {t : Nat} {pc : PC α} (h : Moved c c' t pc) : ∀ t', t' ≠ t → clsAt c' t' = clsAt c t' :=
  fun t' ht => clsAt_eq (h.others t' ht)

theorem WInv.deliver {p : Plan α} {i j : Nat} {w : Worker α} {r : Res α} (h : WInv p i j w)
    (hpush : w.pos = .inPush → ∃ y ys, w.todo = y :: ys)
    (hpop : w.pos = .inPop → (∃ x, r = .val (some x)) ∨ r = .val none) : WInv p i j (deliver p i w r) := by
  have hcalls := h.calls
  cases hp : w.pos with
  | loop => simpa only [Workers.deliver, hp] using h
  | ended => simpa only [Workers.deliver, hp] using h
  | over => simpa only [Workers.deliver, hp] using h
  | inPush =>
    obtain ⟨y, ys, ht⟩ := hpush hp
    simp only [Workers.deliver, hp]
    refine ⟨by simp, fun h0 => ⟨(h.first h0).1, by simp, by simp⟩, fun hl => absurd hp (h.last hl).2.1, ?_⟩
    simp only [made, ht, hp, flag, List.length_cons, List.tail_cons] at hcalls ⊢
    omega
  | inPop =>
    have ht := h.todo (by simp [hp]) (by simp [hp])
    have h0 : i ≠ 0 := fun h0 => absurd hp (h.first h0).2.1
    obtain ⟨x, rfl⟩ | rfl := hpop hp
    · simp only [Workers.deliver, hp]
      refine ⟨by simp, fun h0' => absurd h0' h0, fun hl => ⟨by rw [if_neg (by omega)], by simp, by simp⟩, ?_⟩
      simp only [made, hp, flag, ht, h0, if_false] at hcalls ⊢
      by_cases hle : i ≤ p.inner
      · simp only [hle, if_true, List.flatMap_append, List.length_append, List.flatMap_cons, List.flatMap_nil,
          List.length_cons, List.length_nil] at hcalls ⊢
        omega
      · simp only [hle, if_false, List.length_append, List.length_cons, List.length_nil] at hcalls ⊢
        omega
    · simp only [Workers.deliver, hp]
      refine ⟨fun _ _ => ht, fun h0' => absurd h0' h0, fun hl => ⟨(h.last hl).1, by simp, by simp⟩, ?_⟩
      simp only [made, hp, flag] at hcalls ⊢
      omega
  | inClose =>
    have ht := h.todo (by simp [hp]) (by simp [hp])
    simp only [Workers.deliver, hp]
    refine ⟨fun _ _ => ht, fun h0 => ⟨(h.first h0).1, by simp, by simp⟩, fun hl => absurd hp (h.last hl).2.2, ?_⟩
    simp only [made, hp, flag] at hcalls ⊢
    omega

theorem upd_same {β : Type} {f : Nat → β} {i : Nat} : upd f i (f i) = f := by
  funext j; simp only [upd]; split
  · rename_i e; rw [e]
  · rfl

theorem inv_inside {p : Plan α} {s s' : Sys α} {i j : Nat} {a : Nat → Act α} (h : Inv p s) (hij : p.has i j)
    (ha : ∀ t, (∃ w, a t = .step t w) ∨ a t = .spurious t ∨ a t = .stale t)
    (hs : s.inside p i j a = some s') : Inv p s' := by
  have hw := h.workers i j hij
  unfold Sys.inside at hs
  split at hs
  · simp at hs
  · rename_i k t hpl
    simp only [Option.map_eq_some_iff] at hs
    obtain ⟨c, hc, rfl⟩ := hs
    have hside : (t = j ∧ k = i ∧ i ≤ p.inner ∧ ((s.worker i j).pos = .inPush ∨ (s.worker i j).pos = .inClose)) ∨
        (t = p.width k + j ∧ i = k + 1 ∧ k ≤ p.inner ∧ (s.worker i j).pos = .inPop) := by
      have := hij.1
      cases hp : (s.worker i j).pos <;> simp only [place, hp] at hpl <;> simp at hpl <;> obtain ⟨rfl, rfl⟩ := hpl
      · have : i ≠ 0 := fun h0 => (hw.first h0).2.1 hp
        exact .inr ⟨rfl, by omega, by omega, rfl⟩
      · have : i ≠ p.inner + 1 := fun h0 => (hw.last h0).2.1 hp
        exact .inl ⟨rfl, rfl, by omega, by simp⟩
      · have : i ≠ p.inner + 1 := fun h0 => (hw.last h0).2.2 hp
        exact .inl ⟨rfl, rfl, by omega, by simp⟩
    rcases hside with ⟨rfl, rfl, hle, hpos⟩ | ⟨rfl, rfl, hle, hp⟩
    · have hlk := h.links k hle
      obtain ⟨pc, hpc, hm⟩ := moved_next (lockBody_reach hlk.reach).2 (ha t) hc
      have hre := reach_next hlk.reach hc
      have hpr := hlk.prod t hij.2
      rw [clsAt_of hpc] at hpr
      split
      · rename_i op r hd
        rw [hpc] at hd; injection hd with hd; subst hd
        obtain ⟨h1, hq, hcl⟩ := hm.done op r rfl
        have hk := cls_done (op := op) (r := r) rfl
        have hlast : ∀ w' : Worker α, ((s.worker k t).pos = .inClose → (s.chan k).closed = true) →
            s.active k = 0 → c.closed = true ∨ ∃ j', j' < p.width k ∧ (upd (s.worker k) t w' j').pos = .inClose := by
          intro w' hx ha
          rcases hlk.last (by have := hij.2; omega) ha with hy | ⟨j', hj', hy⟩
          · exact .inl (by rw [hcl, hy])
          · by_cases e : j' = t
            · subst e; exact .inl (by rw [hcl]; exact hx hy)
            · exact .inr ⟨j', hj', by rw [upd_ne e]; exact hy⟩
        rcases hpos with hp | hp
        · simp only [ProdOk, hp] at hpr
          obtain ⟨y, ys, ht, hpr | hpr⟩ := hpr
          · exact absurd hpr (hk.2.2.2.2.2.2.2 y)
          have hopen := hlk.isOpen hij.2 (by simp [gone, hp])
          refine inv_of (w' := deliver p k (s.worker k t) r) h hij rfl (fun k' h1 _ => upd_ne h1) (fun _ _ => rfl) ?_
            (hw.deliver (fun _ => ⟨y, ys, ht⟩) (by simp [hp])) ?_ ?_
          · simp [Sys.setChan, Sys.setWorker, live, deliver, hp]
          · intro _
            simp only [Sys.setChan, Sys.setWorker, upd_eq]
            refine hlk.prodStep hij.2 hre (cls_moved hm) ?_ (by rw [hcl]; exact id) (fun _ => hq) ?_ ?_ (by simp [deliver, hp]) (by simp [gone, deliver, hp]) (hlast _ (by simp [hp]))
            · rw [clsAt_of h1]; simp [ProdOk, deliver, hp, cls]
            · intro g
              rw [hq, clsAt_of h1, clsAt_of hpc, hpr]
              simp [made, deliver, hp, rest, cls]
            · intro hx; rw [hcl, hopen] at hx; simp at hx
          · rintro k' rfl hk'
            have hl' := h.links k' hk'
            simp only [Sys.setChan, Sys.setWorker]
            rw [upd_ne (by omega)]
            refine hl'.consStep hij.2 hl'.reach (fun _ _ => rfl) ?_ rfl id (fun g => by simp [deliver, hp])
            have := hl'.cons t hij.2
            simpa only [ConsOk, deliver, hp] using this
        · simp only [ProdOk, hp] at hpr
          obtain hpr | ⟨hpr, hcc⟩ := hpr
          · exact absurd hpr hk.2.2.2.2.2.1
          refine inv_of (w' := deliver p k (s.worker k t) r) h hij rfl (fun k' h1 _ => upd_ne h1) (fun _ _ => rfl) ?_
            (hw.deliver (by simp [hp]) (by simp [hp])) ?_ ?_
          · simp [Sys.setChan, Sys.setWorker, live, deliver, hp]
          · intro _
            simp only [Sys.setChan, Sys.setWorker, upd_eq]
            refine hlk.prodStep hij.2 hre (cls_moved hm) ?_ (by rw [hcl]; exact id) (fun _ => hq) ?_ ?_ (by simp [deliver, hp]) (by simp [gone, deliver, hp]) (hlast _ (fun _ => hcc))
            · rw [clsAt_of h1]; simp [ProdOk, deliver, hp, cls]
            · intro g
              rw [hq, clsAt_of h1, clsAt_of hpc, hpr]
              simp [made, deliver, hp, rest, cls]
            · intro _; exact ⟨by simp [gone, deliver, hp], .inl hcc⟩
          · rintro k' rfl hk'
            have hl' := h.links k' hk'
            simp only [Sys.setChan, Sys.setWorker]
            rw [upd_ne (by omega)]
            refine hl'.consStep hij.2 hl'.reach (fun _ _ => rfl) ?_ rfl id (fun g => by simp [deliver, hp])
            have := hl'.cons t hij.2
            simpa only [ConsOk, deliver, hp] using this
      · rename_i hd
        obtain ⟨pc', h1, htr⟩ := hm.go (fun op r e => hd op r (by rw [hpc, e]))
        refine inv_of (w' := s.worker k t) h hij (by rw [upd_same, upd_same]; rfl) (fun k' h1 _ => upd_ne h1)
          (fun _ _ => rfl) rfl hw ?_ ?_
        · intro _
          simp only [Sys.setChan, upd_eq]
          have hopen : (s.worker k t).pos = .inPush → (s.chan k).closed = false :=
            fun hp => hlk.isOpen hij.2 (by simp [gone, hp])
          have key : ProdOk (s.worker k t) (cls pc') c.closed ∧ ((s.chan k).closed = true → c.closed = true) ∧
              ((s.chan k).closed = true → c.q = (s.chan k).q) ∧
              (∀ g : α → Nat, gsum g (s.chan k).q + gsum g (rest (s.worker k t).todo (cls pc)) =
                gsum g c.q + gsum g (rest (s.worker k t).todo (cls pc'))) ∧
              (c.closed = true → (s.chan k).closed = true ∨ (s.worker k t).pos = .inClose) := by
            revert hpr hopen
            generalize cls pc = k0 at htr
            generalize cls pc' = k0' at htr
            generalize (s.chan k).q = q at htr
            generalize c.q = q' at htr
            generalize (s.chan k).closed = b at htr
            generalize c.closed = b' at htr
            intro hpr hopen
            cases htr with
            | same => exact ⟨hpr, id, fun _ => rfl, fun _ => rfl, .inl⟩
            | @push q y =>
              rcases hpos with hp | hp
              · simp only [ProdOk, hp] at hpr ⊢
                obtain ⟨y', ys, ht, hy | hy⟩ := hpr
                · injection hy with hy; subst hy
                  refine ⟨⟨y, ys, ht, .inr rfl⟩, by simp, by simp, ?_, by simp⟩
                  intro g; simp [rest, ht]; omega
                · simp at hy
              · simp [ProdOk, hp] at hpr
            | refuse =>
              rcases hpos with hp | hp
              · have := hopen hp; simp at this
              · simp [ProdOk, hp] at hpr
            | take => rcases hpos with hp | hp <;> simp [ProdOk, hp] at hpr
            | fin => rcases hpos with hp | hp <;> simp [ProdOk, hp] at hpr
            | close =>
              rcases hpos with hp | hp
              · simp [ProdOk, hp] at hpr
              · refine ⟨by simp [ProdOk, hp], fun _ => rfl, fun _ => rfl, fun g => by simp [rest], fun _ => .inr hp⟩
            | oth => rcases hpos with hp | hp <;> simp [ProdOk, hp] at hpr
          obtain ⟨k1, k2, k3, k4, k5⟩ := key
          refine hlk.prodStep hij.2 hre (cls_moved hm) (by rw [clsAt_of h1]; exact k1) k2 k3 ?_ ?_ (fun hx j' hj' _ => hlk.solo t hij.2 hx j' hj') id ?_
          · intro g
            have := k4 g
            rw [clsAt_of h1, clsAt_of hpc]; omega
          · intro hx
            rcases k5 hx with h5 | h5
            · exact ⟨hlk.closed h5 t hij.2, .inl h5⟩
            · exact ⟨.inl h5, .inr (fun j' hj' _ => hlk.solo t hij.2 h5 j' hj')⟩
          · intro ha
            rcases hlk.last (by have := hij.2; omega) ha with hy | ⟨j', hj', hy⟩
            · exact .inl (k2 hy)
            · refine .inr ⟨j', hj', ?_⟩
              rw [upd_same]; exact hy
        · rintro k' rfl hk'
          have hl' := h.links k' hk'
          simp only [Sys.setChan]
          rw [upd_ne (by omega), upd_same]
          exact hl'
    · have hlk := h.links k hle
      obtain ⟨pc, hpc, hm⟩ := moved_next (lockBody_reach hlk.reach).2 (ha _) hc
      have hre := reach_next hlk.reach hc
      have hco := hlk.cons j hij.2
      rw [clsAt_of hpc] at hco
      have ht := hw.todo (by simp [hp]) (by simp [hp])
      simp only [ConsOk, hp] at hco
      split
      · rename_i op r hd
        rw [hpc] at hd; injection hd with hd; subst hd
        obtain ⟨h1, hq, hcl⟩ := hm.done op r rfl
        have hk := cls_done (op := op) (r := r) rfl
        have hlast : ∀ (hk : k + 1 ≤ p.inner) (w' : Worker α),
            s.active (k + 1) = 0 → (s.chan (k + 1)).closed = true ∨
              ∃ j', j' < p.width (k + 1) ∧ (upd (s.worker (k + 1)) j w' j').pos = .inClose := by
          intro hk w' ha
          rcases (h.links (k + 1) hk).last (by have := hij.2; omega) ha with hy | ⟨j', hj', hy⟩
          · exact .inl hy
          · by_cases e : j' = j
            · subst e; rw [hp] at hy; simp at hy
            · exact .inr ⟨j', hj', by rw [upd_ne e]; exact hy⟩
        have hr : (∃ x, r = .val (some x) ∧ cls (.done op r : PC α) = .took x) ∨
            (r = .val none ∧ cls (.done op r : PC α) = .ended ∧ (s.chan k).closed = true ∧ (s.chan k).q = []) := by
          rcases hco with hco | ⟨x, hco⟩ | ⟨hco, h2⟩
          · exact absurd hco hk.2.2.2.2.2.2.1
          · exact .inl ⟨x, hk.2.2.1 x hco, hco⟩
          · exact .inr ⟨hk.2.2.2.1 hco, hco, h2⟩
        refine inv_of (w' := deliver p (k + 1) (s.worker (k + 1) j) r) h hij rfl (fun k' h1 h2 => upd_ne (by omega))
          (fun _ _ => rfl) ?_ (hw.deliver (by simp [hp]) (fun _ => ?_)) ?_ ?_
        · simp only [Sys.setChan, Sys.setWorker]
          rcases hr with ⟨x, rfl, -⟩ | ⟨rfl, -⟩ <;> simp [live, deliver, hp]
        · rcases hr with ⟨x, rfl, -⟩ | ⟨rfl, -⟩
          · exact .inl ⟨x, rfl⟩
          · exact .inr rfl
        · intro hk'
          have hl' := h.links (k + 1) hk'
          have hopen := hl'.isOpen hij.2 (by simp [gone, hp])
          have hpr := hl'.prod j hij.2
          simp only [ProdOk, hp] at hpr
          simp only [Sys.setChan, Sys.setWorker]
          rw [upd_ne (by omega)]
          refine hl'.prodStep hij.2 hl'.reach (fun _ _ => rfl) ?_ id (fun _ => rfl) ?_ ?_ ?_ (by simp [gone, hp]) (hlast hk' _)
          · rcases hr with ⟨x, rfl, -⟩ | ⟨rfl, -⟩ <;> simp [ProdOk, deliver, hp, hpr]
          · intro g
            rcases hr with ⟨x, rfl, -⟩ | ⟨rfl, -⟩
            · simp [made, deliver, hp, hpr, rest, ht]
              split
              · omega
              · rename_i hx; exact absurd hk' hx
            · simp [made, deliver, hp]
          · intro hx; rw [hopen] at hx; simp at hx
          · rcases hr with ⟨x, rfl, -⟩ | ⟨rfl, -⟩ <;> simp [deliver, hp]
        · intro k' hk' _
          obtain rfl : k' = k := by omega
          simp only [Sys.setChan, Sys.setWorker, upd_eq]
          refine hlk.consStep hij.2 hre (cls_moved hm) ?_ hcl (fun e => by rw [hq, e]) ?_
          · rw [clsAt_of h1]
            rcases hr with ⟨x, rfl, -⟩ | ⟨rfl, -, h2, h3⟩
            · simp [ConsOk, deliver, hp, cls]
            · simp [ConsOk, deliver, hp, cls, hcl, h2, hq, h3]
          · intro g
            rw [clsAt_of h1, clsAt_of hpc, hq]
            rcases hr with ⟨x, rfl, h2⟩ | ⟨rfl, h2, -⟩
            · rw [h2]; simp [deliver, hp, taken, cls]
            · rw [h2]; simp [deliver, hp, taken, cls]
      · rename_i hd
        obtain ⟨pc', h1, htr⟩ := hm.go (fun op r e => hd op r (by rw [hpc, e]))
        refine inv_of (w' := s.worker (k + 1) j) h hij (by rw [upd_same, upd_same]; rfl) (fun k' h1 h2 => upd_ne (by omega))
          (fun _ _ => rfl) rfl hw ?_ ?_
        · intro hk
          simp only [Sys.setChan]
          rw [upd_ne (by omega), upd_same]
          exact h.links (k + 1) hk
        · intro k' hk' _
          obtain rfl : k' = k := by omega
          simp only [Sys.setChan, upd_eq]
          have key : ConsOk (s.worker (k' + 1) j) (cls pc') c.q c.closed ∧ c.closed = (s.chan k').closed ∧
              ((s.chan k').q = [] → c.q = []) ∧
              (∀ g : α → Nat, gsum g (taken (cls pc')) + gsum g c.q = gsum g (taken (cls pc)) + gsum g (s.chan k').q) := by
            revert hco
            generalize cls pc = k0 at htr
            generalize cls pc' = k0' at htr
            generalize (s.chan k').q = q at htr
            generalize c.q = q' at htr
            generalize (s.chan k').closed = b at htr
            generalize c.closed = b' at htr
            intro hco
            simp only [ConsOk, hp]
            cases htr with
            | same => exact ⟨hco, rfl, id, fun _ => rfl⟩
            | push => simp at hco
            | refuse => simp at hco
            | @take x q b => exact ⟨.inr (.inl ⟨x, rfl⟩), rfl, by simp, fun g => by simp [taken]⟩
            | fin => exact ⟨.inr (.inr ⟨rfl, rfl, rfl⟩), rfl, by simp, fun g => by simp [taken]⟩
            | close => simp at hco
            | oth => simp at hco
          obtain ⟨k1, k2, k3, k4⟩ := key
          refine hlk.consStep hij.2 hre (cls_moved hm) (by rw [clsAt_of h1]; exact k1) k2 k3 ?_
          intro g
          have := k4 g
          rw [clsAt_of h1, clsAt_of hpc]; omega

theorem inv_step {p : Plan α} {s s' : Sys α} {a : WAct} (h : Inv p s) (hs : step p s a = some s') : Inv p s' := by
  cases a with
  | begin i j =>
    simp only [step] at hs
    split at hs
    · rename_i hij; exact inv_begin h hij hs
    · simp at hs
  | run i j w =>
    simp only [step] at hs
    split at hs
    · rename_i hij; exact inv_inside h hij (fun t => .inl ⟨w, rfl⟩) hs
    · simp at hs
  | spurious i j =>
    simp only [step] at hs
    split at hs
    · rename_i hij; exact inv_inside h hij (fun t => .inr (.inl rfl)) hs
    · simp at hs
  | stale i j =>
    simp only [step] at hs
    split at hs
    · rename_i hij; exact inv_inside h hij (fun t => .inr (.inr rfl)) hs
    · simp at hs

theorem inv_exec {p : Plan α} {acts : List WAct} : ∀ {s s' : Sys α}, Inv p s → exec p s acts = some s' → Inv p s' := by
  induction acts with
  | nil => intro s s' h hs; simp only [exec] at hs; injection hs with hs; subst hs; exact h
  | cons a l ih =>
    intro s s' h hs
    simp only [exec, Option.bind_eq_some_iff] at hs
    obtain ⟨s1, h1, h2⟩ := hs
    exact ih (inv_step h h1) h2

theorem inv_reach {p : Plan α} {s : Sys α} (h : Reach p s) : Inv p s := by
  obtain ⟨acts, h⟩ := h
  exact inv_exec (inv_start p) h

end Verif.Workers
