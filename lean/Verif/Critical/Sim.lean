import Verif.Critical.Lemmas

/-! Every interleaving of two-phase transactions follows a serial execution, in the order of the first guards that end. -/
namespace Verif.Critical

open Verif.Guards (Kind Owns valueOf)
open Verif.Pipeline (upd)

variable {α : Type}

/-- One of the guards holds `m` exclusively (mutex.hpp:26-62, shared_mutex.hpp:27-64). -/
def exh (hs : List Held) (m : Nat) : Bool := hs.any fun h => decide (h.kind = .excl) && decide (h.m = m)

theorem exh_iff {hs : List Held} {m : Nat} : exh hs m = true ↔ ∃ h ∈ hs, h.kind = .excl ∧ h.m = m := by
  simp [exh]

/-- `C` where held exclusively, else `N` (the values of mutex.hpp:79, shared_mutex.hpp:81). -/
def overlay (C N : Nat → α) (hs : List Held) : Nat → α := fun m => if exh hs m = true then C m else N m

/-- A thread whose transaction is yet to come in the serial execution (programs over mutex.hpp:111-129, shared_mutex.hpp:113-158). -/
def Growing (G : Ser α) (C : Nat → α) (i : Nat) (t : Thr α) : Prop :=
  ∃ tx, G.todo i = tx :: t.later ∧ twoPhase false t.now = true ∧ (t.now ≠ [] ∨ t.held ≠ []) ∧
    ∀ N, (∀ m ∈ names t.held, N m = G.M m) →
      runTx N (G.seen i) [] tx = runTx (overlay C N t.held) t.seen (names t.held) t.now

/-- A thread whose transaction is over in the serial execution (programs over mutex.hpp:111-129, shared_mutex.hpp:113-158). -/
def Shrinking (G : Ser α) (C : Nat → α) (i : Nat) (t : Thr α) : Prop :=
  G.todo i = t.later ∧ twoPhase true t.now = true ∧ G.seen i = (runTx C t.seen (names t.held) t.now).2 ∧
    ∀ h ∈ t.held, h.kind = .excl → G.M h.m = (runTx C t.seen (names t.held) t.now).1 h.m

/-- The serial execution `G` behind a state (programs over mutex.hpp:111-129, shared_mutex.hpp:113-158). -/
structure Sim (G : Ser α) (C : Nat → α) (thr : Nat → Thr α) : Prop where
  each : ∀ i, Growing G C i (thr i) ∨ Shrinking G C i (thr i)
  free : ∀ m, (∀ i h, h ∈ (thr i).held → h.kind = .excl → h.m ≠ m) → C m = G.M m
  phases : ∀ i t, t ∈ (thr i).later → twoPhase false t = true

theorem Growing.stable {G G' : Ser α} {C C' : Nat → α} {j : Nat} {t : Thr α} (h : Growing G C j t)
    (h1 : ∀ m, exh t.held m = true → C' m = C m) (h2 : ∀ m ∈ names t.held, G'.M m = G.M m) (h3 : G'.seen j = G.seen j)
    (h4 : G'.todo j = G.todo j) : Growing G' C' j t := by
  obtain ⟨tx, a, b, c, d⟩ := h
  refine ⟨tx, h4 ▸ a, b, c, fun N hN => ?_⟩
  have hov : overlay C' N t.held = overlay C N t.held := by
    funext m
    simp only [overlay]
    split
    · exact h1 m (by assumption)
    · rfl
  rw [h3, hov]
  exact d N fun m hm => (hN m hm).trans (h2 m hm)

theorem Shrinking.stable {G G' : Ser α} {C C' : Nat → α} {j : Nat} {t : Thr α} (h : Shrinking G C j t)
    (h1 : ∀ m ∈ names t.held, C' m = C m) (h2 : ∀ m, exh t.held m = true → G'.M m = G.M m) (h3 : G'.seen j = G.seen j)
    (h4 : G'.todo j = G.todo j) : Shrinking G' C' j t := by
  obtain ⟨a, b, c, d⟩ := h
  have f := runTx_frame (S := t.seen) b h1
  refine ⟨h4 ▸ a, b, by rw [h3, c, f.1], fun h hh hk => ?_⟩
  rw [h2 h.m (exh_iff.2 ⟨h, hh, hk, rfl⟩), d h hh hk]
  exact (f.2 h.m (h1 h.m (List.mem_map.2 ⟨h, hh, rfl⟩))).symm

/-- What a thread holds has the value it has in the serial execution, or the thread holds it exclusively. -/
theorem Sim.held_value {G : Ser α} {C} {thr : Nat → Thr α} (s : Sim G C thr) (e : Excl thr) {i : Nat} {x : Held}
    (hx : x ∈ (thr i).held) (hn : exh (thr i).held x.m ≠ true) : C x.m = G.M x.m := by
  refine s.free x.m fun j h hh hk hm => ?_
  have := e j i h x hh hk hx hm.symm
  subst this
  exact hn (exh_iff.2 ⟨h, hh, hk, hm⟩)

theorem others {thr : Nat → Thr α} {i : Nat} {t : Thr α} {P : Nat → Thr α → Prop} (h1 : P i t)
    (h2 : ∀ j, j ≠ i → P j (thr j)) : ∀ j, P j (upd thr i t j) := by
  intro j
  by_cases e : j = i
  · subst e; rw [upd_eq]; exact h1
  · rw [upd_ne e]; exact h2 j e

theorem eachOf {G : Ser α} {C : Nat → α} {thr : Nat → Thr α} {i : Nat} {t : Thr α} (h1 : Growing G C i t ∨ Shrinking G C i t)
    (h2 : ∀ j, j ≠ i → Growing G C j (thr j) ∨ Shrinking G C j (thr j)) :
    ∀ j, Growing G C j (upd thr i t j) ∨ Shrinking G C j (upd thr i t j) :=
  others (P := fun j t => Growing G C j t ∨ Shrinking G C j t) h1 h2

theorem get_names {hs : List Held} {d : Nat} {x : Held} (h : hs[d]? = some x) : (names hs)[d]? = some x.m := by
  simp [names, h]

/-- The serial execution follows every command: it does nothing, or it executes the transaction of the thread at once. -/
theorem sim_eff {n : Nat} {G : Ser α} {C C' : Nat → α} {thr : Nat → Thr α} {i : Nat} {t : Thr α} (s : Sim G C thr)
    (e : Excl thr) (nd : ∀ j, (names (thr j).held).Nodup)
    (sc : ∀ j, wellScoped n (kinds (thr j).held) (thr j).now = true) (h : Eff C thr i C' t) :
    Sim G C' (upd thr i t) ∨ Sim (G.next i) C' (upd thr i t) := by
  have ph : ∀ t' : Thr α, t'.later = (thr i).later → ∀ j u, u ∈ (upd thr i t' j).later → twoPhase false u = true :=
    fun t' ht => others (P := fun j t => ∀ u, u ∈ t.later → twoPhase false u = true)
      (fun u hu => s.phases i u (ht ▸ hu)) fun j _ => s.phases j
  cases h with
  | lock m c g hnow free =>
    left
    rcases s.each i with hg | hg
    · obtain ⟨tx, a, b, _, d⟩ := hg
      refine ⟨eachOf (.inl ⟨tx, a, ?_, .inr (by simp), fun N hN => ?_⟩) fun j _ => s.each j, fun m' hm' => ?_, ph _ rfl⟩
      · rw [hnow] at b; simpa [twoPhase] using b
      · have hm : N m = C m := by
          rw [hN m (by simp [names])]
          exact (s.free m fun j h hh _ => free j h hh).symm
        rw [d N fun x hx => hN x (List.mem_cons_of_mem _ hx), hnow]
        have hov : overlay C N (⟨.excl, m, g⟩ :: (thr i).held) = overlay C N (thr i).held := by
          funext x
          by_cases hx : x = m
          · subst hx; simp only [overlay, hm]; split <;> split <;> rfl
          · have : exh (⟨.excl, m, g⟩ :: (thr i).held) x = exh (thr i).held x := by
              simp [exh, Ne.symm hx]
            simp [overlay, this]
        simp only [runTx, names, List.map_cons, hov]
      · refine s.free m' fun j h hh hk => ?_
        by_cases ej : j = i
        · subst ej; exact hm' j h (by rw [upd_eq]; exact List.mem_cons_of_mem _ hh) hk
        · exact hm' j h (by rw [upd_ne ej]; exact hh) hk
    · have := hg.2.1; rw [hnow] at this; simp [twoPhase] at this
  | lockShared m c g hnow free =>
    left
    rcases s.each i with hg | hg
    · obtain ⟨tx, a, b, _, d⟩ := hg
      refine ⟨eachOf (.inl ⟨tx, a, ?_, .inr (by simp), fun N hN => ?_⟩) fun j _ => s.each j, fun m' hm' => ?_, ph _ rfl⟩
      · rw [hnow] at b; simpa [twoPhase] using b
      · rw [d N fun x hx => hN x (List.mem_cons_of_mem _ hx), hnow]
        have hov : overlay C N (⟨.shrd, m, g⟩ :: (thr i).held) = overlay C N (thr i).held := by
          funext x
          have : exh (⟨.shrd, m, g⟩ :: (thr i).held) x = exh (thr i).held x := by simp [exh]
          simp [overlay, this]
        simp only [runTx, names, List.map_cons, hov]
      · refine s.free m' fun j h hh hk => ?_
        by_cases ej : j = i
        · subst ej; exact hm' j h (by rw [upd_eq]; exact List.mem_cons_of_mem _ hh) hk
        · exact hm' j h (by rw [upd_ne ej]; exact hh) hk
    · have := hg.2.1; rw [hnow] at this; simp [twoPhase] at this
  | read d c x hnow hx =>
    left
    have hxm := List.mem_of_getElem? hx
    have hheld : ∀ j, (upd thr i { thr i with now := c, seen := (thr i).seen ++ [C x.m] } j).held = (thr j).held :=
      others (P := fun j t => t.held = (thr j).held) rfl fun _ _ => rfl
    refine ⟨eachOf ?_ fun j _ => s.each j, fun m' hm' => s.free m' fun j h hh hk => hm' j h (by rw [hheld]; exact hh) hk,
      ph _ rfl⟩
    rcases s.each i with hg | hg
    · left
      obtain ⟨tx, a, b, _, dd⟩ := hg
      refine ⟨tx, a, ?_, .inr (by intro hn; simp only at hn; rw [hn] at hx; simp at hx), fun N hN => ?_⟩
      · rw [hnow] at b; simpa [twoPhase] using b
      · rw [dd N hN, hnow]
        simp only [runTx, get_names hx]
        have : overlay C N (thr i).held x.m = C x.m := by
          simp only [overlay]
          split
          · rfl
          · rename_i hn
            rw [hN x.m (List.mem_map.2 ⟨x, hxm, rfl⟩)]
            exact (s.held_value e hxm hn).symm
        rw [this]
    · right
      obtain ⟨a, b, cc, dd⟩ := hg
      rw [hnow] at b cc dd
      simp only [runTx, get_names hx] at cc dd
      exact ⟨a, by simpa [twoPhase] using b, cc, dd⟩
  | write d f c x hnow hx hk =>
    left
    have hxm := List.mem_of_getElem? hx
    have hheld : ∀ j, (upd thr i { thr i with now := c } j).held = (thr j).held :=
      others (P := fun j t => t.held = (thr j).held) rfl fun _ _ => rfl
    have hoth : ∀ j, j ≠ i → ∀ m ∈ names (thr j).held, upd C x.m (f (thr i).seen) m = C m := by
      intro j hj m hm
      obtain ⟨h, hh, rfl⟩ := List.mem_map.1 hm
      exact upd_ne fun em => hj (e i j x h hxm hk hh em).symm
    refine ⟨eachOf ?_ fun j hj => ?_, fun m' hm' => ?_, ph _ rfl⟩
    · rcases s.each i with hg | hg
      · left
        obtain ⟨tx, a, b, _, dd⟩ := hg
        refine ⟨tx, a, ?_, .inr (by intro hn; simp only at hn; rw [hn] at hx; simp at hx), fun N hN => ?_⟩
        · rw [hnow] at b; simpa [twoPhase] using b
        · rw [dd N hN, hnow]
          simp only [runTx, get_names hx]
          have : overlay (upd C x.m (f (thr i).seen)) N (thr i).held = upd (overlay C N (thr i).held) x.m (f (thr i).seen) := by
            funext y
            by_cases ey : y = x.m
            · subst ey
              rw [upd_eq]
              simp only [overlay]
              rw [if_pos (exh_iff.2 ⟨x, hxm, hk, rfl⟩), upd_eq]
            · rw [upd_ne ey]; simp only [overlay, upd_ne ey]
          rw [this]
      · right
        obtain ⟨a, b, cc, dd⟩ := hg
        rw [hnow] at b cc dd
        simp only [runTx, get_names hx] at cc dd
        exact ⟨a, by simpa [twoPhase] using b, cc, dd⟩
    · rcases s.each j with hg | hg
      · refine .inl (hg.stable (fun m hm => ?_) (fun _ _ => rfl) rfl rfl)
        obtain ⟨h, hh, _, rfl⟩ := exh_iff.1 hm
        exact hoth j hj h.m (List.mem_map.2 ⟨h, hh, rfl⟩)
      · exact .inr (hg.stable (hoth j hj) (fun _ _ => rfl) rfl rfl)
    · rw [upd_ne fun em => hm' i x (by rw [hheld]; exact hxm) hk em.symm]
      exact s.free m' fun j h hh hk => hm' j h (by rw [hheld]; exact hh) hk
  | drop c x hs hnow hx =>
    have ndi := nd i
    rw [hx] at ndi
    simp only [names, List.map_cons, List.nodup_cons] at ndi
    have sci := sc i
    rw [hnow, hx] at sci
    simp only [wellScoped, kinds, List.map_cons, List.tail_cons, Bool.and_eq_true] at sci
    have sci2 : wellScoped n (kinds hs) c = true := sci.2
    have hxm : x ∈ (thr i).held := by rw [hx]; exact List.mem_cons_self
    have sub : ∀ h ∈ hs, h ∈ (thr i).held := fun h hh => by rw [hx]; exact List.mem_cons_of_mem _ hh
    have notin : (Kind.excl, x.m) ∉ kinds hs := by
      intro hm
      obtain ⟨h, hh, he⟩ := List.mem_map.1 hm
      simp at he
      exact ndi.1 (List.mem_map.2 ⟨h, hh, he.2⟩)
    have keep : ∀ m', (∀ j h, h ∈ (upd thr i { thr i with now := c, held := hs } j).held → h.kind = .excl → h.m ≠ m') →
        m' ≠ x.m ∨ x.kind ≠ .excl → ∀ j h, h ∈ (thr j).held → h.kind = .excl → h.m ≠ m' := by
      intro m' hm' hor j h hh hk em
      by_cases ej : j = i
      · subst ej
        rw [hx] at hh
        rcases List.mem_cons.1 hh with q | hh
        · subst q
          rcases hor with a | a
          · exact a em.symm
          · exact a hk
        · exact hm' j h (by rw [upd_eq]; exact hh) hk em
      · exact hm' j h (by rw [upd_ne ej]; exact hh) hk em
    rcases s.each i with hg | hg
    · right
      obtain ⟨tx, a, b, _, dd⟩ := hg
      have b' : twoPhase true c = true := by rw [hnow] at b; simpa [twoPhase] using b
      have key := dd G.M fun _ _ => rfl
      rw [hnow, hx] at key
      simp only [runTx, names, List.map_cons, List.tail_cons] at key
      rw [show List.map (fun h : Held => h.m) hs = names hs from rfl] at key
      have agree : ∀ m ∈ names (thr i).held, overlay C G.M (thr i).held m = C m := by
        intro m hm
        obtain ⟨h, hh, rfl⟩ := List.mem_map.1 hm
        simp only [overlay]
        split
        · rfl
        · rename_i hn; exact (s.held_value e hh hn).symm
      rw [hx] at agree
      have fr := runTx_frame (S := (thr i).seen) (hs := names hs) b' fun m hm => agree m (List.mem_cons_of_mem _ hm)
      have nx : G.next i = ⟨(runTx (overlay C G.M (x :: hs)) (thr i).seen (names hs) c).1,
          upd G.seen i (runTx (overlay C G.M (x :: hs)) (thr i).seen (names hs) c).2, upd G.todo i (thr i).later⟩ := by
        simp only [Ser.next, a, key]
      have unch : ∀ m, (Kind.excl, m) ∉ kinds hs → (G.next i).M m = overlay C G.M (x :: hs) m := by
        intro m hm
        rw [nx]
        simp only
        rw [names_eq]
        exact runTx_unchanged b' sci2 hm
      have othM : ∀ j, j ≠ i → ∀ m ∈ names (thr j).held, (G.next i).M m = G.M m := by
        intro j hj m hm
        obtain ⟨y, hy, rfl⟩ := List.mem_map.1 hm
        have hno : ∀ h ∈ (thr i).held, h.kind = .excl → h.m ≠ y.m := fun h hh hk em => hj (e i j h y hh hk hy em.symm).symm
        rw [unch y.m fun hm => by
          obtain ⟨h, hh, he⟩ := List.mem_map.1 hm
          simp at he
          exact hno h (sub h hh) he.1 he.2]
        have : exh (x :: hs) y.m ≠ true := fun hm => by
          obtain ⟨h, hh, hk, em⟩ := exh_iff.1 hm
          exact hno h (by rw [hx]; exact hh) hk em
        simp only [overlay, if_neg this]
      refine ⟨eachOf ?_ fun j hj => ?_, fun m' hm' => ?_, ph _ rfl⟩
      · right
        refine ⟨by rw [nx]; exact upd_eq, b', ?_, fun h hh hk => ?_⟩
        · rw [nx]; simp only [upd_eq]; exact fr.1
        · rw [nx]
          exact fr.2 h.m (agree h.m (List.mem_cons_of_mem _ (List.mem_map.2 ⟨h, hh, rfl⟩)))
      · have e1 : (G.next i).seen j = G.seen j := by rw [nx]; exact upd_ne hj
        have e2 : (G.next i).todo j = G.todo j := by rw [nx]; exact upd_ne hj
        rcases s.each j with hg | hg
        · exact .inl (hg.stable (fun _ _ => rfl) (othM j hj) e1 e2)
        · refine .inr (hg.stable (fun _ _ => rfl) (fun m hm => ?_) e1 e2)
          obtain ⟨h, hh, _, rfl⟩ := exh_iff.1 hm
          exact othM j hj h.m (List.mem_map.2 ⟨h, hh, rfl⟩)
      · have hno : (Kind.excl, m') ∉ kinds hs := fun hm => by
          obtain ⟨h, hh, he⟩ := List.mem_map.1 hm
          simp at he
          exact hm' i h (by rw [upd_eq]; exact hh) he.1 he.2
        rw [unch m' hno]
        simp only [overlay]
        split
        · rfl
        · rename_i hn
          refine s.free m' (keep m' hm' ?_)
          by_cases hk : x.kind = .excl
          · left; intro em; exact hn (exh_iff.2 ⟨x, List.mem_cons_self, hk, em.symm⟩)
          · exact .inr hk
    · left
      obtain ⟨a, b, cc, dd⟩ := hg
      rw [hnow, hx] at cc dd
      simp only [runTx, names, List.map_cons, List.tail_cons] at cc dd
      rw [show List.map (fun h : Held => h.m) hs = names hs from rfl] at cc dd
      have b' : twoPhase true c = true := by rw [hnow] at b; simpa [twoPhase] using b
      refine ⟨eachOf (.inr ⟨a, b', cc, fun h hh hk => dd h (List.mem_cons_of_mem _ hh) hk⟩) fun j _ => s.each j,
        fun m' hm' => ?_, ph _ rfl⟩
      by_cases q : m' = x.m ∧ x.kind = .excl
      · obtain ⟨rfl, hk⟩ := q
        rw [dd x List.mem_cons_self hk, names_eq]
        exact (runTx_unchanged b' sci2 notin).symm
      · refine s.free m' (keep m' hm' ?_)
        by_cases hk : x.kind = .excl
        · left; intro em; exact q ⟨em, hk⟩
        · exact .inr hk

/-- A thread begins its next transaction. -/
theorem sim_begin {G : Ser α} {C : Nat → α} {thr : Nat → Thr α} {i : Nat} {tx : List (Cmd α)} {ts} (s : Sim G C thr)
    (hh : (thr i).held = []) (hnow : (thr i).now = []) (hl : (thr i).later = tx :: ts) :
    Sim G C (upd thr i { thr i with now := tx, later := ts }) ∨
      Sim (G.next i) C (upd thr i { thr i with now := tx, later := ts }) := by
  have hheld : ∀ j, (upd thr i { thr i with now := tx, later := ts } j).held = (thr j).held :=
    others (P := fun j t => t.held = (thr j).held) rfl fun _ _ => rfl
  have ph : ∀ j u, u ∈ (upd thr i { thr i with now := tx, later := ts } j).later → twoPhase false u = true :=
    others (P := fun j t => ∀ u, u ∈ t.later → twoPhase false u = true)
      (fun u hu => s.phases i u (by rw [hl]; exact List.mem_cons_of_mem _ hu)) fun j _ => s.phases j
  rcases s.each i with hg | hg
  · obtain ⟨_, _, _, h, _⟩ := hg
    rcases h with h | h
    · exact absurd hnow h
    · exact absurd hh h
  · obtain ⟨a, b, cc, dd⟩ := hg
    rw [hnow] at cc
    simp only [runTx] at cc
    rw [hl] at a
    by_cases ht : tx = []
    · right
      subst ht
      have nx : G.next i = ⟨G.M, upd G.seen i (G.seen i), upd G.todo i ts⟩ := by
        simp [Ser.next, a, runTx]
      refine ⟨eachOf ?_ fun j hj => ?_, fun m hm => ?_, ph⟩
      · right
        refine ⟨by rw [nx]; exact upd_eq, rfl, by rw [nx]; simp only [upd_eq, runTx]; exact cc, fun h hm => ?_⟩
        simp only at hm; rw [hh] at hm; simp at hm
      · have e1 : (G.next i).seen j = G.seen j := by rw [nx]; exact upd_ne hj
        have e2 : (G.next i).todo j = G.todo j := by rw [nx]; exact upd_ne hj
        have e3 : (G.next i).M = G.M := by rw [nx]
        rcases s.each j with hg | hg
        · exact .inl (hg.stable (fun _ _ => rfl) (fun m _ => by rw [e3]) e1 e2)
        · exact .inr (hg.stable (fun _ _ => rfl) (fun m _ => by rw [e3]) e1 e2)
      · have e3 : (G.next i).M = G.M := by rw [nx]
        rw [e3]
        exact s.free m fun j h hh hk => hm j h (by rw [hheld]; exact hh) hk
    · left
      refine ⟨eachOf (.inl ⟨tx, a, s.phases i tx (by rw [hl]; exact List.mem_cons_self), .inl ht, fun N hN => ?_⟩)
        fun j _ => s.each j, fun m hm => s.free m fun j h hh hk => hm j h (by rw [hheld]; exact hh) hk, ph⟩
      have : overlay C N [] = N := by funext m; simp [overlay, exh]
      simp only [cc, hh, names, List.map_nil, this]

/-! ### All executions -/

/-- A serial execution explains the state, and who holds what is in order (mutex.hpp:111-129, shared_mutex.hpp:113-158). -/
def Good (p : Plan α) (M0 : Nat → α) (s : Sys α) : Prop :=
  ∃ C order, Base p C s ∧ Sim (serial ⟨M0, fun _ => [], p.work⟩ order) C s.thr

theorem base_start {p : Plan α} {M0 : Nat → α} (hM : ∀ m, m < p.values.length → p.values[m]? = some (M0 m))
    (hw : ∀ i, ∀ t ∈ p.work i, wellScoped p.values.length [] t = true) : Base p M0 (start p) where
  reach := ⟨[], rfl⟩
  vals m hm := by simp [start, valueOf, Guards.init, hM m hm]
  own i h hh := by simp [start] at hh
  all g k m h := by obtain ⟨x, hx, _⟩ := h; simp [start, Guards.init] at hx
  uniq i j h h' hh := by simp [start] at hh
  nodup i := by simp [start, names]
  scope i := by simp [start, kinds, wellScoped]
  later i t ht := hw i t ht
  bound i h hh := by simp [start] at hh

theorem sim_start {p : Plan α} {M0 : Nat → α} (hw : ∀ i, ∀ t ∈ p.work i, twoPhase false t = true) :
    Sim ⟨M0, fun _ => [], p.work⟩ M0 (start p).thr where
  each i := .inr ⟨rfl, rfl, rfl, fun h hh => by simp [start] at hh⟩
  free m _ := rfl
  phases i t ht := hw i t ht

/-- A thread that begins a transaction. -/
theorem Base.begin {p : Plan α} {C} {s : Sys α} (b : Base p C s) {i : Nat} {tx ts}
    (hnow : (s.thr i).now = []) (hl : (s.thr i).later = tx :: ts) :
    (s.thr i).held = [] ∧ Base p C { s with thr := upd s.thr i { s.thr i with now := tx, later := ts } } := by
  have h0 : (s.thr i).held = [] := by
    have := b.scope i
    rw [hnow] at this
    simpa [wellScoped, kinds] using this
  have hheld : ∀ j, (upd s.thr i { s.thr i with now := tx, later := ts } j).held = (s.thr j).held :=
    others (P := fun j t => t.held = (s.thr j).held) rfl fun _ _ => rfl
  refine ⟨h0, b.reach, b.vals, fun j h a => b.own j h (hheld j ▸ a), fun g k m ho => ?_,
    fun j j' h h' a a' e => b.uniq _ _ _ _ (hheld j ▸ a) (hheld j' ▸ a') e, fun j => ?_, ?_, ?_,
    fun j h a => b.bound j h (hheld j ▸ a)⟩
  · obtain ⟨j, hj⟩ := b.all g k m ho
    exact ⟨j, (hheld j).symm ▸ hj⟩
  · show (names (upd s.thr i _ j).held).Nodup
    rw [hheld]; exact b.nodup j
  · refine others (P := fun j t => wellScoped p.values.length (kinds t.held) t.now = true) ?_ fun j _ => b.scope j
    show wellScoped _ (kinds (s.thr i).held) tx = true
    rw [h0]
    exact b.later i tx (by rw [hl]; exact List.mem_cons_self)
  · exact others (P := fun j t => ∀ u, u ∈ t.later → wellScoped p.values.length [] u = true)
      (fun u hu => b.later i u (by rw [hl]; exact List.mem_cons_of_mem _ hu)) fun j _ => b.later j

/-- Steps keep `Base`. -/
theorem base_step {p : Plan α} {C} {s s' : Sys α} {a : Act} (b : Base p C s) (h : step p s a = some s') :
    ∃ C', Base p C' s' := by
  cases a with
  | begin i =>
    simp only [step] at h
    split at h
    · split at h
      · rename_i t ts hnow hl
        injection h with h; subst h
        exact ⟨C, (b.begin hnow hl).2⟩
      · cases h
    · cases h
  | run i =>
    simp only [step] at h
    split at h
    · obtain ⟨C', t, _, _, hb⟩ := exec1_eff b h
      exact ⟨C', hb⟩
    · cases h

theorem serial_snoc (G : Ser α) (order : List Nat) (i : Nat) : serial G (order ++ [i]) = (serial G order).next i := by
  simp [serial]

theorem good_step {p : Plan α} {M0} {s s' : Sys α} {a : Act} (g : Good p M0 s) (h : step p s a = some s') :
    Good p M0 s' := by
  obtain ⟨C, order, b, sm⟩ := g
  cases a with
  | begin i =>
    simp only [step] at h
    split at h
    · split at h
      · rename_i t ts hnow hl
        injection h with h; subst h
        obtain ⟨h0, hb⟩ := b.begin hnow hl
        rcases sim_begin sm h0 hnow hl with q | q
        · exact ⟨C, order, hb, q⟩
        · exact ⟨C, order ++ [i], hb, by rw [serial_snoc]; exact q⟩
      · cases h
    · cases h
  | run i =>
    simp only [step] at h
    split at h
    · obtain ⟨C', t, he, ht, hb⟩ := exec1_eff b h
      rcases sim_eff sm b.excl b.nodup b.scope he with q | q
      · exact ⟨C', order, hb, ht ▸ q⟩
      · exact ⟨C', order ++ [i], hb, by rw [serial_snoc]; exact ht ▸ q⟩
    · cases h

theorem exec_induct {p : Plan α} {P : Sys α → Prop} (hs : ∀ s s' a, P s → step p s a = some s' → P s') :
    ∀ (acts : List Act) (s s' : Sys α), P s → exec p s acts = some s' → P s'
  | [], s, s', h, he => by simp [exec] at he; subst he; exact h
  | a :: as, s, s', h, he => by
    simp only [exec] at he
    cases hx : step p s a with
    | none => simp [hx] at he
    | some s1 =>
      simp only [hx, Option.bind_some] at he
      exact exec_induct hs as s1 s' (hs s s1 a h hx) he

end Verif.Critical
