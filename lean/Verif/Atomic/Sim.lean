import Verif.Atomic.Lemmas

/-! Every interleaving of two-phase transactions follows a serial execution, in the order of the first guards that end. -/
namespace Verif.Atomic

open Verif.Guards (Kind Owns valueOf)
open Verif.Pipeline (upd)

variable {α σ : Type}

/-- One of the guards holds `m` exclusively (mutex.hpp:26-62, shared_mutex.hpp:27-64). -/
def exh (hs : List Held) (m : Nat) : Bool := hs.any fun h => decide (h.kind = .excl) && decide (h.m = m)

theorem exh_iff {hs : List Held} {m : Nat} : exh hs m = true ↔ ∃ h ∈ hs, h.kind = .excl ∧ h.m = m := by
  simp [exh]

/-- `C` where held exclusively, else `N` (the values of mutex.hpp:79, shared_mutex.hpp:81). -/
def overlay (C N : Nat → α) (hs : List Held) : Nat → α := fun m => if exh hs m = true then C m else N m

/-- The program has ended (programs over mutex.hpp:111-129, shared_mutex.hpp:113-158). -/
def Prog.isRet : Prog α σ → Prop
  | .ret _ => True
  | _ => False

/-- A thread whose transaction is yet to come in the serial execution; `ans`: the answers to its `try_lock`s so far (mutex.hpp:122-129, shared_mutex.hpp:124-131, 151-158). -/
def Growing (p : Plan α σ) (G : Ser α σ) (C : Nat → α) (i : Nat) (t : Thr α σ) : Prop :=
  ∃ tx ans, p.body i (G.st i) = some tx ∧ G.done i + 1 = t.begun ∧ TwoPhase false t.code ∧ ¬ t.code.isRet ∧
    ∀ N, (∀ m ∈ names t.held, N m = G.M m) → ∀ o,
      runTx N (ans ++ o) [] tx = runTx (overlay C N t.held) o (names t.held) t.code

/-- A thread whose transaction is over in the serial execution (programs over mutex.hpp:111-129, shared_mutex.hpp:113-158). -/
def Shrinking (G : Ser α σ) (C : Nat → α) (i : Nat) (t : Thr α σ) : Prop :=
  G.done i = t.begun ∧ TwoPhase true t.code ∧ G.st i = (runTx C [] (names t.held) t.code).2 ∧
    ∀ h ∈ t.held, h.kind = .excl → G.M h.m = (runTx C [] (names t.held) t.code).1 h.m

/-- The serial execution `G` behind a state (programs over mutex.hpp:111-129, shared_mutex.hpp:113-158). -/
structure Sim (p : Plan α σ) (G : Ser α σ) (C : Nat → α) (thr : Nat → Thr α σ) : Prop where
  each : ∀ i, Growing p G C i (thr i) ∨ Shrinking G C i (thr i)
  free : ∀ m, (∀ i h, h ∈ (thr i).held → h.kind = .excl → h.m ≠ m) → C m = G.M m

theorem Growing.stable {p : Plan α σ} {G G' : Ser α σ} {C C' : Nat → α} {j : Nat} {t : Thr α σ} (h : Growing p G C j t)
    (h1 : ∀ m, exh t.held m = true → C' m = C m) (h2 : ∀ m ∈ names t.held, G'.M m = G.M m) (h3 : G'.st j = G.st j)
    (h4 : G'.done j = G.done j) : Growing p G' C' j t := by
  obtain ⟨tx, ans, a, b, c, d, e⟩ := h
  refine ⟨tx, ans, h3 ▸ a, h4 ▸ b, c, d, fun N hN o => ?_⟩
  have hov : overlay C' N t.held = overlay C N t.held := by
    funext m
    simp only [overlay]
    split
    · exact h1 m (by assumption)
    · rfl
  rw [hov]
  exact e N (fun m hm => (hN m hm).trans (h2 m hm)) o

theorem Shrinking.stable {n : Nat} {G G' : Ser α σ} {C C' : Nat → α} {j : Nat} {t : Thr α σ} (h : Shrinking G C j t)
    (sc : Scoped n (kinds t.held) t.code)
    (h1 : ∀ m ∈ names t.held, C' m = C m) (h2 : ∀ m, exh t.held m = true → G'.M m = G.M m) (h3 : G'.st j = G.st j)
    (h4 : G'.done j = G.done j) : Shrinking G' C' j t := by
  obtain ⟨a, b, c, d⟩ := h
  have f := runTx_frame (o := []) (o' := []) b sc (by rw [← names_eq]; exact h1)
  rw [← names_eq] at f
  refine ⟨h4 ▸ a, b, by rw [h3, c, f.1], fun h hh hk => ?_⟩
  rw [h2 h.m (exh_iff.2 ⟨h, hh, hk, rfl⟩), d h hh hk]
  exact (f.2 h.m (h1 h.m (List.mem_map.2 ⟨h, hh, rfl⟩))).symm

/-- What a thread holds has the value it has in the serial execution, or the thread holds it exclusively. -/
theorem Sim.held_value {p : Plan α σ} {G : Ser α σ} {C} {thr : Nat → Thr α σ} (s : Sim p G C thr) (e : Excl thr) {i : Nat} {x : Held}
    (hx : x ∈ (thr i).held) (hn : exh (thr i).held x.m ≠ true) : C x.m = G.M x.m := by
  refine s.free x.m fun j h hh hk hm => ?_
  have := e j i h x hh hk hx hm.symm
  subst this
  exact hn (exh_iff.2 ⟨h, hh, hk, hm⟩)

theorem others {thr : Nat → Thr α σ} {i : Nat} {t : Thr α σ} {P : Nat → Thr α σ → Prop} (h1 : P i t)
    (h2 : ∀ j, j ≠ i → P j (thr j)) : ∀ j, P j (upd thr i t j) := by
  intro j
  by_cases e : j = i
  · subst e; rw [upd_eq]; exact h1
  · rw [upd_ne e]; exact h2 j e

theorem eachOf {p : Plan α σ} {G : Ser α σ} {C : Nat → α} {thr : Nat → Thr α σ} {i : Nat} {t : Thr α σ}
    (h1 : Growing p G C i t ∨ Shrinking G C i t)
    (h2 : ∀ j, j ≠ i → Growing p G C j (thr j) ∨ Shrinking G C j (thr j)) :
    ∀ j, Growing p G C j (upd thr i t j) ∨ Shrinking G C j (upd thr i t j) :=
  others (P := fun j t => Growing p G C j t ∨ Shrinking G C j t) h1 h2

theorem get_names {hs : List Held} {d : Nat} {x : Held} (h : hs[d]? = some x) : (names hs)[d]? = some x.m := by
  simp [names, h]

theorem not_ret {n : Nat} {hs : List Held} {c : Prog α σ} (h : Scoped n (kinds hs) c) (hn : hs ≠ []) : ¬ c.isRet := by
  cases c with
  | ret r => simp [Scoped, kinds] at h; exact absurd h hn
  | _ => exact id

theorem ne_nil_of_get {hs : List Held} {d : Nat} {x : Held} (h : hs[d]? = some x) : hs ≠ [] := by
  rintro rfl; simp at h

/-- A transaction that ends while nothing is held and nothing has been: it is executed now in the serial execution. -/
theorem sim_commit_empty {p : Plan α σ} {G : Ser α σ} {C : Nat → α} {thr : Nat → Thr α σ} {i : Nat} {t : Thr α σ}
    (s : Sim p G C thr) (sc : ∀ j, j ≠ i → Scoped p.values.length (kinds (thr j).held) (thr j).code)
    (hheld : (thr i).held = []) (ht : t.held = []) {r : σ} (hr : t.code = .ret r) {tx : Prog α σ} {ans : List Bool}
    (ha : p.body i (G.st i) = some tx) (hb : G.done i + 1 = t.begun) (hrun : runTx G.M ans [] tx = (G.M, r)) :
    Sim p (Ser.next p G (i, ans)) C (upd thr i t) := by
  have nx : Ser.next p G (i, ans) = ⟨G.M, upd G.st i r, upd G.done i (G.done i + 1)⟩ := by
    simp only [Ser.next, ha, hrun]
  refine ⟨eachOf ?_ fun j hj => ?_, fun m hm => ?_⟩
  · right
    rw [nx]
    refine ⟨by simp only [upd_eq]; exact hb, by rw [hr]; trivial, by simp only [upd_eq, hr, runTx], fun h hh => ?_⟩
    rw [ht] at hh; simp at hh
  · have e1 : (Ser.next p G (i, ans)).st j = G.st j := by rw [nx]; exact upd_ne hj
    have e2 : (Ser.next p G (i, ans)).done j = G.done j := by rw [nx]; exact upd_ne hj
    have e3 : (Ser.next p G (i, ans)).M = G.M := by rw [nx]
    rcases s.each j with hg | hg
    · exact .inl (hg.stable (fun _ _ => rfl) (fun m _ => by rw [e3]) e1 e2)
    · exact .inr (hg.stable (sc j hj) (fun _ _ => rfl) (fun m _ => by rw [e3]) e1 e2)
  · have e3 : (Ser.next p G (i, ans)).M = G.M := by rw [nx]
    rw [e3]
    refine s.free m fun j h hh hk => hm j h ?_ hk
    by_cases ej : j = i
    · subst ej; rw [hheld] at hh; simp at hh
    · rw [upd_ne ej]; exact hh

/-- The serial execution follows every command: it does nothing, or it executes the transaction of the thread at once. -/
theorem sim_eff {p : Plan α σ} {G : Ser α σ} {C C' : Nat → α} {thr : Nat → Thr α σ} {i : Nat} {t : Thr α σ} (s : Sim p G C thr)
    (e : Excl thr) (nd : ∀ j, (names (thr j).held).Nodup)
    (sc : ∀ j, Scoped p.values.length (kinds (thr j).held) (thr j).code)
    (sct : Scoped p.values.length (kinds t.held) t.code) (h : Eff C thr i C' t) :
    Sim p G C' (upd thr i t) ∨ ∃ ans, Sim p (Ser.next p G (i, ans)) C' (upd thr i t) := by
  cases h with
  | push k m c g ans hrun hph hord free =>
    left
    rcases s.each i with hg | hg
    · obtain ⟨tx, ans0, a, b, bb, _, d⟩ := hg
      refine ⟨eachOf (.inl ⟨tx, ans0 ++ ans, a, b, (hph _ bb).2, not_ret sct (by simp), fun N hN o => ?_⟩) fun j _ => s.each j,
        fun m' hm' => ?_⟩
      · rw [List.append_assoc, d N (fun x hx => hN x (List.mem_cons_of_mem _ hx)), hrun]
        have hov : overlay C N (⟨k, m, g⟩ :: (thr i).held) = overlay C N (thr i).held := by
          funext x
          by_cases hx : x = m ∧ k = .excl
          · obtain ⟨rfl, rfl⟩ := hx
            have hm : N x = C x := by
              rw [hN x (by simp [names])]
              refine (s.free x fun j h hh _ e => ?_).symm
              have := (free j h hh e).1
              cases this
            simp only [overlay, hm]; split <;> split <;> rfl
          · have : exh (⟨k, m, g⟩ :: (thr i).held) x = exh (thr i).held x := by
              simp only [exh, List.any_cons]
              have : (decide (k = Kind.excl) && decide (m = x)) = false := by
                simp only [Bool.and_eq_false_iff, decide_eq_false_iff_not]
                by_cases hk : k = .excl
                · right; intro e; exact hx ⟨e.symm, hk⟩
                · exact .inl hk
              rw [this, Bool.false_or]
            simp [overlay, this]
        simp only [names, List.map_cons, hov]
      · refine s.free m' fun j h hh hk => ?_
        by_cases ej : j = i
        · subst ej; exact hm' j h (by rw [upd_eq]; exact List.mem_cons_of_mem _ hh) hk
        · exact hm' j h (by rw [upd_ne ej]; exact hh) hk
    · have := (hph _ hg.2.1).1; cases this
  | skip c hrun hph hord =>
    have hheld : ∀ j, (upd thr i { thr i with code := c } j).held = (thr j).held :=
      others (P := fun j t => t.held = (thr j).held) rfl fun _ _ => rfl
    rcases s.each i with hg | hg
    · obtain ⟨tx, ans0, a, b, bb, _, d⟩ := hg
      by_cases hc : c.isRet
      · right
        cases c with
        | ret r =>
          have h0 : (thr i).held = [] := by simpa [Scoped, kinds] using sct
          refine ⟨ans0 ++ [false], sim_commit_empty (t := { thr i with code := .ret r }) s (fun j _ => sc j) h0 h0 rfl a b ?_⟩
          have := d G.M (fun _ _ => rfl) [false]
          rw [this, hrun, h0]
          have hov : overlay C G.M [] = G.M := by funext m; simp [overlay, exh]
          simp only [runTx, hov]
        | _ => exact absurd hc id
      · left
        refine ⟨eachOf (.inl ⟨tx, ans0 ++ [false], a, b, (hph _ bb).2, hc, fun N hN o => ?_⟩) fun j _ => s.each j,
          fun m' hm' => s.free m' fun j h hh hk => hm' j h (by rw [hheld]; exact hh) hk⟩
        rw [List.append_assoc, d N hN]
        exact hrun _ _ _
    · have := (hph _ hg.2.1).1; cases this
  | read d k x hnow hx =>
    left
    have hxm := List.mem_of_getElem? hx
    have hheld : ∀ j, (upd thr i { thr i with code := k (C x.m) } j).held = (thr j).held :=
      others (P := fun j t => t.held = (thr j).held) rfl fun _ _ => rfl
    refine ⟨eachOf ?_ fun j _ => s.each j, fun m' hm' => s.free m' fun j h hh hk => hm' j h (by rw [hheld]; exact hh) hk⟩
    rcases s.each i with hg | hg
    · left
      obtain ⟨tx, ans, a, b, bb, _, dd⟩ := hg
      rw [hnow] at bb
      refine ⟨tx, ans, a, b, bb _, not_ret sct (ne_nil_of_get hx), fun N hN o => ?_⟩
      rw [dd N hN, hnow]
      simp only [runTx, get_names hx]
      have : overlay C N (thr i).held x.m = C x.m := by
        simp only [overlay]
        split
        · rfl
        · rename_i hn
          rw [hN x.m (List.mem_map.2 ⟨x, hxm, rfl⟩)]
          exact (s.held_value e hxm hn).symm
      rw [this]
    · right
      obtain ⟨a, b, cc, dd⟩ := hg
      rw [hnow] at b cc dd
      simp only [runTx, get_names hx] at cc dd
      exact ⟨a, b _, cc, dd⟩
  | write d v c x hnow hx hk =>
    left
    have hxm := List.mem_of_getElem? hx
    have hheld : ∀ j, (upd thr i { thr i with code := c } j).held = (thr j).held :=
      others (P := fun j t => t.held = (thr j).held) rfl fun _ _ => rfl
    have hoth : ∀ j, j ≠ i → ∀ m ∈ names (thr j).held, upd C x.m v m = C m := by
      intro j hj m hm
      obtain ⟨h, hh, rfl⟩ := List.mem_map.1 hm
      exact upd_ne fun em => hj (e i j x h hxm hk hh em).symm
    refine ⟨eachOf ?_ fun j hj => ?_, fun m' hm' => ?_⟩
    · rcases s.each i with hg | hg
      · left
        obtain ⟨tx, ans, a, b, bb, _, dd⟩ := hg
        rw [hnow] at bb
        refine ⟨tx, ans, a, b, bb, not_ret sct (ne_nil_of_get hx), fun N hN o => ?_⟩
        rw [dd N hN, hnow]
        simp only [runTx, get_names hx]
        have : overlay (upd C x.m v) N (thr i).held = upd (overlay C N (thr i).held) x.m v := by
          funext y
          by_cases ey : y = x.m
          · subst ey
            rw [upd_eq]
            simp only [overlay]
            rw [if_pos (exh_iff.2 ⟨x, hxm, hk, rfl⟩), upd_eq]
          · rw [upd_ne ey]; simp only [overlay, upd_ne ey]
        rw [this]
      · right
        obtain ⟨a, b, cc, dd⟩ := hg
        rw [hnow] at b cc dd
        simp only [runTx, get_names hx] at cc dd
        exact ⟨a, b, cc, dd⟩
    · rcases s.each j with hg | hg
      · refine .inl (hg.stable (fun m hm => ?_) (fun _ _ => rfl) rfl rfl)
        obtain ⟨h, hh, _, rfl⟩ := exh_iff.1 hm
        exact hoth j hj h.m (List.mem_map.2 ⟨h, hh, rfl⟩)
      · exact .inr (hg.stable (sc j) (hoth j hj) (fun _ _ => rfl) rfl rfl)
    · rw [upd_ne fun em => hm' i x (by rw [hheld]; exact hxm) hk em.symm]
      exact s.free m' fun j h hh hk => hm' j h (by rw [hheld]; exact hh) hk
  | drop d c x hnow hx =>
    have hp := erase_perm hx
    have ndi : (names (x :: (thr i).held.eraseIdx d)).Nodup := (hp.map (fun h : Held => h.m)).nodup_iff.2 (nd i)
    simp only [names, List.map_cons, List.nodup_cons] at ndi
    have hxm : x ∈ (thr i).held := List.mem_of_getElem? hx
    have hne : (names (thr i).held).eraseIdx d = names ((thr i).held.eraseIdx d) := (map_erase _ _ _).symm
    generalize hhs : (thr i).held.eraseIdx d = hs at *
    have sci2 : Scoped p.values.length (kinds hs) c := sct
    have sub : ∀ h ∈ hs, h ∈ (thr i).held := fun h hh => hp.mem_iff.1 (List.mem_cons_of_mem _ hh)
    have notin : (Kind.excl, x.m) ∉ kinds hs := by
      intro hm
      obtain ⟨h, hh, he⟩ := List.mem_map.1 hm
      simp at he
      exact ndi.1 (List.mem_map.2 ⟨h, hh, he.2⟩)
    have keep : ∀ m', (∀ j h, h ∈ (upd thr i { thr i with code := c, held := hs } j).held → h.kind = .excl → h.m ≠ m') →
        m' ≠ x.m ∨ x.kind ≠ .excl → ∀ j h, h ∈ (thr j).held → h.kind = .excl → h.m ≠ m' := by
      intro m' hm' hor j h hh hk em
      by_cases ej : j = i
      · subst ej
        rcases List.mem_cons.1 (hp.mem_iff.2 hh) with q | hh
        · subst q
          rcases hor with a | a
          · exact a em.symm
          · exact a hk
        · exact hm' j h (by rw [upd_eq]; exact hh) hk em
      · exact hm' j h (by rw [upd_ne ej]; exact hh) hk em
    rcases s.each i with hg | hg
    · right
      obtain ⟨tx, ans, a, bd, b, _, dd⟩ := hg
      refine ⟨ans, ?_⟩
      have b' : TwoPhase true c := by rw [hnow] at b; exact b
      have key := dd G.M (fun _ _ => rfl) []
      rw [hnow] at key
      simp only [runTx, hne, List.append_nil] at key
      have agree : ∀ m ∈ names (thr i).held, overlay C G.M (thr i).held m = C m := by
        intro m hm
        obtain ⟨h, hh, rfl⟩ := List.mem_map.1 hm
        simp only [overlay]
        split
        · rfl
        · rename_i hn; exact (s.held_value e hh hn).symm
      have subn : ∀ m ∈ names hs, m ∈ names (thr i).held := by
        intro m hm
        obtain ⟨h, hh, rfl⟩ := List.mem_map.1 hm
        exact List.mem_map.2 ⟨h, sub h hh, rfl⟩
      have fr := runTx_frame (o := []) (o' := []) b' sci2 (M := overlay C G.M (thr i).held) (M' := C)
        fun m hm => agree m (subn m (by rw [names_eq]; exact hm))
      rw [← names_eq] at fr
      have nx : Ser.next p G (i, ans) = ⟨(runTx (overlay C G.M (thr i).held) [] (names hs) c).1,
          upd G.st i (runTx (overlay C G.M (thr i).held) [] (names hs) c).2, upd G.done i (G.done i + 1)⟩ := by
        simp only [Ser.next, a, key]
      have unch : ∀ m, (Kind.excl, m) ∉ kinds hs → (Ser.next p G (i, ans)).M m = overlay C G.M (thr i).held m := by
        intro m hm
        rw [nx]
        simp only
        rw [names_eq]
        exact runTx_unchanged b' sci2 hm
      have othM : ∀ j, j ≠ i → ∀ m ∈ names (thr j).held, (Ser.next p G (i, ans)).M m = G.M m := by
        intro j hj m hm
        obtain ⟨y, hy, rfl⟩ := List.mem_map.1 hm
        have hno : ∀ h ∈ (thr i).held, h.kind = .excl → h.m ≠ y.m := fun h hh hk em => hj (e i j h y hh hk hy em.symm).symm
        rw [unch y.m fun hm => by
          obtain ⟨h, hh, he⟩ := List.mem_map.1 hm
          simp at he
          exact hno h (sub h hh) he.1 he.2]
        have : exh (thr i).held y.m ≠ true := fun hm => by
          obtain ⟨h, hh, hk, em⟩ := exh_iff.1 hm
          exact hno h hh hk em
        simp only [overlay, if_neg this]
      refine ⟨eachOf ?_ fun j hj => ?_, fun m' hm' => ?_⟩
      · right
        refine ⟨by rw [nx]; simp only [upd_eq]; exact bd, b', ?_, fun h hh hk => ?_⟩
        · rw [nx]; simp only [upd_eq]; exact fr.1
        · rw [nx]
          exact fr.2 h.m (agree h.m (List.mem_map.2 ⟨h, sub h hh, rfl⟩))
      · have e1 : (Ser.next p G (i, ans)).st j = G.st j := by rw [nx]; exact upd_ne hj
        have e2 : (Ser.next p G (i, ans)).done j = G.done j := by rw [nx]; exact upd_ne hj
        rcases s.each j with hg | hg
        · exact .inl (hg.stable (fun _ _ => rfl) (othM j hj) e1 e2)
        · refine .inr (hg.stable (sc j) (fun _ _ => rfl) (fun m hm => ?_) e1 e2)
          obtain ⟨h, hh, _, rfl⟩ := exh_iff.1 hm
          exact othM j hj h.m (List.mem_map.2 ⟨h, hh, rfl⟩)
      · have hno : (Kind.excl, m') ∉ kinds hs := fun hm => by
          obtain ⟨h, hh, he⟩ := List.mem_map.1 hm
          simp at he
          exact hm' i h (by rw [upd_eq]; exact hh) he.1 he.2
        rw [unch m' hno]
        simp only [overlay]
        split
        · rfl
        · rename_i hn
          refine s.free m' (keep m' hm' ?_)
          by_cases hk : x.kind = .excl
          · left; intro em; exact hn (exh_iff.2 ⟨x, hxm, hk, em.symm⟩)
          · exact .inr hk
    · left
      obtain ⟨a, b, cc, dd⟩ := hg
      rw [hnow] at b cc dd
      simp only [runTx, hne] at cc dd
      have b' : TwoPhase true c := b
      refine ⟨eachOf (.inr ⟨a, b', cc, fun h hh hk => dd h (sub h hh) hk⟩) fun j _ => s.each j,
        fun m' hm' => ?_⟩
      by_cases q : m' = x.m ∧ x.kind = .excl
      · obtain ⟨rfl, hk⟩ := q
        rw [dd x hxm hk, names_eq]
        exact (runTx_unchanged b' sci2 notin).symm
      · refine s.free m' (keep m' hm' ?_)
        by_cases hk : x.kind = .excl
        · left; intro em; exact q ⟨em, hk⟩
        · exact .inr hk

/-- A thread begins its next transaction. -/
theorem sim_begin {p : Plan α σ} {G : Ser α σ} {C : Nat → α} {thr : Nat → Thr α σ} {i : Nat} {r : σ} {tx : Prog α σ}
    (s : Sim p G C thr) (sc : ∀ j, Scoped p.values.length (kinds (thr j).held) (thr j).code)
    (hnow : (thr i).code = .ret r) (hb : p.body i r = some tx) (h2 : TwoPhase false tx) :
    Sim p G C (upd thr i { thr i with code := tx, begun := (thr i).begun + 1 }) ∨
      ∃ ans, Sim p (Ser.next p G (i, ans)) C (upd thr i { thr i with code := tx, begun := (thr i).begun + 1 }) := by
  have hh : (thr i).held = [] := by
    have := sc i
    rw [hnow] at this
    simpa [Scoped, kinds] using this
  have hheld : ∀ j, (upd thr i { thr i with code := tx, begun := (thr i).begun + 1 } j).held = (thr j).held :=
    others (P := fun j t => t.held = (thr j).held) rfl fun _ _ => rfl
  rcases s.each i with hg | hg
  · obtain ⟨_, _, _, _, _, h, _⟩ := hg
    rw [hnow] at h
    exact absurd trivial h
  · obtain ⟨a, b, cc, dd⟩ := hg
    rw [hnow] at cc
    simp only [runTx] at cc
    by_cases ht : tx.isRet
    · right
      cases tx with
      | ret r' =>
        exact ⟨[], sim_commit_empty (t := { thr i with code := .ret r', begun := (thr i).begun + 1 }) s (fun j _ => sc j) hh hh
          rfl (by rw [cc]; exact hb) (by simp only; omega) (by simp [runTx])⟩
      | _ => exact absurd ht id
    · left
      refine ⟨eachOf (.inl ⟨tx, [], cc ▸ hb, by simp only; omega, h2, ht, fun N hN o => ?_⟩)
        fun j _ => s.each j, fun m hm => s.free m fun j h hh hk => hm j h (by rw [hheld]; exact hh) hk⟩
      have : overlay C N [] = N := by funext m; simp [overlay, exh]
      simp only [hh, names, List.map_nil, this, List.nil_append]

/-! ### All executions -/

theorem base_start {p : Plan α σ} {M0 : Nat → α} (hM : ∀ m, m < p.values.length → p.values[m]? = some (M0 m)) :
    Base p M0 (start p) where
  reach := ⟨[], rfl⟩
  vals m hm := by simp [start, valueOf, Guards.init, hM m hm]
  own i h hh := by simp [start] at hh
  all g k m h := by obtain ⟨x, hx, _⟩ := h; simp [start, Guards.init] at hx
  uniq i j h h' hh := by simp [start] at hh
  nodup i := by simp [start, names]
  scope i := by simp [start, kinds, Scoped]
  bound i h hh := by simp [start] at hh

theorem sim_start {p : Plan α σ} {M0 : Nat → α} : Sim p ⟨M0, p.init, fun _ => 0⟩ M0 (start p).thr where
  each i := .inr ⟨rfl, trivial, rfl, fun h hh => by simp [start] at hh⟩
  free m _ := rfl

/-- A thread that begins a transaction. -/
theorem Base.begin {p : Plan α σ} {C} {s : Sys α σ} (b : Base p C s) {i : Nat} {r : σ} {tx : Prog α σ} {q : Nat}
    (hnow : (s.thr i).code = .ret r) (hs : Scoped p.values.length [] tx) :
    Base p C { s with thr := upd s.thr i { s.thr i with code := tx, begun := q } } := by
  have h0 : (s.thr i).held = [] := by
    have := b.scope i
    rw [hnow] at this
    simpa [Scoped, kinds] using this
  have hheld : ∀ j, (upd s.thr i { s.thr i with code := tx, begun := q } j).held = (s.thr j).held :=
    others (P := fun j t => t.held = (s.thr j).held) rfl fun _ _ => rfl
  refine ⟨b.reach, b.vals, fun j h a => b.own j h (hheld j ▸ a), fun g k m ho => ?_,
    fun j j' h h' a a' e => b.uniq _ _ _ _ (hheld j ▸ a) (hheld j' ▸ a') e, fun j => ?_, ?_,
    fun j h a => b.bound j h (hheld j ▸ a)⟩
  · obtain ⟨j, hj⟩ := b.all g k m ho
    exact ⟨j, (hheld j).symm ▸ hj⟩
  · show (names (upd s.thr i _ j).held).Nodup
    rw [hheld]; exact b.nodup j
  · refine others (P := fun j t => Scoped p.values.length (kinds t.held) t.code) ?_ fun j _ => b.scope j
    show Scoped _ (kinds (s.thr i).held) tx
    rw [h0]
    exact hs

theorem step_begin {p : Plan α σ} {s s' : Sys α σ} {i : Nat} (h : step p s (.begin i) = some s') :
    i < p.threads ∧ ∃ r c, (s.thr i).code = .ret r ∧ p.body i r = some c ∧
      s' = { s with thr := upd s.thr i { s.thr i with code := c, begun := (s.thr i).begun + 1 } } := by
  simp only [step] at h
  split at h
  · rename_i hi
    split at h
    · rename_i r hr
      simp only [Option.map_eq_some_iff] at h
      obtain ⟨c, hc, rfl⟩ := h
      exact ⟨hi, r, c, hr, hc, rfl⟩
    · cases h
  · cases h

theorem step_run {p : Plan α σ} {s s' : Sys α σ} {i : Nat} {sp : Bool} (h : step p s (.run i sp) = some s') :
    i < p.threads ∧ exec1 s i sp = some s' := by
  simp only [step] at h
  split at h
  · exact ⟨by assumption, h⟩
  · cases h

/-- Steps keep `Base`. -/
theorem base_step {p : Plan α σ} (hs : ∀ i r c, p.body i r = some c → Scoped p.values.length [] c) {C} {s s' : Sys α σ}
    {a : Act} (b : Base p C s) (h : step p s a = some s') : ∃ C', Base p C' s' := by
  cases a with
  | begin i =>
    obtain ⟨_, r, c, hr, hc, rfl⟩ := step_begin h
    exact ⟨C, b.begin hr (hs i r c hc)⟩
  | run i sp =>
    obtain ⟨C', t, _, _, hb⟩ := exec1_eff b (step_run h).2
    exact ⟨C', hb⟩

theorem serial_snoc (p : Plan α σ) (G : Ser α σ) (order : List (Nat × List Bool)) (e : Nat × List Bool) :
    serial p G (order ++ [e]) = (serial p G order).next p e := by
  simp [serial]

/-- Steps extend the serial execution. -/
theorem sim_step {p : Plan α σ} (hs : ∀ i r c, p.body i r = some c → Scoped p.values.length [] c)
    (h2 : ∀ i r c, p.body i r = some c → TwoPhase false c) {G0 : Ser α σ} {order : List (Nat × List Bool)} {C}
    {s s' : Sys α σ} {a : Act} (b : Base p C s) (sm : Sim p (serial p G0 order) C s.thr) (h : step p s a = some s') :
    ∃ C' more, Base p C' s' ∧ Sim p (serial p G0 (order ++ more)) C' s'.thr := by
  cases a with
  | begin i =>
    obtain ⟨_, r, c, hr, hc, rfl⟩ := step_begin h
    have hb := b.begin (q := (s.thr i).begun + 1) hr (hs i r c hc)
    rcases sim_begin sm b.scope hr hc (h2 i r c hc) with q | ⟨ans, q⟩
    · exact ⟨C, [], hb, by simpa using q⟩
    · exact ⟨C, [(i, ans)], hb, by rw [serial_snoc]; exact q⟩
  | run i sp =>
    obtain ⟨C', t, he, ht, hb⟩ := exec1_eff b (step_run h).2
    have sct : Scoped p.values.length (kinds t.held) t.code := by
      have := hb.scope i
      rw [ht, upd_eq] at this
      exact this
    rcases sim_eff sm b.excl b.nodup b.scope sct he with q | ⟨ans, q⟩
    · exact ⟨C', [], hb, by simpa [ht] using q⟩
    · exact ⟨C', [(i, ans)], hb, by rw [serial_snoc]; exact ht ▸ q⟩

theorem exec_induct {p : Plan α σ} {P : Sys α σ → Prop} (hs : ∀ s s' a, P s → step p s a = some s' → P s') :
    ∀ (acts : List Act) (s s' : Sys α σ), P s → exec p s acts = some s' → P s'
  | [], s, s', h, he => by simp [exec] at he; subst he; exact h
  | a :: as, s, s', h, he => by
    simp only [exec] at he
    cases hx : step p s a with
    | none => simp [hx] at he
    | some s1 =>
      simp only [hx, Option.bind_some] at he
      exact exec_induct hs as s1 s' (hs s s1 a h hx) he

end Verif.Atomic
