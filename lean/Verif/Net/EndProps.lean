import Verif.Net.Props

/-!
If one execution of a network comes to an end, then all do (C122): there is a bound for the number of actions of all
executions, apart from spurious wakeups.
-/
namespace Verif.Net

open Verif.Channel
open Verif.Pipeline (upd cls Cls Moved moved_next next_ne_idle_cls reach_next)

variable {α : Type}

/-- `f 0 + ... + f (n - 1)`. -/
def total (f : Nat → Nat) : Nat → Nat
  | 0 => 0
  | n + 1 => total f n + f n

theorem total_congr {f g : Nat → Nat} : ∀ n, (∀ i, i < n → f i = g i) → total f n = total g n
  | 0, _ => rfl
  | n + 1, h => by
    simp only [total]
    rw [total_congr n (fun i hi => h i (by omega)), h n (by omega)]

theorem total_upd {f : Nat → Nat} {i x : Nat} : ∀ n, i < n → total (upd f i x) n + f i = total f n + x
  | 0, h => by omega
  | n + 1, h => by
    simp only [total]
    by_cases e : i = n
    · subst e
      rw [upd_self, total_congr (g := f) i (fun j hj => upd_other _ _ (Nat.ne_of_lt hj))]
      omega
    · rw [upd_other _ _ (fun e' => e e'.symm)]
      have hlt : i < n := by omega
      have := total_upd (f := f) (x := x) n hlt
      omega

/-- Not a spurious wakeup (channel.hpp:92,181). -/
def NAct.proper : NAct → Bool
  | .spurious _ => false
  | _ => true

/-- What thread `i` has left in its call (measure for channel.hpp:58-194). -/
def left (s : Sys α) : Option (Nat × Nat × Op α) → Nat
  | none => 15
  | some (k, t, _) => match (s.chan k).pcs[t]? with
    | some pc => rank 2 pc
    | none => 0

/-- What thread `i` has left if it makes at most `F i` calls (measure for channel.hpp:58-194). -/
def load (p : Plan α) (F : Nat → Nat) (s : Sys α) (i : Nat) : Nat := (F i + 1 - (s.thr i).res.length) * 15 + left s (s.here p i)

theorem len2 {p : Plan α} {s : Sys α} (h : Inv p s) (k : Nat) : (s.chan k).pcs.length = 2 := by
  obtain ⟨acts, hr⟩ := h.reach k
  simpa [init] using run_length hr

theorem load_begin {p : Plan α} {F : Nat → Nat} {n : Nat} (hn : ∀ i, n ≤ i → ∀ rs, p.prog i rs = .stop) {s s' : Sys α} {i : Nat}
    (ho : p.Owned) (hs : s.begin p i = some s') : total (load p F s') n + 1 ≤ total (load p F s) n := by
  unfold Sys.begin at hs
  split at hs <;> [skip; simp at hs]
  rename_i k t op hins hcall
  rw [Option.map_eq_some_iff] at hs
  obtain ⟨c, hnx, rfl⟩ := hs
  have hin : i < n := by
    by_contra h
    rw [hn i (by omega)] at hcall; simp [Plan.callOf] at hcall
  simp only [next] at hnx
  split at hnx <;> [skip; simp at hnx]
  rename_i hidle
  injection hnx with hnx
  have hlt := lt_of_getElem? hidle
  have hpcs : c.pcs = (s.chan k).pcs.set t (entry op) := by rw [← hnx]; rfl
  generalize hs' : (⟨upd s.chan k c, upd s.thr i ⟨(s.thr i).res, true⟩⟩ : Sys α) = s'
  have hthr : ∀ j, j ≠ i → s'.thr j = s.thr j := by intro j e; rw [← hs']; exact upd_other _ _ e
  have hchan : s'.chan = upd s.chan k c := by rw [← hs']
  have hti : s'.thr i = ⟨(s.thr i).res, true⟩ := by rw [← hs']; exact upd_self ..
  have hhere : s'.here p i = some (k, t, op) := by unfold Sys.here; rw [hti]; simpa using hcall
  have hold : s.here p i = none := by simp [Sys.here, hins]
  have hi : load p F s' i + 1 ≤ load p F s i := by
    have hr : rank 2 (entry op) ≤ 14 := by
      rcases (callOf_some hcall).2 with ⟨rfl, -⟩ | ⟨x, rfl, -⟩ | ⟨rfl, -⟩ <;> simp [entry, rank]
    unfold load
    rw [hhere, hold, hti]
    simp only [left, hchan, upd_self, hpcs, List.getElem?_set, hlt]
    simp; omega
  have hoth : ∀ j, j ≠ i → load p F s' j = load p F s j := by
    intro j hj
    unfold load
    rw [here_other (hthr j hj), hthr j hj]
    congr 1
    cases hh : s.here p j with
    | none => rfl
    | some v =>
      obtain ⟨k', t', op'⟩ := v
      simp only [left, hchan]
      by_cases e : k' = k
      · subst e
        rw [upd_self, hpcs, List.getElem?_set_ne]
        rintro rfl
        have h2 : s'.here p j = some (k', t, op') := by rw [here_other (hthr j hj)]; exact hh
        exact hj (sides ho h2 hhere)
      · rw [upd_other _ _ e]
  have := total_upd (f := load p F s) (x := load p F s' i) n hin
  have he : total (upd (load p F s) i (load p F s' i)) n = total (load p F s') n := by
    apply total_congr
    intro j _
    by_cases e : j = i
    · subst e; rw [upd_self]
    · rw [upd_other _ _ e, hoth j e]
  omega

theorem load_run {p : Plan α} {F : Nat → Nat} {n : Nat} (hn : ∀ i, n ≤ i → ∀ rs, p.prog i rs = .stop) {s s' : Sys α} {i : Nat}
    {a : Nat → Act α} (ho : p.Owned) (h : Inv p s) (hF : ∀ i, (s'.thr i).res.length ≤ F i)
    (ha : ∀ t, (∃ w, a t = .step t w) ∨ a t = .stale t) (hs : s.run p i a = some s') :
    total (load p F s') n + 1 ≤ total (load p F s) n := by
  have hinv' : Inv p s' := inv_run ho h (fun t => (ha t).imp id .inr) hs
  unfold Sys.run at hs
  split at hs <;> [skip; simp at hs]
  rename_i k t op hins hcall
  rw [Option.map_eq_some_iff] at hs
  obtain ⟨c, hnx, hs⟩ := hs
  have hin : i < n := by
    by_contra h
    rw [hn i (by omega)] at hcall; simp [Plan.callOf] at hcall
  obtain ⟨pc, hpc, hmv⟩ := moved_next (lockBody_reach (h.reach k)).2 ((ha t).imp id .inr) hnx
  have hold : s.here p i = some (k, t, op) := by unfold Sys.here; rw [hins]; simpa using hcall
  have ht2 : t < 2 := by rw [(callOf_some hcall).1]; exact side_lt ..
  rw [hpc] at hs
  have hchan : s'.chan = upd s.chan k c := by rw [← hs]; split <;> rfl
  have hck : s'.chan k = c := by rw [hchan, upd_self]
  have hthr : ∀ j, j ≠ i → s'.thr j = s.thr j := by
    intro j e; rw [← hs]; split
    · exact upd_other _ _ e
    · rfl
  have hl := len2 h k
  have hl' : c.pcs.length = 2 := by rw [← hck]; exact len2 hinv' k
  -- the ranks of both sides
  have hb := run_bounded (acts := [a t]) (by
    intro b hb; simp at hb; subst hb
    rcases ha t with ⟨w, e⟩ | e <;> rw [e] <;> rfl) (cfg := p.cfg k) (s := s.chan k) (s' := c) (by simp [run, hnx])
  rw [hl] at hb
  obtain ⟨po, hpo⟩ : ∃ po, (s.chan k).pcs[1 - t]? = some po := ⟨_, List.getElem?_eq_getElem (by omega)⟩
  obtain ⟨po', hpo'⟩ : ∃ po', c.pcs[1 - t]? = some po' := ⟨_, List.getElem?_eq_getElem (by omega)⟩
  obtain ⟨pc', hpc'⟩ : ∃ pc', c.pcs[t]? = some pc' := ⟨_, List.getElem?_eq_getElem (by omega)⟩
  have hranks : rank 2 pc' + rank 2 po' + 1 ≤ rank 2 pc + rank 2 po := by
    obtain ⟨x, y, e⟩ := Verif.Pipeline.two hl
    obtain ⟨x', y', e'⟩ := Verif.Pipeline.two hl'
    rw [e] at hpc hpo hb; rw [e'] at hpc' hpo' hb
    simp [work] at hb
    have : t = 0 ∨ t = 1 := by omega
    rcases this with rfl | rfl <;> simp at hpc hpo hpc' hpo' <;> subst hpc hpo hpc' hpo' <;> omega
  have hi : load p F s' i + rank 2 pc ≤ load p F s i + rank 2 pc' := by
    unfold load
    rw [hold]
    simp only [left, hpc]
    by_cases hd : ∃ op' r, pc = .done op' r
    · obtain ⟨op', r, rfl⟩ := hd
      simp only at hs
      have hti : s'.thr i = ⟨(s.thr i).res ++ [r], false⟩ := by rw [← hs]; exact upd_self ..
      have hhere : s'.here p i = none := by unfold Sys.here; rw [hti]; simp
      have hle := hF i
      rw [hti] at hle
      rw [hhere, hti]
      simp [left, rank] at hle ⊢
      omega
    · have hs' : s' = { s with chan := upd s.chan k c } := by
        rw [← hs]; split
        · rename_i op' r e; injection e with e; exact absurd ⟨op', r, e⟩ hd
        · rfl
      have hti : s'.thr i = s.thr i := by rw [hs']
      rw [here_other hti, hold, hti]
      simp only [hck, hpc']
      omega
  -- the other threads
  have hfar : ∀ j, j ≠ i → (∀ op', s.here p j ≠ some (k, 1 - t, op')) → load p F s' j = load p F s j := by
    intro j hj hno
    unfold load
    rw [here_other (hthr j hj), hthr j hj]
    congr 1
    cases hh : s.here p j with
    | none => rfl
    | some v =>
      obtain ⟨k', t', op'⟩ := v
      simp only [left, hchan]
      by_cases e : k' = k
      · subst e
        exfalso
        have ht' : t' < 2 := by
          have hh' := hh
          unfold Sys.here at hh'
          split at hh' <;> [skip; simp at hh']
          rw [(callOf_some hh').1]; exact side_lt ..
        by_cases e : t' = t
        · subst e; exact hj (sides ho hh hold)
        · have : t' = 1 - t := by omega
          subst this
          exact hno op' hh
      · rw [upd_other _ _ e]
  by_cases hex : ∃ j op', s.here p j = some (k, 1 - t, op')
  · obtain ⟨j, op', hj⟩ := hex
    have hji : j ≠ i := by
      rintro rfl
      rw [hold] at hj; simp at hj; omega
    have hjn : j < n := by
      by_contra h'
      unfold Sys.here at hj
      split at hj <;> [skip; simp at hj]
      rw [hn j (by omega)] at hj; simp [Plan.callOf] at hj
    have hload : load p F s' j + rank 2 po = load p F s j + rank 2 po' := by
      unfold load
      rw [here_other (hthr j hji), hthr j hji, hj]
      simp only [left, hpo, hck, hpo']
      omega
    have e1 := total_upd (f := load p F s) (x := load p F s' i) n hin
    have e2 := total_upd (f := upd (load p F s) i (load p F s' i)) (x := load p F s' j) n hjn
    rw [upd_other _ _ hji] at e2
    have he : total (upd (upd (load p F s) i (load p F s' i)) j (load p F s' j)) n = total (load p F s') n := by
      apply total_congr
      intro m _
      by_cases em : m = j
      · subst em; rw [upd_self]
      · rw [upd_other _ _ em]
        by_cases em' : m = i
        · subst em'; rw [upd_self]
        · rw [upd_other _ _ em']
          refine (hfar m em' fun op2 h2 => em (sides ho h2 hj)).symm
    omega
  · have h1 : (s.chan k).pcs[1 - t]? = some .idle := h.idle k (1 - t) (by omega) (fun j op' e => hex ⟨j, op', e⟩)
    have h2 : c.pcs[1 - t]? = some .idle := by
      obtain ⟨q', hq', e'⟩ := pc_of_map (hmv.others (1 - t) (by omega)) h1
      rw [hq', next_ne_idle_cls (e'.trans rfl)]
    rw [hpo] at h1; injection h1 with h1; subst h1
    rw [hpo'] at h2; injection h2 with h2; subst h2
    have hz : rank 2 (PC.idle : PC α) = 0 := rfl
    rw [hz] at hranks
    have e1 := total_upd (f := load p F s) (x := load p F s' i) n hin
    have he : total (upd (load p F s) i (load p F s' i)) n = total (load p F s') n := by
      apply total_congr
      intro m _
      by_cases em' : m = i
      · subst em'; rw [upd_self]
      · rw [upd_other _ _ em']
        exact (hfar m em' fun op2 h2 => hex ⟨m, op2, h2⟩).symm
    omega

theorem reach_step {p : Plan α} {s s' : Sys α} {a : NAct} (h : Reach p s) (hs : step p s a = some s') : Reach p s' := by
  obtain ⟨acts, h⟩ := h
  refine ⟨acts ++ [a], ?_⟩
  have : ∀ (l : List NAct) (s0 : Sys α), exec p s0 l = some s → exec p s0 (l ++ [a]) = some s' := by
    intro l
    induction l with
    | nil => intro s0 h0; simp [exec] at h0; subst h0; simp [exec, hs]
    | cons b l ih =>
      intro s0 h0
      simp only [exec, Option.bind_eq_some_iff] at h0
      obtain ⟨s1, h1, h2⟩ := h0
      simp [exec, h1, ih s1 h2]
  exact this acts _ h

theorem load_step {p : Plan α} {F : Nat → Nat} {n : Nat} (hn : ∀ i, n ≤ i → ∀ rs, p.prog i rs = .stop) {s s' : Sys α} {a : NAct}
    (ho : p.Owned) (h : Inv p s) (hF : ∀ i, (s'.thr i).res.length ≤ F i) (ha : a.proper = true) (hs : step p s a = some s') :
    total (load p F s') n + 1 ≤ total (load p F s) n := by
  cases a with
  | begin i => exact load_begin hn ho hs
  | run i w => exact load_run hn ho h hF (fun t => .inl ⟨w, rfl⟩) hs
  | spurious i => simp [NAct.proper] at ha
  | stale i => exact load_run hn ho h hF (fun t => .inr rfl) hs

theorem exec_bound {p : Plan α} {F : Nat → Nat} {n : Nat} (hn : ∀ i, n ≤ i → ∀ rs, p.prog i rs = .stop) (ho : p.Owned)
    (hF : ∀ s i, Reach p s → (s.thr i).res.length ≤ F i) : ∀ (acts : List NAct) (s s' : Sys α), Reach p s →
      (∀ a ∈ acts, a.proper = true) → exec p s acts = some s' → acts.length + total (load p F s') n ≤ total (load p F s) n
  | [], s, s', _, _, h => by simp [exec] at h; subst h; simp
  | a :: l, s, s', hr, hp, h => by
    simp only [exec, Option.bind_eq_some_iff] at h
    obtain ⟨s1, h1, h2⟩ := h
    have hr1 := reach_step hr h1
    have d := load_step (F := F) hn ho (inv_reach ho hr) (fun i => hF s1 i hr1) (hp a (by simp)) h1
    have := exec_bound hn ho hF l s1 s' hr1 (fun b hb => hp b (by simp [hb])) h2
    simp only [List.length_cons]
    omega

/-- **C122** If one execution of a network of `n` threads cannot go on, then the number of actions of every execution, apart from
spurious wakeups, is bounded by the number of calls in that one. -/
theorem network_bounded {p : Plan α} (ho : p.Owned) {n : Nat} (hn : ∀ i, n ≤ i → ∀ rs, p.prog i rs = .stop) {s s' : Sys α}
    (h : Reach p s) (hs : Stuck p s) {acts : List NAct} (ha : ∀ a ∈ acts, a.proper = true)
    (h' : exec p (start α) acts = some s') : acts.length ≤ 15 * total (fun i => (s.thr i).res.length + 2) n := by
  have hF : ∀ s1 i, Reach p s1 → (s1.thr i).res.length ≤ (fun i => (s.thr i).res.length) i :=
    fun s1 i h1 => (network_stuck_maximal ho h hs h1 i).length_le
  have hb := exec_bound hn ho hF acts _ _ ⟨[], rfl⟩ ha h'
  have : ∀ n, total (load p (fun i => (s.thr i).res.length) (start α)) n = 15 * total (fun i => (s.thr i).res.length + 2) n := by
    intro n
    induction n with
    | zero => rfl
    | succ n ih =>
      simp only [total, ih]
      simp [load, start, Sys.here, left]
      omega
  rw [this] at hb
  omega

/-- If the threads make a bounded number of calls, every execution can be continued to one that cannot go on. -/
theorem continue_to_stuck {p : Plan α} {F : Nat → Nat} {n : Nat} (hn : ∀ i, n ≤ i → ∀ rs, p.prog i rs = .stop) (ho : p.Owned)
    (hF : ∀ s i, Reach p s → (s.thr i).res.length ≤ F i) {s' : Sys α} (h' : Reach p s') :
    ∃ acts s'', (∀ a ∈ acts, a.proper = true) ∧ exec p s' acts = some s'' ∧ Reach p s'' ∧ Stuck p s'' := by
  generalize hm : total (load p F s') n = m
  induction m using Nat.strongRecOn generalizing s' with
  | _ m ih =>
    by_cases hst : Stuck p s'
    · exact ⟨[], s', by simp, rfl, h', hst⟩
    · have : ∃ a s1, a.proper = true ∧ step p s' a = some s1 := by
        unfold Stuck at hst
        simp only [not_forall, not_and_or] at hst
        obtain ⟨i, w, hx⟩ := hst
        rcases hx with hx | hx
        · obtain ⟨s1, h1⟩ := Option.ne_none_iff_exists'.1 hx
          exact ⟨.begin i, s1, rfl, h1⟩
        · obtain ⟨s1, h1⟩ := Option.ne_none_iff_exists'.1 hx
          exact ⟨.run i w, s1, rfl, h1⟩
      obtain ⟨a, s1, ha, h1⟩ := this
      have hr1 := reach_step h' h1
      have d := load_step hn ho (inv_reach ho h') (fun i => hF s1 i hr1) ha h1
      obtain ⟨acts, s2, p1, p2, p3, p4⟩ := ih _ (by omega) hr1 rfl
      exact ⟨a :: acts, s2, by simpa [ha] using p1, by simp [exec, h1, p2], p3, p4⟩

/-- **C122** If one execution of a network of `n` threads cannot go on, then every execution can be continued to one that cannot,
without spurious wakeups, and has the same results there. -/
theorem network_ends {p : Plan α} (ho : p.Owned) {n : Nat} (hn : ∀ i, n ≤ i → ∀ rs, p.prog i rs = .stop) {s s' : Sys α}
    (h : Reach p s) (hs : Stuck p s) (h' : Reach p s') :
    ∃ acts s'', (∀ a ∈ acts, a.proper = true) ∧ exec p s' acts = some s'' ∧ Stuck p s'' ∧ ∀ i, (s''.thr i).res = (s.thr i).res := by
  have hF : ∀ s1 i, Reach p s1 → (s1.thr i).res.length ≤ (fun i => (s.thr i).res.length) i :=
    fun s1 i h1 => (network_stuck_maximal ho h hs h1 i).length_le
  obtain ⟨acts, s2, p1, p2, p3, p4⟩ := continue_to_stuck hn ho hF h'
  exact ⟨acts, s2, p1, p2, p4, fun i => (network_outcome ho h hs p3 p4 i).symm⟩

/-- Every execution of `cycle` has at most 225 actions and ends with 6 and 12. -/
example : (∀ acts s, (∀ a ∈ acts, a.proper = true) → exec cycle (start Nat) acts = some s → acts.length ≤ 225) ∧
    ∀ s, Reach cycle s → ∃ acts s', exec cycle s acts = some s' ∧
      (s'.thr 0).res = [.bool true, .val (some 6), .bool true, .val (some 12), .unit] := by
  have h := cycle_run
  simp only [Option.map_eq_some_iff] at h
  obtain ⟨s, h1, h2⟩ := h
  simp only [Prod.mk.injEq] at h2
  have hst := cycle_stuck h2.1 h2.2
  have hn : ∀ i, 2 ≤ i → ∀ rs, cycle.prog i rs = .stop := by
    intro i hi rs
    match i, hi with
    | n + 2, _ => rfl
  constructor
  · intro acts s' ha he
    have := network_bounded cycle_owned hn ⟨_, h1⟩ hst ha he
    simp [total, h2.1, h2.2] at this
    omega
  · intro s' h'
    obtain ⟨acts, s2, -, p2, -, p4⟩ := network_ends cycle_owned hn ⟨_, h1⟩ hst h'
    exact ⟨acts, s2, p2, by rw [p4, h2.1]⟩

end Verif.Net
