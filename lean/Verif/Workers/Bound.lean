import Verif.Workers.Props

/-! C107, continued: every execution of layers of workers comes to an end. -/
namespace Verif.Workers

open Verif.Channel
open Verif.Pipeline (upd upd_eq upd_ne sumTo sumTo_congr sumTo_le sumTo_zero)

variable {α : Type}

/-- The calls that the workers of layer `i` together make at most: one per element they pop, one per element they push,
and two each for the end of the loop and the end of the worker (calls of channel.hpp:58,85,179). -/
def layerBound (p : Plan α) (i : Nat) : Nat :=
  (if i = 0 then 0 else (stream p (i - 1)).length) + (if i ≤ p.inner then (stream p i).length else 0) + 2 * p.width i

/-- Calls made by all workers (of channel.hpp:58,85,179). -/
def allCalls (p : Plan α) (s : Sys α) : Nat :=
  sumTo (p.inner + 2) (fun i => sumTo (p.width i) (fun j => (s.worker i j).calls))

/-- Work left in all calls (of channel.hpp:58,85,179). -/
def allWork (p : Plan α) (s : Sys α) : Nat := sumTo (p.inner + 1) (fun k => work (p.users k) (s.chan k).pcs)

theorem sumTo_add {n : Nat} {f g : Nat → Nat} : sumTo n (fun j => f j + g j) = sumTo n f + sumTo n g := by
  induction n with
  | zero => rfl
  | succ n ih => simp only [sumTo, ih]; omega

theorem calls_bound {p : Plan α} {s : Sys α} (h : Inv p s) {i : Nat} (hi : i ≤ p.inner + 1) :
    sumTo (p.width i) (fun j => (s.worker i j).calls) ≤ layerBound p i := by
  have h1 : sumTo (p.width i) (fun j => (s.worker i j).calls) ≤ sumTo (p.width i) (fun j =>
      ((s.worker i j).got.length + (if i ≤ p.inner then (made p i j (s.worker i j)).length else 0)) + 2) := by
    refine sumTo_le (fun j hj => ?_)
    have := (h.workers i j ⟨hi, hj⟩).calls
    have hf : flag (s.worker i j).pos ≤ 2 := by cases (s.worker i j).pos <;> simp [flag]
    omega
  rw [sumTo_add, sumTo_add, sumTo_const] at h1
  have h2 : sumTo (p.width i) (fun j => (s.worker i j).got.length) ≤ if i = 0 then 0 else (stream p (i - 1)).length := by
    by_cases h0 : i = 0
    · subst h0
      rw [if_pos rfl, sumTo_congr (g := fun _ => 0) (fun j hj => by rw [((h.workers 0 j ⟨hi, hj⟩).first rfl).1]; rfl),
        sumTo_const]
      simp
    · rw [if_neg h0]
      obtain ⟨k, rfl⟩ : ∃ k, i = k + 1 := ⟨i - 1, by omega⟩
      have := seen_le h k (by omega) (fun _ => 1)
      rw [seen, gsum_concat] at this
      simp only [gsum_one] at this
      exact this
  have h3 : sumTo (p.width i) (fun j => if i ≤ p.inner then (made p i j (s.worker i j)).length else 0) ≤
      if i ≤ p.inner then (stream p i).length else 0 := by
    by_cases hle : i ≤ p.inner
    · simp only [hle, if_true]
      have := made_sum (p := p) (s := s) (k := i) (fun _ => 1)
      simp only [gsum_one] at this
      rw [this]
      by_cases h0 : i = 0
      · subst h0; rw [if_pos rfl]; exact Nat.le_refl _
      · rw [if_neg h0]
        obtain ⟨k, rfl⟩ : ∃ k, i = k + 1 := ⟨i - 1, by omega⟩
        have := seen_le h k (by omega) (fun x => (p.body (k + 1) x).length)
        have h4 : gsum (fun x => (p.body (k + 1) x).length) (stream p k) = (stream p (k + 1)).length := by
          rw [stream, ← gsum_one (l := List.flatMap _ _), gsum_flatMap]
          simp only [gsum_one]
        omega
    · simp only [hle, if_false, sumTo_const]; omega
  simp only [layerBound]
  omega

theorem allCalls_le {p : Plan α} {s : Sys α} (h : Inv p s) : allCalls p s ≤ sumTo (p.inner + 2) (layerBound p) :=
  sumTo_le (fun _ hj => calls_bound h (by omega))

theorem work_call {cfg : Cfg} {n : Nat} {c c' : St α} {t : Nat} {op : Op α} (h : next cfg c (.call t op) = some c') :
    work n c'.pcs ≤ work n c.pcs + (4 * n + 10) := by
  simp only [next] at h
  split at h
  · rename_i hp
    injection h with h; subst h
    have := work_set (n := n) (pc' := entry op) hp
    have h2 : rank n (entry op : PC α) ≤ 4 * n + 10 := by cases op <;> simp [entry, rank]
    have h0 : rank n (.idle : PC α) = 0 := rfl
    simp only [St.goto, St.log]; omega
  · simp at h

theorem allCalls_set {p : Plan α} {s s' : Sys α} {i j : Nat} {w : Worker α} (hij : p.has i j)
    (hw : s'.worker = upd s.worker i (upd (s.worker i) j w)) :
    allCalls p s' + (s.worker i j).calls = allCalls p s + w.calls := by
  have a := sumTo_change (n := p.inner + 2) (i := i) (F := fun i => sumTo (p.width i) (fun j => (s.worker i j).calls))
    (F' := fun i => sumTo (p.width i) (fun j => (s'.worker i j).calls)) (by have := hij.1; omega)
    (fun x _ hx => by rw [hw, upd_ne hx])
  have b := sumTo_change (n := p.width i) (i := j) (F := fun j => (s.worker i j).calls)
    (F' := fun j => (s'.worker i j).calls) hij.2 (fun x _ hx => by rw [hw, upd_eq, upd_ne hx])
  have d : (s'.worker i j).calls = w.calls := by rw [hw, upd_eq, upd_eq]
  simp only [allCalls]
  omega

theorem allWork_set {p : Plan α} {s s' : Sys α} {k : Nat} {c : St α} (hk : k ≤ p.inner)
    (hc : s'.chan = upd s.chan k c) :
    allWork p s' + work (p.users k) (s.chan k).pcs = allWork p s + work (p.users k) c.pcs := by
  have a := sumTo_change (n := p.inner + 1) (i := k) (F := fun k => work (p.users k) (s.chan k).pcs)
    (F' := fun k => work (p.users k) (s'.chan k).pcs) (by omega) (fun x _ hx => by rw [hc, upd_ne hx])
  have d : s'.chan k = c := by rw [hc, upd_eq]
  simp only [allWork]
  rw [d] at a
  omega

theorem call_count {p : Plan α} {s s' : Sys α} {M i j k t : Nat} {op : Op α} {pos : Pos} (hM : ∀ k, k ≤ p.inner → p.users k ≤ M)
    (hij : p.has i j) (hk : k ≤ p.inner) (h : s.call p i j k t op pos = some s') :
    allCalls p s' = allCalls p s + 1 ∧ allWork p s' ≤ allWork p s + (4 * M + 10) := by
  simp only [Sys.call, Option.map_eq_some_iff] at h
  obtain ⟨c, h1, h⟩ := h
  have a := allCalls_set (s := s) (s' := s') (w := { s.worker i j with pos := pos, calls := (s.worker i j).calls + 1 }) hij
    (by rw [← h]; rfl)
  have b := allWork_set (s := s) (s' := s') (c := c) hk (by rw [← h]; rfl)
  have d := work_call (n := p.users k) h1
  have e := hM k hk
  dsimp only at a
  constructor <;> omega

theorem finish_count {p : Plan α} {s s' : Sys α} {M i j : Nat} (hM : ∀ k, k ≤ p.inner → p.users k ≤ M)
    (hij : p.has i j) (h : s.finish p i j = some s') :
    allCalls p s' = allCalls p s + 1 ∧ allWork p s' ≤ allWork p s + (4 * M + 10) := by
  unfold Sys.finish at h
  split at h
  · rename_i hle; exact call_count (s := { s with active := upd s.active i (s.active i - 1) }) hM hij hle.2 h
  · injection h with h
    have a := allCalls_set (s := s) (s' := s') (w := { s.worker i j with pos := .over, calls := (s.worker i j).calls + 1 }) hij
      (by rw [← h]; rfl)
    have b : allWork p s' = allWork p s := by rw [← h]; rfl
    dsimp only at a
    constructor <;> omega

theorem begin_count {p : Plan α} {s s' : Sys α} {M i j : Nat} (hM : ∀ k, k ≤ p.inner → p.users k ≤ M)
    (hij : p.has i j) (h : s.begin p i j = some s') :
    allCalls p s' = allCalls p s + 1 ∧ allWork p s' ≤ allWork p s + (4 * M + 10) := by
  unfold Sys.begin at h
  split at h
  · split at h
    · rename_i hle; exact call_count hM hij hle h
    · simp at h
  · split at h
    · exact finish_count hM hij h
    · exact call_count hM hij (by have := hij.1; omega) h
  · exact finish_count hM hij h
  · simp at h

theorem deliver_calls {p : Plan α} {i : Nat} {w : Worker α} {r : Res α} : (deliver p i w r).calls = w.calls := by
  unfold deliver; split <;> rfl

theorem place_le {p : Plan α} {i j k t : Nat} {w : Worker α} (h : WInv p i j w) (hij : p.has i j)
    (hp : place p i j w.pos = some (k, t)) : k ≤ p.inner := by
  have hi := hij.1
  cases hpos : w.pos <;> simp only [place, hpos] at hp <;> simp at hp <;> obtain ⟨rfl, rfl⟩ := hp
  · omega
  · have : i ≠ p.inner + 1 := fun h0 => (h.last h0).2.1 hpos
    omega
  · have : i ≠ p.inner + 1 := fun h0 => (h.last h0).2.2 hpos
    omega

theorem inside_count {p : Plan α} {s s' : Sys α} {i j : Nat} {a : Nat → Act α} (h : Inv p s) (hij : p.has i j)
    (hs : s.inside p i j a = some s') :
    ∃ k t c, k ≤ p.inner ∧ next (p.cfg k) (s.chan k) (a t) = some c ∧ allCalls p s' = allCalls p s ∧
      allWork p s' + work (p.users k) (s.chan k).pcs = allWork p s + work (p.users k) c.pcs := by
  unfold Sys.inside at hs
  split at hs
  · simp at hs
  · rename_i k t hpl
    simp only [Option.map_eq_some_iff] at hs
    obtain ⟨c, hc, rfl⟩ := hs
    have hk := place_le (h.workers i j hij) hij hpl
    refine ⟨k, t, c, hk, hc, ?_, ?_⟩
    · split
      · rename_i op r _
        have a := allCalls_set (s := s) (s' := (s.setChan k c).setWorker i j (deliver p i (s.worker i j) r)) hij rfl
        rw [deliver_calls] at a
        omega
      · rfl
    · split <;> exact allWork_set hk rfl

theorem run_count {p : Plan α} {s s' : Sys α} {i j : Nat} {w : Option Nat} (h : Inv p s) (hij : p.has i j)
    (hs : s.inside p i j (fun t => .step t w) = some s') :
    allCalls p s' = allCalls p s ∧ allWork p s' + 1 ≤ allWork p s := by
  obtain ⟨k, t, c, hk, hc, h1, h2⟩ := inside_count h hij hs
  simp only [next] at hc
  split at hc
  · rename_i pc hp
    have := (work_step hp hc).1
    rw [users_length h hk] at this
    exact ⟨h1, by omega⟩
  · simp at hc

theorem stale_count {p : Plan α} {s s' : Sys α} {i j : Nat} (h : Inv p s) (hij : p.has i j)
    (hs : s.inside p i j (fun t => .stale t) = some s') :
    allCalls p s' = allCalls p s ∧ allWork p s' + 1 ≤ allWork p s := by
  obtain ⟨k, t, c, hk, hc, h1, h2⟩ := inside_count h hij hs
  have := (work_stale hc).1
  rw [users_length h hk] at this
  exact ⟨h1, by omega⟩

theorem spurious_count {p : Plan α} {s s' : Sys α} {i j : Nat} (h : Inv p s) (hij : p.has i j)
    (hs : s.inside p i j (fun t => .spurious t) = some s') :
    allCalls p s' = allCalls p s ∧ allWork p s' ≤ allWork p s + 2 := by
  obtain ⟨k, t, c, hk, hc, h1, h2⟩ := inside_count h hij hs
  simp only [next] at hc
  split at hc
  · rename_i hp
    injection hc with hc; subst hc
    have := work_set (n := p.users k) (pc' := .pLock) hp
    simp only [rank] at this
    simp only [St.goto] at h2
    exact ⟨h1, by omega⟩
  · rename_i v hp
    injection hc with hc; subst hc
    have := work_set (n := p.users k) (pc' := .eLock v) hp
    simp only [rank] at this
    simp only [St.goto] at h2
    exact ⟨h1, by omega⟩
  · simp at hc

/-- The number of spurious wakeups in an execution (channel.hpp:92,181). -/
def wakeups : List WAct → Nat
  | [] => 0
  | .spurious _ _ :: l => wakeups l + 1
  | _ :: l => wakeups l

theorem exec_count {p : Plan α} {s s' : Sys α} {M : Nat} {acts : List WAct} (hM : ∀ k, k ≤ p.inner → p.users k ≤ M)
    (h : Inv p s) (hs : exec p s acts = some s') :
    acts.length + allWork p s' + (4 * M + 11) * allCalls p s ≤
      allWork p s + (4 * M + 11) * allCalls p s' + 3 * wakeups acts := by
  induction acts generalizing s with
  | nil => simp [exec] at hs; subst hs; simp [wakeups]
  | cons a l ih =>
    simp only [exec, Option.bind_eq_some_iff] at hs
    obtain ⟨s1, h1, h2⟩ := hs
    have h3 := ih (inv_step h h1) h2
    cases a <;> simp only [step] at h1 <;> split at h1 <;> try (simp at h1)
    · rename_i hi
      obtain ⟨h4, h5⟩ := begin_count hM hi h1
      simp only [wakeups, List.length_cons]
      rw [h4, Nat.mul_add] at h3
      omega
    · rename_i hi
      obtain ⟨h4, h5⟩ := run_count h hi h1
      simp only [wakeups, List.length_cons]
      rw [h4] at h3
      omega
    · rename_i hi
      obtain ⟨h4, h5⟩ := spurious_count h hi h1
      simp only [wakeups, List.length_cons]
      rw [h4] at h3
      omega
    · rename_i hi
      obtain ⟨h4, h5⟩ := stale_count h hi h1
      simp only [wakeups, List.length_cons]
      rw [h4] at h3
      omega

theorem work_init {n m : Nat} : work m (init α n).pcs = 0 := by
  simp [init, work, rank]

/-- Every execution of layers of workers is bounded: the number of calls depends on the plan only, a call has at most four
actions for every thread that uses the channel and eleven more, and every spurious wakeup gives at most three more actions
(C107; channel.hpp:58-69, 85-105, 179-194). -/
theorem workers_bounded {p : Plan α} {s : Sys α} {M : Nat} {acts : List WAct}
    (hM : ∀ k, k ≤ p.inner → p.width k + p.width (k + 1) ≤ M) (h : exec p (start p) acts = some s) :
    acts.length ≤ (4 * M + 11) * sumTo (p.inner + 2) (layerBound p) + 3 * wakeups acts := by
  have h1 := exec_count hM (inv_start p) h
  have h2 := allCalls_le (inv_exec (inv_start p) h)
  have h3 : allWork p (start p) = 0 := sumTo_zero (fun j => work_init)
  have h4 := Nat.mul_le_mul_left (4 * M + 11) h2
  omega

/-- From every state of layers with workers and channels with room, the workers can finish (C107; channel.hpp:58-69,
85-105, 179-194). -/
theorem workers_can_finish {p : Plan α} {s : Sys α} (hw : ∀ i, i ≤ p.inner + 1 → 1 ≤ p.width i)
    (hcap : ∀ k, k ≤ p.inner → 1 ≤ p.cap k) (h : Reach p s) :
    ∃ acts s', exec p s acts = some s' ∧ wakeups acts = 0 ∧
      (∀ i j, i ≤ p.inner + 1 → j < p.width i → (s'.worker i j).pos = .over) ∧
      (seen p s' (p.inner + 1)).Perm (stream p p.inner) := by
  obtain ⟨M, hM⟩ : ∃ M, ∀ k, k ≤ p.inner → p.users k ≤ M := by
    refine ⟨sumTo (p.inner + 1) p.users, fun k hk => ?_⟩
    have := sumTo_change (n := p.inner + 1) (i := k) (F := p.users) (F' := fun x => if x = k then 0 else p.users x)
      (by omega) (fun x _ hx => by simp [hx])
    simp only [if_true] at this
    omega
  obtain ⟨acts0, h0⟩ := h
  generalize hm : allWork p s + (4 * M + 11) * (sumTo (p.inner + 2) (layerBound p) - allCalls p s) = m
  induction m using Nat.strongRecOn generalizing s acts0 with
  | _ m ih =>
    have hi := inv_exec (inv_start p) h0
    by_cases hs : Stuck p s
    · exact ⟨[], s, rfl, rfl, workers_no_deadlock hw hcap ⟨acts0, h0⟩ hs⟩
    · have : ∃ a s1, step p s a = some s1 ∧ wakeups [a] = 0 ∧
          ((allCalls p s1 = allCalls p s + 1 ∧ allWork p s1 ≤ allWork p s + (4 * M + 10)) ∨
            (allCalls p s1 = allCalls p s ∧ allWork p s1 + 1 ≤ allWork p s)) := by
        simp only [Stuck, Classical.not_forall, Classical.not_and_iff_not_or_not] at hs
        obtain ⟨i, j, w, hs⟩ := hs
        rcases hs with hs | hs
        · obtain ⟨s1, h1⟩ := Option.ne_none_iff_exists'.mp hs
          refine ⟨_, s1, h1, rfl, .inl ?_⟩
          simp only [step] at h1
          split at h1
          · rename_i hle; exact begin_count hM hle h1
          · simp at h1
        · obtain ⟨s1, h1⟩ := Option.ne_none_iff_exists'.mp hs
          refine ⟨_, s1, h1, rfl, .inr ?_⟩
          simp only [step] at h1
          split at h1
          · rename_i hle; exact run_count hi hle h1
          · simp at h1
      obtain ⟨a, s1, h1, hwk, hd⟩ := this
      have hex : exec p (start p) (acts0 ++ [a]) = some s1 := by
        have : ∀ (l : List WAct) (x : Sys α), exec p x l = some s → exec p x (l ++ [a]) = some s1 := by
          intro l
          induction l with
          | nil => intro x hx; simp [exec] at hx; subst hx; simp [exec, h1]
          | cons b l ih =>
            intro x hx
            simp only [exec, Option.bind_eq_some_iff, List.cons_append] at hx ⊢
            obtain ⟨y, h2, h3⟩ := hx
            exact ⟨y, h2, ih y h3⟩
        exact this _ _ h0
      have hb := allCalls_le (inv_step hi h1)
      obtain ⟨acts, s', h2, h3, h4⟩ := ih _ (by
        rcases hd with ⟨hx, hy⟩ | ⟨hx, hy⟩
        · rw [hx] at hb ⊢
          obtain ⟨d, hd⟩ : ∃ d, sumTo (p.inner + 2) (layerBound p) = allCalls p s + 1 + d :=
            ⟨_, (Nat.add_sub_cancel' hb).symm⟩
          rw [hd] at hm ⊢
          rw [show allCalls p s + 1 + d - allCalls p s = d + 1 by omega, Nat.mul_add] at hm
          rw [show allCalls p s + 1 + d - (allCalls p s + 1) = d by omega]
          omega
        · rw [hx]; omega) (acts0 ++ [a]) hex rfl
      refine ⟨a :: acts, s', by simp [exec, h1, h2], ?_, h4⟩
      cases a <;> simp_all [wakeups]

/-- From its start, `squares` can finish, and its consumers see the elements and squares. -/
example : ∃ acts s', exec squares (start squares) acts = some s' ∧ (seen squares s' 2).Perm [2, 4, 3, 9, 4, 16] := by
  obtain ⟨acts, s', h1, -, -, h2⟩ := workers_can_finish (p := squares) squares_width (fun _ _ => Nat.le_refl _) ⟨[], rfl⟩
  exact ⟨acts, s', h1, h2⟩

/-- `workers_bounded` for `squares`: at most 837 actions without spurious wakeups. -/
example (acts : List WAct) (s : Sys Nat) (h : exec squares (start squares) acts = some s) (hw : wakeups acts = 0) :
    acts.length ≤ 837 := by
  have := workers_bounded (M := 4) (fun _ _ => Nat.le_refl _) h
  rw [hw] at this
  exact Nat.le_trans this (by decide)

/-- A layer in the middle without workers (example for channel.hpp:92,181). -/
def nobody : Plan Nat where
  inner := 1
  width i := if i = 1 then 0 else 1
  cap _ := 1
  source _ := [7]
  body _ x := [x]

theorem nobody_run : (exec nobody (start nobody) (sched nobody 400 (start nobody))).map
    (fun s => ((s.worker 0 0).pos, (s.worker 2 0).pos, (s.chan 1).pcs)) = some (.over, .inPop, [.pSleep]) := by decide +kernel

/-- That every layer has a worker is needed: nobody closes the output of a layer without workers, and the loops of the next
layer wait for ever (C107; channel.hpp:16,181). -/
theorem workers_no_deadlock_refuted :
    ∃ (p : Plan Nat) (s : Sys Nat), (∀ k, 1 ≤ p.cap k) ∧ Reach p s ∧ Stuck p s ∧ p.has 2 0 ∧ (s.worker 2 0).pos = .inPop := by
  have h := nobody_run
  simp only [Option.map_eq_some_iff] at h
  obtain ⟨s, h1, h2⟩ := h
  simp only [Prod.mk.injEq] at h2
  obtain ⟨h20, h21, h23⟩ := h2
  refine ⟨nobody, s, fun _ => Nat.le_refl _, ⟨_, h1⟩, fun i j w => ?_, by decide, h21⟩
  have cs : nobody.has i j → (i = 0 ∧ j = 0) ∨ (i = 2 ∧ j = 0) := by
    intro ⟨ha, hb⟩
    simp only [nobody] at ha hb
    split at hb <;> omega
  simp only [step]
  constructor <;> split <;> try rfl
  · rename_i hi
    rcases cs hi with ⟨rfl, rfl⟩ | ⟨rfl, rfl⟩
    · simp [Sys.begin, h20]
    · simp [Sys.begin, h21]
  · rename_i hi
    rcases cs hi with ⟨rfl, rfl⟩ | ⟨rfl, rfl⟩
    · simp [Sys.inside, h20, place]
    · simp [Sys.inside, h21, place, next, h23, stepAt, nobody]

end Verif.Workers
