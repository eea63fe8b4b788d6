import Verif.Pipeline.Props

/-! C106, continued: every execution of a pipeline comes to an end. -/
namespace Verif.Pipeline

open Verif.Channel

variable {α : Type}

/-- Sum over the first `n` indices (for counting calls of channel.hpp:58-194). -/
def sumTo : Nat → (Nat → Nat) → Nat
  | 0, _ => 0
  | n + 1, f => sumTo n f + f n

theorem sumTo_congr {n : Nat} {f g : Nat → Nat} (h : ∀ j, j < n → f j = g j) : sumTo n f = sumTo n g := by
  induction n with
  | zero => rfl
  | succ n ih => simp only [sumTo]; rw [ih (fun j hj => h j (by omega)), h n (by omega)]

theorem sumTo_le {n : Nat} {f g : Nat → Nat} (h : ∀ j, j < n → f j ≤ g j) : sumTo n f ≤ sumTo n g := by
  induction n with
  | zero => exact Nat.le_refl _
  | succ n ih => simp only [sumTo]; have := ih (fun j hj => h j (by omega)); have := h n (by omega); omega

theorem sumTo_upd {β : Type} {n i : Nat} (hi : i < n) (f : Nat → β) (g : β → Nat) (b : β) :
    sumTo n (fun j => g (upd f i b j)) + g (f i) = sumTo n (fun j => g (f j)) + g b := by
  induction n with
  | zero => omega
  | succ n ih =>
    simp only [sumTo]
    by_cases h : i = n
    · subst h
      have : sumTo i (fun j => g (upd f i b j)) = sumTo i (fun j => g (f j)) :=
        sumTo_congr (fun j hj => by rw [upd_ne (by omega)])
      rw [this, upd_eq]; omega
    · have := ih (by omega)
      rw [upd_ne (by omega : n ≠ i)]; omega

/-- Calls made by all threads (of channel.hpp:58,85,179). -/
def allCalls (p : Plan α) (s : Sys α) : Nat := sumTo (p.inner + 2) (fun i => (s.stage i).calls)

/-- Work left in all calls (of channel.hpp:58,85,179). -/
def allWork (p : Plan α) (s : Sys α) : Nat := sumTo (p.inner + 1) (fun k => work 2 (s.chan k).pcs)

theorem calls_bound {p : Plan α} {s : Sys α} (h : Inv p s) {i : Nat} (hi : i ≤ p.inner + 1) :
    (s.stage i).calls ≤ callBound p i := by
  have hst := h.stages i hi
  have hc := hst.calls
  have hf : flag (s.stage i).pos ≤ 3 := by cases (s.stage i).pos <;> simp [flag]
  match i with
  | 0 =>
    simp only [made, if_true, (hst.first rfl).1, Nat.zero_le, List.length_nil] at hc
    simp only [callBound]; omega
  | k + 1 =>
    have h1 := got_prefix h k (by omega)
    have h2 : (s.stage (k + 1)).got.length ≤ (stream p k).length := by
      have a := h1.length_le
      have b : (takeQ (p.quota (k + 1)) (stream p k)).length ≤ (stream p k).length := by
        cases p.quota (k + 1) <;> simp [takeQ] <;> omega
      omega
    have h3 : ((s.stage (k + 1)).got.flatMap (p.body (k + 1))).length ≤ (stream p (k + 1)).length :=
      (flatMap_prefix h1).length_le
    simp only [made, Nat.add_one_ne_zero, if_false] at hc
    simp only [callBound]
    split at hc
    · rename_i hle; simp only [hle, if_true]; omega
    · rename_i hle; simp only [hle, if_false]; omega

theorem allCalls_le {p : Plan α} {s : Sys α} (h : Inv p s) : allCalls p s ≤ sumTo (p.inner + 2) (callBound p) :=
  sumTo_le (fun _ hj => calls_bound h (by omega))

theorem work_call {cfg : Cfg} {c c' : St α} {t : Nat} {op : Op α} (h : next cfg c (.call t op) = some c') :
    work 2 c'.pcs ≤ work 2 c.pcs + 14 := by
  simp only [next] at h
  split at h
  · rename_i hp
    injection h with h; subst h
    have := work_set (n := 2) (pc' := entry op) hp
    have h2 : rank 2 (entry op : PC α) ≤ 14 := by cases op <;> simp [entry, rank]
    have h0 : rank 2 (.idle : PC α) = 0 := rfl
    simp only [St.goto, St.log]; omega
  · simp at h

theorem call_count {p : Plan α} {s s' : Sys α} {i k t : Nat} {op : Op α} {st : Stage α} (hi : i ≤ p.inner + 1)
    (hk : k ≤ p.inner) (hc : st.calls = (s.stage i).calls + 1) (h : s.call p i k t op st = some s') :
    allCalls p s' = allCalls p s + 1 ∧ allWork p s' ≤ allWork p s + 14 := by
  simp only [Sys.call, Option.map_eq_some_iff] at h
  obtain ⟨c, h1, rfl⟩ := h
  have a := sumTo_upd (n := p.inner + 2) (by omega : i < _) s.stage Stage.calls st
  have b := sumTo_upd (n := p.inner + 1) (by omega : k < _) s.chan (fun c => work 2 c.pcs) c
  have d := work_call h1
  simp only [allCalls, allWork]
  constructor <;> omega

theorem closeOut_count {p : Plan α} {s s' : Sys α} {i : Nat} (hi : i ≤ p.inner + 1) (h : s.closeOut p i = some s') :
    allCalls p s' = allCalls p s + 1 ∧ allWork p s' ≤ allWork p s + 14 := by
  unfold Sys.closeOut at h
  split at h
  · rename_i hle; exact call_count hi hle rfl h
  · injection h with h; subst h
    have a := sumTo_upd (n := p.inner + 2) (by omega : i < _) s.stage Stage.calls
      { s.stage i with pos := .over, calls := (s.stage i).calls + 1 }
    dsimp only at a
    simp only [allCalls, allWork]
    constructor <;> omega

theorem leave_count {p : Plan α} {s s' : Sys α} {i : Nat} (hi : i ≤ p.inner + 1) (h : s.leave p i = some s') :
    allCalls p s' = allCalls p s + 1 ∧ allWork p s' ≤ allWork p s + 14 := by
  unfold Sys.leave at h
  split at h
  · exact closeOut_count hi h
  · exact call_count hi (by omega) rfl h

theorem begin_count {p : Plan α} {s s' : Sys α} {i : Nat} (hi : i ≤ p.inner + 1) (h : s.begin p i = some s') :
    allCalls p s' = allCalls p s + 1 ∧ allWork p s' ≤ allWork p s + 14 := by
  unfold Sys.begin at h
  split at h
  · split at h
    · rename_i hle; exact call_count hi hle rfl h
    · simp at h
  · split at h
    · exact closeOut_count hi h
    · split at h
      · exact leave_count hi h
      · exact call_count hi (by omega) rfl h
  · exact leave_count hi h
  · exact closeOut_count hi h
  · simp at h

theorem deliver_calls {p : Plan α} {i : Nat} {st : Stage α} {r : Res α} : (deliver p i st r).calls = st.calls := by
  unfold deliver; split <;> rfl

theorem place_le {p : Plan α} {i k t : Nat} {st : Stage α} (h : StInv p i st) (hi : i ≤ p.inner + 1)
    (hp : place i st.pos = some (k, t)) : k ≤ p.inner := by
  cases hpos : st.pos <;> simp only [place, hpos] at hp <;> simp at hp <;> obtain ⟨rfl, rfl⟩ := hp
  · omega
  · have : i ≠ p.inner + 1 := fun h0 => (h.last h0).2.1 hpos
    omega
  · omega
  · have : i ≠ p.inner + 1 := fun h0 => (h.last h0).2.2.1 hpos
    omega

theorem inside_count {p : Plan α} {s s' : Sys α} {i : Nat} {a : Nat → Act α} (h : Inv p s) (hi : i ≤ p.inner + 1)
    (hs : s.inside p i a = some s') :
    ∃ k t c, k ≤ p.inner ∧ next (p.cfg k) (s.chan k) (a t) = some c ∧ allCalls p s' = allCalls p s ∧
      allWork p s' + work 2 (s.chan k).pcs = allWork p s + work 2 c.pcs := by
  unfold Sys.inside at hs
  split at hs
  · simp at hs
  · rename_i k t hpl
    simp only [Option.map_eq_some_iff] at hs
    obtain ⟨c, hc, rfl⟩ := hs
    have hk := place_le (h.stages i hi) hi hpl
    have b := sumTo_upd (n := p.inner + 1) (by omega : k < _) s.chan (fun c => work 2 c.pcs) c
    refine ⟨k, t, c, hk, hc, ?_, ?_⟩
    · split
      · rename_i op r _
        have a := sumTo_upd (n := p.inner + 2) (by omega : i < _) s.stage Stage.calls (deliver p i (s.stage i) r)
        rw [deliver_calls] at a
        simp only [allCalls]; omega
      · rfl
    · split <;> exact b

theorem len2 {p : Plan α} {s : Sys α} (h : Inv p s) {k : Nat} (hk : k ≤ p.inner) : (s.chan k).pcs.length = 2 :=
  reachable_length (h.links k hk).reach

theorem run_count {p : Plan α} {s s' : Sys α} {i : Nat} {w : Option Nat} (h : Inv p s) (hi : i ≤ p.inner + 1)
    (hs : s.inside p i (fun t => .step t w) = some s') :
    allCalls p s' = allCalls p s ∧ allWork p s' + 1 ≤ allWork p s := by
  obtain ⟨k, t, c, hk, hc, h1, h2⟩ := inside_count h hi hs
  simp only [next] at hc
  split at hc
  · rename_i pc hp
    have := (work_step hp hc).1
    rw [len2 h hk] at this
    exact ⟨h1, by omega⟩
  · simp at hc

theorem stale_count {p : Plan α} {s s' : Sys α} {i : Nat} (h : Inv p s) (hi : i ≤ p.inner + 1)
    (hs : s.inside p i (fun t => .stale t) = some s') :
    allCalls p s' = allCalls p s ∧ allWork p s' + 1 ≤ allWork p s := by
  obtain ⟨k, t, c, hk, hc, h1, h2⟩ := inside_count h hi hs
  have := (work_stale hc).1
  rw [len2 h hk] at this
  exact ⟨h1, by omega⟩

theorem spurious_count {p : Plan α} {s s' : Sys α} {i : Nat} (h : Inv p s) (hi : i ≤ p.inner + 1)
    (hs : s.inside p i (fun t => .spurious t) = some s') :
    allCalls p s' = allCalls p s ∧ allWork p s' ≤ allWork p s + 2 := by
  obtain ⟨k, t, c, hk, hc, h1, h2⟩ := inside_count h hi hs
  simp only [next] at hc
  split at hc
  · rename_i hp
    injection hc with hc; subst hc
    have := work_set (n := 2) (pc' := .pLock) hp
    simp only [rank] at this
    simp only [St.goto] at h2
    exact ⟨h1, by omega⟩
  · rename_i v hp
    injection hc with hc; subst hc
    have := work_set (n := 2) (pc' := .eLock v) hp
    simp only [rank] at this
    simp only [St.goto] at h2
    exact ⟨h1, by omega⟩
  · simp at hc

/-- The number of spurious wakeups in an execution (channel.hpp:92,181). -/
def wakeups : List PAct → Nat
  | [] => 0
  | .spurious _ :: l => wakeups l + 1
  | _ :: l => wakeups l

theorem exec_count {p : Plan α} {s s' : Sys α} {acts : List PAct} (h : Inv p s) (hs : exec p s acts = some s') :
    acts.length + allWork p s' + 15 * allCalls p s ≤ allWork p s + 15 * allCalls p s' + 3 * wakeups acts := by
  induction acts generalizing s with
  | nil => simp [exec] at hs; subst hs; simp [wakeups]
  | cons a l ih =>
    simp only [exec, Option.bind_eq_some_iff] at hs
    obtain ⟨s1, h1, h2⟩ := hs
    have h3 := ih (inv_step h h1) h2
    cases a <;> simp only [step] at h1 <;> split at h1 <;> try (simp at h1; done)
    · rename_i hi
      have := begin_count hi h1
      simp only [wakeups, List.length_cons]; omega
    · rename_i hi
      have := run_count h hi h1
      simp only [wakeups, List.length_cons]; omega
    · rename_i hi
      have := spurious_count h hi h1
      simp only [wakeups, List.length_cons]; omega
    · rename_i hi
      have := stale_count h hi h1
      simp only [wakeups, List.length_cons]; omega

theorem sumTo_zero {n : Nat} {f : Nat → Nat} (h : ∀ j, f j = 0) : sumTo n f = 0 := by
  induction n with
  | zero => rfl
  | succ n ih => simp [sumTo, ih, h n]

/-- Every execution of a pipeline is bounded: it has at most fifteen actions per call, there is a fixed number of calls
that depends on the plan only, and every spurious wakeup gives at most three more actions (C106; channel.hpp:58-69,
85-105, 179-194). -/
theorem pipeline_bounded {p : Plan α} {s : Sys α} {acts : List PAct} (h : exec p (start p) acts = some s) :
    acts.length ≤ 15 * sumTo (p.inner + 2) (callBound p) + 3 * wakeups acts := by
  have h1 := exec_count (inv_start p) h
  have h2 := allCalls_le (inv_exec (inv_start p) h)
  have h3 : allWork p (start p) = 0 := sumTo_zero (fun j => by simp [start, init, work, rank])
  omega

/-- From every state of a pipeline whose channels have room, the threads can finish (C106; channel.hpp:58-69, 85-105,
179-194). -/
theorem pipeline_can_finish {p : Plan α} {s : Sys α} (hcap : ∀ k, k ≤ p.inner → 1 ≤ p.cap k) (h : Reach p s) :
    ∃ acts s', exec p s acts = some s' ∧ wakeups acts = 0 ∧ (∀ i, i ≤ p.inner + 1 → (s'.stage i).pos = .over) ∧
      (s'.stage (p.inner + 1)).got = takeQ (p.quota (p.inner + 1)) (stream p p.inner) := by
  obtain ⟨acts0, h0⟩ := h
  generalize hm : allWork p s + 15 * (sumTo (p.inner + 2) (callBound p) - allCalls p s) = m
  induction m using Nat.strongRecOn generalizing s acts0 with
  | _ m ih =>
    have hi := inv_exec (inv_start p) h0
    by_cases hs : Stuck p s
    · exact ⟨[], s, rfl, rfl, pipeline_no_deadlock hcap ⟨acts0, h0⟩ hs⟩
    · have : ∃ a s1, step p s a = some s1 ∧ wakeups [a] = 0 ∧
          ((allCalls p s1 = allCalls p s + 1 ∧ allWork p s1 ≤ allWork p s + 14) ∨
            (allCalls p s1 = allCalls p s ∧ allWork p s1 + 1 ≤ allWork p s)) := by
        simp only [Stuck, Classical.not_forall, Classical.not_and_iff_not_or_not] at hs
        obtain ⟨i, w, hs⟩ := hs
        rcases hs with hs | hs
        · obtain ⟨s1, h1⟩ := Option.ne_none_iff_exists'.mp hs
          refine ⟨_, s1, h1, rfl, .inl ?_⟩
          simp only [step] at h1
          split at h1
          · rename_i hle; exact begin_count hle h1
          · simp at h1
        · obtain ⟨s1, h1⟩ := Option.ne_none_iff_exists'.mp hs
          refine ⟨_, s1, h1, rfl, .inr ?_⟩
          simp only [step] at h1
          split at h1
          · rename_i hle; exact run_count hi hle h1
          · simp at h1
      obtain ⟨a, s1, h1, hw, hd⟩ := this
      have hex : exec p (start p) (acts0 ++ [a]) = some s1 := by
        have : ∀ (l : List PAct) (x : Sys α), exec p x l = some s → exec p x (l ++ [a]) = some s1 := by
          intro l
          induction l with
          | nil => intro x hx; simp [exec] at hx; subst hx; simp [exec, h1]
          | cons b l ih =>
            intro x hx
            simp only [exec, Option.bind_eq_some_iff, List.cons_append] at hx ⊢
            obtain ⟨y, h2, h3⟩ := hx
            exact ⟨y, h2, ih y h3⟩
        exact this _ _ h0
      have hb := allCalls_le (inv_step hi h1)
      obtain ⟨acts, s', h2, h3, h4⟩ := ih _ (by rcases hd with ⟨hx, hy⟩ | ⟨hx, hy⟩ <;> omega) (acts0 ++ [a]) hex rfl
      refine ⟨a :: acts, s', by simp [exec, h1, h2], ?_, h4⟩
      cases a <;> simp_all [wakeups]

/-- From its start, `squares` can finish, and gives the squares. -/
example : ∃ acts s', exec squares (start squares) acts = some s' ∧ (s'.stage 2).got = [2, 4, 3, 9, 4, 16] := by
  obtain ⟨acts, s', h1, -, -, h2⟩ := pipeline_can_finish (p := squares) (fun _ _ => Nat.le_refl _) ⟨[], rfl⟩
  exact ⟨acts, s', h1, h2⟩

/-- A producer and a consumer with a channel without room (example for channel.hpp:92). -/
def noRoom : Plan Nat := { inner := 0, cap := fun _ => 0, source := [7], body := fun _ x => [x] }

theorem noRoom_run : (exec noRoom (start noRoom) (sched noRoom 400 (start noRoom))).map
    (fun s => ((s.stage 0).pos, (s.stage 1).pos, (s.stage 1).got, (s.chan 0).pcs)) =
      some (.inPush, .inPop, [], [.eSleep 7, .pSleep]) := by decide +kernel

/-- The condition on the capacities is needed: with a channel without room the first push blocks for ever (C106;
channel.hpp:92). -/
theorem pipeline_no_deadlock_refuted :
    ∃ (p : Plan Nat) (s : Sys Nat), Reach p s ∧ Stuck p s ∧ (s.stage 0).pos = .inPush ∧ (s.stage (p.inner + 1)).got = [] ∧
      takeQ (p.quota (p.inner + 1)) (stream p p.inner) ≠ [] := by
  have h := noRoom_run
  simp only [Option.map_eq_some_iff] at h
  obtain ⟨s, h1, h2⟩ := h
  simp only [Prod.mk.injEq] at h2
  obtain ⟨h20, h21, h22, h23⟩ := h2
  refine ⟨noRoom, s, ⟨_, h1⟩, fun i w => ?_, h20, h22, by decide⟩
  simp only [step]
  constructor <;> split <;> try rfl
  · rename_i hi
    have : i = 0 ∨ i = 1 := by simp [noRoom] at hi; omega
    rcases this with rfl | rfl
    · simp [Sys.begin, h20]
    · simp [Sys.begin, h21]
  · rename_i hi
    have : i = 0 ∨ i = 1 := by simp [noRoom] at hi; omega
    rcases this with rfl | rfl
    · simp [Sys.inside, h20, place, next, h23, stepAt]
    · simp [Sys.inside, h21, place, next, h23, stepAt]

end Verif.Pipeline
