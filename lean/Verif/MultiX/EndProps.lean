import Verif.MultiX.Props
import Verif.Multi.EndProps

/-!
Programs that use exchange channels come to an end (C127, continued): the number of actions of an execution is bounded by the number of
calls and of spurious wakeups in it, and an execution of a program whose calls are bounded can always be continued until nothing
can go on any more, where it has the results of an execution in which every call takes effect at once.
-/
namespace Verif.MultiX

open Verif.Exchange
open Verif.Channel (Op Res Ev Act)
open Verif.Multi (Thr set MAct set_self set_other set_same wakeups wakeups_append sum_more MAct.proper)
open Verif.Pipeline (sumTo sumTo_le sumTo_zero)
open Verif.Workers (sumTo_change)

variable {α : Type}

/-- The calls thread `i` has begun (of exchange_channel.hpp:53,68,79,124,142). -/
def Sys.calls (s : Sys α) (i : Nat) : Nat := (s.thr i).res.length + if (s.thr i).inside then 1 else 0

/-- The work left in the calls on the first `m` channels, all others have none (about the model of exchange_channel.hpp:53-149). -/
structure Load (p : Prog α) (s : Sys α) (m w : Nat) : Prop where
  reach : ∀ k, Reachable (p.cfg k) p.n (s.chan k)
  rest : ∀ k, m ≤ k → work p.n (s.chan k).pcs = 0
  sum : sumTo m (fun k => work p.n (s.chan k).pcs) = w

theorem load_more {p : Prog α} {s : Sys α} {m w : Nat} (h : Load p s m w) (d : Nat) : Load p s (m + d) w :=
  ⟨h.reach, fun k hk => h.rest k (by omega), by rw [sum_more (f := fun k => work p.n (s.chan k).pcs) h.rest d]; exact h.sum⟩

/-- Channel `k` changes, and its work with it. -/
theorem load_change {p : Prog α} {s s' : Sys α} {m w : Nat} (h : Load p s m w) {k : Nat} {c : St α}
    (hs : s'.chan = set s.chan k c) (hc : Reachable (p.cfg k) p.n c) :
    ∃ m' w', Load p s' m' w' ∧ w' + work p.n (s.chan k).pcs = w + work p.n c.pcs := by
  have h1 := load_more h (k + 1)
  have hk : k < m + (k + 1) := by omega
  have h2 := sumTo_change (n := m + (k + 1)) (F := fun j => work p.n (s.chan j).pcs)
    (F' := fun j => work p.n (s'.chan j).pcs) hk (fun j _ hj => by simp only [hs, set_other _ _ hj])
  simp only [hs, set_self] at h2
  rw [h1.sum] at h2
  refine ⟨m + (k + 1), _, ⟨fun j => ?_, fun j hj => ?_, rfl⟩, by simp only [hs]; exact h2⟩
  · by_cases e : j = k
    · subst e; rw [hs, set_self]; exact hc
    · rw [hs, set_other _ _ e]; exact h.reach j
  · rw [hs, set_other _ _ (by omega : j ≠ k)]; exact h1.rest j hj

theorem calls_change {n i : Nat} {s s' : Sys α} {th : Thr α} (hi : i < n) (hs : s'.thr = set s.thr i th) :
    sumTo n s'.calls + s.calls i = sumTo n s.calls + s'.calls i :=
  sumTo_change (F := s.calls) (F' := s'.calls) hi (fun j _ hj => by simp only [Sys.calls, hs, set_other _ _ hj])

theorem work_call {cfg : Cfg} {n : Nat} {c c' : St α} {t : Nat} {op : Op α} (h : next cfg c (.call t op) = some c') :
    work n c'.pcs ≤ work n c.pcs + (2 * n + 8) := by
  simp only [next] at h
  split at h
  · rename_i hp
    simp only [Option.map_eq_some_iff] at h
    obtain ⟨pc, he, rfl⟩ := h
    have := work_set (n := n) (pc' := pc) hp
    have hr : rank n pc ≤ 2 * n + 8 := by cases op <;> simp [entry] at he <;> subst he <;> simp [rank] <;> omega
    have h0 : rank n (.idle : PC α) = 0 := rfl
    rw [h0] at this
    simp only [St.goto, St.log]
    omega
  · simp at h

theorem work_init {n m : Nat} : work n (init α m).pcs = 0 := by
  simp [work, init, rank]

theorem spurious_work {cfg : Cfg} {n : Nat} {c c' : St α} {t : Nat} (h : next cfg c (.spurious t) = some c') :
    work n c'.pcs ≤ work n c.pcs + 2 := by
  simp only [next] at h
  split at h
  · rename_i hp
    injection h with h; subst h
    have := work_set (n := n) (pc' := .pLock) hp
    simp only [rank] at this
    simp only [St.goto]
    omega
  · simp at h

theorem run_load {p : Prog α} {s s' : Sys α} {m w i d : Nat} {a : Act α} (hin : i < p.n) (h : Load p s m w)
    (hw : ∀ k c, next (p.cfg k) (s.chan k) a = some c → work p.n c.pcs + 1 ≤ work p.n (s.chan k).pcs + d)
    (hs : s.run p i a = some s') :
    ∃ m' w', Load p s' m' w' ∧ w' + 1 ≤ w + d ∧ sumTo p.n s'.calls = sumTo p.n s.calls := by
  unfold Sys.run at hs
  split at hs
  · rename_i k op hins hcode
    simp only [Option.map_eq_some_iff] at hs
    obtain ⟨c, hc, hs⟩ := hs
    have hwc := hw k c hc
    split at hs
    · rename_i o r hp
      subst hs
      obtain ⟨m', w', h1, h2⟩ := load_change (s' := ⟨set s.chan k c, set s.thr i ⟨(s.thr i).res ++ [r], false⟩⟩) h rfl
        (reach_snoc (h.reach k) hc)
      have h3 := calls_change (s := s) (s' := ⟨set s.chan k c, set s.thr i ⟨(s.thr i).res ++ [r], false⟩⟩) hin rfl
      refine ⟨m', w', h1, by omega, ?_⟩
      have : s.calls i = (s.thr i).res.length + 1 := by simp [Sys.calls, hins]
      rw [this] at h3
      have : (Sys.mk (set s.chan k c) (set s.thr i ⟨(s.thr i).res ++ [r], false⟩)).calls i = (s.thr i).res.length + 1 := by
        simp [Sys.calls, Verif.Multi.set]
      rw [this] at h3
      omega
    · subst hs
      obtain ⟨m', w', h1, h2⟩ := load_change (s' := { s with chan := set s.chan k c }) h rfl (reach_snoc (h.reach k) hc)
      exact ⟨m', w', h1, by omega, rfl⟩
  · cases hs

theorem internal_work {p : Prog α} {s : Sys α} {m w : Nat} (h : Load p s m w) {a : Act α}
    (ha : (∃ t w, a = .step t w) ∨ (∃ t, a = .throw t) ∨ ∃ t, a = .stale t) (k : Nat)
    (c : St α) (hc : next (p.cfg k) (s.chan k) a = some c) : work p.n c.pcs + 1 ≤ work p.n (s.chan k).pcs + 0 := by
  have := run_bounded (cfg := p.cfg k) (s := s.chan k) (s' := c) (acts := [a]) (by simpa using ha) (by simp [run, hc])
  rw [reachable_length (h.reach k)] at this
  simp only [List.length_singleton] at this
  omega

theorem next_thread {cfg : Cfg} {n : Nat} {c c' : St α} (h : Reachable cfg n c) {t : Nat} {a : Act α}
    (ha : (∃ w, a = .step t w) ∨ a = .throw t ∨ a = .spurious t ∨ a = .stale t ∨ ∃ op, a = .call t op)
    (hc : next cfg c a = some c') : t < n := by
  have : c.pcs[t]? ≠ none := by
    intro hn
    rcases ha with ⟨w, rfl⟩ | rfl | rfl | rfl | ⟨op, rfl⟩ <;> simp [next, hn] at hc
  rw [← reachable_length h]
  simpa using this

theorem run_thread {p : Prog α} {s s' : Sys α} {m w : Nat} (h : Load p s m w) {i : Nat} {a : Act α}
    (ha : (∃ w, a = .step i w) ∨ a = .throw i ∨ a = .spurious i ∨ a = .stale i ∨ ∃ op, a = .call i op)
    (hs : s.run p i a = some s') : i < p.n := by
  unfold Sys.run at hs
  split at hs
  · rename_i k op hins hcode
    simp only [Option.map_eq_some_iff] at hs
    obtain ⟨c, hc, -⟩ := hs
    exact next_thread (h.reach k) ha hc
  · cases hs

theorem begin_load {p : Prog α} {s s' : Sys α} {m w i : Nat} (h : Load p s m w) (hs : s.begin p i = some s') :
    ∃ m' w', Load p s' m' w' ∧ w' ≤ w + (2 * p.n + 8) ∧ sumTo p.n s'.calls = sumTo p.n s.calls + 1 := by
  unfold Sys.begin at hs
  split at hs
  · rename_i k op hins hcode
    simp only [Option.map_eq_some_iff] at hs
    obtain ⟨c, hc, hs⟩ := hs
    have hin := next_thread (h.reach k) (.inr (.inr (.inr (.inr ⟨op, rfl⟩)))) hc
    have hwc := work_call (n := p.n) hc
    subst hs
    obtain ⟨m', w', h1, h2⟩ := load_change (s' := ⟨set s.chan k c, set s.thr i ⟨(s.thr i).res, true⟩⟩) h rfl
      (reach_snoc (h.reach k) hc)
    have h3 := calls_change (s := s) (s' := ⟨set s.chan k c, set s.thr i ⟨(s.thr i).res, true⟩⟩) hin rfl
    refine ⟨m', w', h1, by omega, ?_⟩
    have : s.calls i = (s.thr i).res.length := by simp [Sys.calls, hins]
    rw [this] at h3
    have : (Sys.mk (set s.chan k c) (set s.thr i ⟨(s.thr i).res, true⟩)).calls i = (s.thr i).res.length + 1 := by
      simp [Sys.calls, Verif.Multi.set]
    rw [this] at h3
    omega
  · cases hs

theorem step_load {p : Prog α} {s s' : Sys α} {m w : Nat} {a : MAct} (h : Load p s m w) (hs : step p s a = some s') :
    ∃ m' w', Load p s' m' w' ∧
      1 + w' + (2 * p.n + 9) * sumTo p.n s.calls ≤ w + (2 * p.n + 9) * sumTo p.n s'.calls + 3 * wakeups [a] := by
  cases a with
  | begin i =>
    obtain ⟨m', w', h1, h2, h3⟩ := begin_load h hs
    refine ⟨m', w', h1, ?_⟩
    rw [h3, Nat.mul_add]; omega
  | run i wk =>
    obtain ⟨m', w', h1, h2, h3⟩ := run_load (d := 0) (run_thread h (.inl ⟨wk, rfl⟩) hs) h (internal_work h (.inl ⟨_, _, rfl⟩)) hs
    refine ⟨m', w', h1, ?_⟩
    rw [h3]; omega
  | throw i =>
    obtain ⟨m', w', h1, h2, h3⟩ := run_load (d := 0) (run_thread h (.inr (.inl rfl)) hs) h (internal_work h (.inr (.inl ⟨_, rfl⟩))) hs
    refine ⟨m', w', h1, ?_⟩
    rw [h3]; omega
  | spurious i =>
    obtain ⟨m', w', h1, h2, h3⟩ := run_load (d := 3) (run_thread h (.inr (.inr (.inl rfl))) hs) h
      (fun k c hc => by have := spurious_work (n := p.n) hc; omega) hs
    refine ⟨m', w', h1, ?_⟩
    rw [h3]; simp only [wakeups]; omega
  | stale i =>
    obtain ⟨m', w', h1, h2, h3⟩ := run_load (d := 0) (run_thread h (.inr (.inr (.inr (.inl rfl)))) hs) h (internal_work h (.inr (.inr ⟨_, rfl⟩))) hs
    refine ⟨m', w', h1, ?_⟩
    rw [h3]; omega

theorem exec_load {p : Prog α} : ∀ {acts : List MAct} {s s' : Sys α} {m w : Nat}, Load p s m w → exec p s acts = some s' →
    ∃ m' w', Load p s' m' w' ∧
      acts.length + w' + (2 * p.n + 9) * sumTo p.n s.calls ≤ w + (2 * p.n + 9) * sumTo p.n s'.calls + 3 * wakeups acts
  | [], s, s', m, w, h, he => by
    simp only [exec] at he; injection he with he; subst he; exact ⟨m, w, h, by simp [wakeups]⟩
  | a :: l, s, s', m, w, h, he => by
    simp only [exec, Option.bind_eq_some_iff] at he
    obtain ⟨s1, h1, h2⟩ := he
    obtain ⟨m1, w1, hl, hb⟩ := step_load h h1
    obtain ⟨m', w', hl', hb'⟩ := exec_load hl h2
    refine ⟨m', w', hl', ?_⟩
    have := wakeups_append [a] l
    simp only [List.singleton_append] at this
    simp only [List.length_cons]
    omega

theorem load_start (p : Prog α) : Load p (start p) 0 0 :=
  ⟨fun _ => ⟨[], rfl⟩, fun _ _ => work_init, rfl⟩

/-- **C127** Whatever a program does with its channels: an execution has at most two actions for every thread and nine more for
every call begun, and three for every spurious wakeup. So no thread can go on for ever inside calls. -/
theorem multix_bounded {p : Prog α} {acts : List MAct} {s : Sys α} (h : exec p (start p) acts = some s) :
    acts.length ≤ (2 * p.n + 9) * sumTo p.n (fun i => (s.thr i).res.length + if (s.thr i).inside then 1 else 0) +
      3 * wakeups acts := by
  obtain ⟨m, w, -, hb⟩ := exec_load (load_start p) h
  have h0 : sumTo p.n (start p).calls = 0 := sumTo_zero (fun j => by simp [Sys.calls, start])
  rw [h0] at hb
  show _ ≤ (2 * p.n + 9) * sumTo p.n s.calls + _
  omega

theorem res_le {p : Prog α} {F : Nat → Nat}
    (hF : ∀ A, AReach p A → ∀ i, (A.res i).length ≤ F i) {s : Sys α} (h : Reach p s) (i : Nat) : (s.thr i).res.length ≤ F i := by
  refine multix_safety (P := fun R => (R i).length ≤ F i) (fun A hA R hR => ?_) h
  have := hF A hA i
  rcases hR i with e | ⟨r, e⟩
  · rw [e]; exact this
  · rw [e] at this; simp at this; omega

/-- **C127** If thread `i` makes at most `F i` calls whenever calls take effect at once, then the number of actions of every
execution is bounded, apart from spurious wakeups. -/
theorem multix_bounded_calls {p : Prog α} {F : Nat → Nat}
    (hF : ∀ A, AReach p A → ∀ i, (A.res i).length ≤ F i) {acts : List MAct} {s : Sys α} (h : exec p (start p) acts = some s) :
    acts.length ≤ (2 * p.n + 9) * sumTo p.n (fun i => F i + 1) + 3 * wakeups acts := by
  refine Nat.le_trans (multix_bounded h) (Nat.add_le_add_right (Nat.mul_le_mul_left _ (sumTo_le fun i _ => ?_)) _)
  have := res_le hF ⟨acts, h⟩ i
  split <;> omega

/-- **C127** Then every execution, however far it has come, can be continued until nothing can go on any more, also without
spurious wakeups; and it must be if it goes on, by `multix_bounded_calls`. The results are then
results with which the program ends if every call takes effect at once. -/
theorem multix_ends {p : Prog α} {F : Nat → Nat}
    (hF : ∀ A, AReach p A → ∀ i, (A.res i).length ≤ F i) {s : Sys α} (h : Reach p s) :
    ∃ acts s', (∀ a ∈ acts, a.proper = true) ∧ exec p s acts = some s' ∧ Stuck p s' ∧
      ∃ q c, AReach p ⟨q, c, fun i => (s'.thr i).res⟩ ∧ AStuck p ⟨q, c, fun i => (s'.thr i).res⟩ := by
  have key : ∀ (d : Nat) (acts0 : List MAct) (s : Sys α), exec p (start p) acts0 = some s →
      (2 * p.n + 9) * sumTo p.n (fun i => F i + 1) + 3 * wakeups acts0 ≤ acts0.length + d →
      ∃ acts s', (∀ a ∈ acts, a.proper = true) ∧ exec p s acts = some s' ∧ Stuck p s' := by
    intro d
    induction d with
    | zero =>
      intro acts0 s h0 hd
      refine ⟨[], s, by simp, rfl, ?_⟩
      by_contra hst
      obtain ⟨a, s1, ha, h1⟩ : ∃ a s1, MAct.proper a = true ∧ step p s a = some s1 := by
        unfold Stuck at hst
        simp only [not_forall, not_and_or] at hst
        obtain ⟨i, w, hx⟩ := hst
        rcases hx with hx | hx
        · obtain ⟨s1, h1⟩ := Option.ne_none_iff_exists'.1 hx
          exact ⟨.begin i, s1, rfl, h1⟩
        · obtain ⟨s1, h1⟩ := Option.ne_none_iff_exists'.1 hx
          exact ⟨.run i w, s1, rfl, h1⟩
      have := multix_bounded_calls hF (acts := acts0 ++ [a]) (s := s1) (by rw [exec_append, h0]; simp [exec, h1])
      rw [wakeups_append] at this
      have hw : wakeups [a] = 0 := by cases a <;> simp [MAct.proper] at ha <;> rfl
      rw [hw] at this
      simp at this
      omega
    | succ d ih =>
      intro acts0 s h0 hd
      by_cases hst : Stuck p s
      · exact ⟨[], s, by simp, rfl, hst⟩
      obtain ⟨a, s1, ha, h1⟩ : ∃ a s1, MAct.proper a = true ∧ step p s a = some s1 := by
        unfold Stuck at hst
        simp only [not_forall, not_and_or] at hst
        obtain ⟨i, w, hx⟩ := hst
        rcases hx with hx | hx
        · obtain ⟨s1, h1⟩ := Option.ne_none_iff_exists'.1 hx
          exact ⟨.begin i, s1, rfl, h1⟩
        · obtain ⟨s1, h1⟩ := Option.ne_none_iff_exists'.1 hx
          exact ⟨.run i w, s1, rfl, h1⟩
      have hw : wakeups [a] = 0 := by cases a <;> simp [MAct.proper] at ha <;> rfl
      obtain ⟨acts, s', h2, h3, h4⟩ := ih (acts0 ++ [a]) s1 (by rw [exec_append, h0]; simp [exec, h1])
        (by rw [wakeups_append, hw]; simp; omega)
      refine ⟨a :: acts, s', ?_, by simp [exec, h1, h3], h4⟩
      intro b hb
      rcases List.mem_cons.1 hb with e | e
      · rw [e]; exact ha
      · exact h2 b e
  obtain ⟨acts0, h0⟩ := h
  obtain ⟨acts, s', h1, h2, h3⟩ := key ((2 * p.n + 9) * sumTo p.n (fun i => F i + 1) + 3 * wakeups acts0) acts0 s h0 (by omega)
  refine ⟨acts, s', h1, h2, h3, ?_⟩
  exact (multix_deadlocks _).1 ⟨s', ⟨acts0 ++ acts, by rw [exec_append, h0]; exact h2⟩, h3, fun _ => rfl⟩

/-! ### Examples -/

/-- The calls of the threads of `race`. -/
theorem race_calls : ∀ A, AReach race A → ∀ i, (A.res i).length ≤ if i = 2 then 2 else 1 := by
  intro A hA
  induction hA with
  | start => intro i; simp [astart]
  | @step A B _ hs ih =>
    cases hs with
    | @call i k op r q' c' hi hcode he =>
      intro j
      by_cases e : j = i
      · subst e
        match j, hi with
        | 0, _ =>
          cases hz : A.res 0 with
          | nil => simp [Verif.Multi.set, hz]
          | cons x l => rw [hz] at hcode; cases hcode
        | 1, _ =>
          cases hz : A.res 1 with
          | nil => simp [Verif.Multi.set, hz]
          | cons x l => rw [hz] at hcode; cases hcode
        | 2, _ =>
          cases hz : A.res 2 with
          | nil => simp [Verif.Multi.set, hz]
          | cons x l =>
            cases l with
            | nil => simp [Verif.Multi.set, hz]
            | cons y l => rw [hz] at hcode; cases hcode
      · simpa [Verif.Multi.set, e] using ih j

/-- Every execution of `race` without spurious wakeups has at most 105 actions, and ends. -/
example : (∀ acts s, wakeups acts = 0 → exec race (start race) acts = some s → acts.length ≤ 105) ∧
    ∀ s, Reach race s → ∃ acts s', exec race s acts = some s' ∧ Stuck race s' := by
  refine ⟨fun acts s hw h => ?_, fun s h => ?_⟩
  · have := multix_bounded_calls race_calls h
    rw [hw] at this
    simpa [race, sumTo] using this
  · obtain ⟨acts, s', -, h1, h2, -⟩ := multix_ends race_calls h
    exact ⟨acts, s', h1, h2⟩

/-- Three calls have begun here, and the bound is met. -/
example : ∃ s, exec race (start race) [.begin 2, .begin 1, .run 1 none, .begin 0] = some s ∧
    4 ≤ (2 * 3 + 9) * sumTo 3 (fun i => (s.thr i).res.length + if (s.thr i).inside then 1 else 0) := by
  have h : (exec race (start race) [.begin 2, .begin 1, .run 1 none, .begin 0]).isSome = true := by decide
  obtain ⟨s, hs⟩ := Option.isSome_iff_exists.1 h
  exact ⟨s, hs, multix_bounded hs⟩

end Verif.MultiX
