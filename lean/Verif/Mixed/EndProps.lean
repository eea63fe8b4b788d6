import Verif.Mixed.Props

/-!
Programs that use channels and exchange channels together come to an end (C128, continued): the number of actions of an execution is bounded by the number of
calls and of spurious wakeups in it, and an execution of a program whose calls are bounded can always be continued until nothing
can go on any more, where it has the results of an execution in which every call takes effect at once.
-/
namespace Verif.Mixed

open Verif.Channel (Op Res Act)
open Verif.Multi (Thr set MAct set_self set_other set_same wakeups wakeups_append sum_more MAct.proper)
open Verif.Pipeline (sumTo sumTo_le sumTo_zero)
open Verif.Workers (sumTo_change)

variable {α : Type}

/-- The calls thread `i` has begun (of channel.hpp:58,74,85,114,179,200, exchange_channel.hpp:53,68,79,124,142). -/
def Sys.calls (s : Sys α) (i : Nat) : Nat := (s.thr i).res.length + if (s.thr i).inside then 1 else 0

/-- The work left in the calls on an object (about the model of channel.hpp:58-212, exchange_channel.hpp:53-149). -/
def owork (n : Nat) : Obj α → Nat
  | .chan s => Channel.work n s.pcs
  | .exch s => Exchange.work n s.pcs

theorem fresh_work (n : Nat) (cfg : OCfg) : owork n (fresh α n cfg) = 0 := by
  cases cfg with
  | chan c => exact Workers.work_init
  | exch c => exact MultiX.work_init

theorem call_work {cfg : OCfg} {n : Nat} {o o' : Obj α} {t : Nat} {op : Op α} (h : onext cfg o (.call t op) = some o') :
    owork n o' ≤ owork n o + (4 * n + 10) := by
  match cfg, o with
  | .chan cfg, .chan s =>
    simp only [onext, Option.map_eq_some_iff] at h
    obtain ⟨s', hn, rfl⟩ := h
    exact Workers.work_call hn
  | .exch cfg, .exch s =>
    simp only [onext, Option.map_eq_some_iff] at h
    obtain ⟨s', hn, rfl⟩ := h
    have := MultiX.work_call (n := n) hn
    simp only [owork]; omega
  | .chan _, .exch _ => cases h
  | .exch _, .chan _ => cases h

theorem spurious_work {cfg : OCfg} {n : Nat} {o o' : Obj α} {t : Nat} (h : onext cfg o (.spurious t) = some o') :
    owork n o' ≤ owork n o + 2 := by
  match cfg, o with
  | .chan cfg, .chan s =>
    simp only [onext, Option.map_eq_some_iff] at h
    obtain ⟨s', hn, rfl⟩ := h
    exact Multi.spurious_work hn
  | .exch cfg, .exch s =>
    simp only [onext, Option.map_eq_some_iff] at h
    obtain ⟨s', hn, rfl⟩ := h
    exact MultiX.spurious_work hn
  | .chan _, .exch _ => cases h
  | .exch _, .chan _ => cases h

theorem inner_work {cfg : OCfg} {n : Nat} {o o' : Obj α} (hr : OReach cfg n o) {a : Act α}
    (ha : (∃ t w, a = .step t w) ∨ (∃ t, a = .throw t) ∨ ∃ t, a = .stale t) (h : onext cfg o a = some o') :
    owork n o' + 1 ≤ owork n o := by
  match cfg, o, hr with
  | .chan cfg, .chan s, hr =>
    simp only [onext, Option.map_eq_some_iff] at h
    obtain ⟨s', hn, rfl⟩ := h
    have hint : a.internal = true := by rcases ha with ⟨t, w, rfl⟩ | ⟨t, rfl⟩ | ⟨t, rfl⟩ <;> rfl
    have := Channel.run_bounded (cfg := cfg) (s := s) (s' := s') (acts := [a]) (by simpa using hint) (by simp [Channel.run, hn])
    rw [Channel.reachable_length hr] at this
    simp only [List.length_singleton] at this
    simp only [owork]; omega
  | .exch cfg, .exch s, hr =>
    simp only [onext, Option.map_eq_some_iff] at h
    obtain ⟨s', hn, rfl⟩ := h
    have := Exchange.run_bounded (cfg := cfg) (s := s) (s' := s') (acts := [a]) (by simpa using ha) (by simp [Exchange.run, hn])
    rw [Exchange.reachable_length hr] at this
    simp only [List.length_singleton] at this
    simp only [owork]; omega

theorem next_thread {cfg : OCfg} {n : Nat} {o o' : Obj α} (hr : OReach cfg n o) {t : Nat} {a : Act α}
    (ha : (∃ w, a = .step t w) ∨ a = .throw t ∨ a = .spurious t ∨ a = .stale t ∨ ∃ op, a = .call t op)
    (hc : onext cfg o a = some o') : t < n := by
  match cfg, o, hr with
  | .chan cfg, .chan s, hr =>
    simp only [onext, Option.map_eq_some_iff] at hc
    obtain ⟨s', hn, rfl⟩ := hc
    exact Multi.next_thread hr ha hn
  | .exch cfg, .exch s, hr =>
    simp only [onext, Option.map_eq_some_iff] at hc
    obtain ⟨s', hn, rfl⟩ := hc
    exact MultiX.next_thread hr ha hn

/-- The work left in the calls on the first `m` objects, all others have none (about the model of channel.hpp:58-212, exchange_channel.hpp:53-149). -/
structure Load (p : Prog α) (s : Sys α) (m w : Nat) : Prop where
  reach : ∀ k, OReach (p.cfg k) p.n (s.obj k)
  rest : ∀ k, m ≤ k → owork p.n (s.obj k) = 0
  sum : sumTo m (fun k => owork p.n (s.obj k)) = w

theorem load_more {p : Prog α} {s : Sys α} {m w : Nat} (h : Load p s m w) (d : Nat) : Load p s (m + d) w :=
  ⟨h.reach, fun k hk => h.rest k (by omega), by rw [sum_more (f := fun k => owork p.n (s.obj k)) h.rest d]; exact h.sum⟩

/-- Object `k` changes, and its work with it. -/
theorem load_change {p : Prog α} {s s' : Sys α} {m w : Nat} (h : Load p s m w) {k : Nat} {c : Obj α}
    (hs : s'.obj = set s.obj k c) (hc : OReach (p.cfg k) p.n c) :
    ∃ m' w', Load p s' m' w' ∧ w' + owork p.n (s.obj k) = w + owork p.n c := by
  have h1 := load_more h (k + 1)
  have hk : k < m + (k + 1) := by omega
  have h2 := sumTo_change (n := m + (k + 1)) (F := fun j => owork p.n (s.obj j))
    (F' := fun j => owork p.n (s'.obj j)) hk (fun j _ hj => by simp only [hs, set_other _ _ hj])
  simp only [hs, set_self] at h2
  rw [h1.sum] at h2
  refine ⟨m + (k + 1), _, ⟨fun j => ?_, fun j hj => ?_, rfl⟩, by simp only [hs]; exact h2⟩
  · by_cases e : j = k
    · subst e; rw [hs, set_self]; exact hc
    · rw [hs, set_other _ _ e]; exact h.reach j
  · rw [hs, set_other _ _ (by omega : j ≠ k)]; exact h1.rest j hj

theorem calls_change {n i : Nat} {s s' : Sys α} {th : Thr α} (hi : i < n) (hs : s'.thr = set s.thr i th) :
    sumTo n s'.calls + s.calls i = sumTo n s.calls + s'.calls i :=
  sumTo_change (F := s.calls) (F' := s'.calls) hi (fun j _ hj => by simp only [Sys.calls, hs, set_other _ _ hj])

theorem run_load {p : Prog α} {s s' : Sys α} {m w i d : Nat} {a : Act α} (hin : i < p.n) (h : Load p s m w)
    (hw : ∀ k c, onext (p.cfg k) (s.obj k) a = some c → owork p.n c + 1 ≤ owork p.n (s.obj k) + d)
    (hs : s.run p i a = some s') :
    ∃ m' w', Load p s' m' w' ∧ w' + 1 ≤ w + d ∧ sumTo p.n s'.calls = sumTo p.n s.calls := by
  unfold Sys.run at hs
  split at hs
  · rename_i k op hins hcode
    simp only [Option.map_eq_some_iff] at hs
    obtain ⟨c, hc, hs⟩ := hs
    have hwc := hw k c hc
    split at hs
    · rename_i r hp
      subst hs
      obtain ⟨m', w', h1, h2⟩ := load_change (s' := ⟨set s.obj k c, set s.thr i ⟨(s.thr i).res ++ [r], false⟩⟩) h rfl
        (oreach_next (h.reach k) hc)
      have h3 := calls_change (s := s) (s' := ⟨set s.obj k c, set s.thr i ⟨(s.thr i).res ++ [r], false⟩⟩) hin rfl
      refine ⟨m', w', h1, by omega, ?_⟩
      have : s.calls i = (s.thr i).res.length + 1 := by simp [Sys.calls, hins]
      rw [this] at h3
      have : (Sys.mk (set s.obj k c) (set s.thr i ⟨(s.thr i).res ++ [r], false⟩)).calls i = (s.thr i).res.length + 1 := by
        simp [Sys.calls, Verif.Multi.set]
      rw [this] at h3
      omega
    · subst hs
      obtain ⟨m', w', h1, h2⟩ := load_change (s' := { s with obj := set s.obj k c }) h rfl (oreach_next (h.reach k) hc)
      exact ⟨m', w', h1, by omega, rfl⟩
  · cases hs

theorem run_thread {p : Prog α} {s s' : Sys α} {m w : Nat} (h : Load p s m w) {i : Nat} {a : Act α}
    (ha : (∃ w, a = .step i w) ∨ a = .throw i ∨ a = .spurious i ∨ a = .stale i ∨ ∃ op, a = .call i op)
    (hs : s.run p i a = some s') : i < p.n := by
  unfold Sys.run at hs
  split at hs
  · rename_i k op hins hcode
    simp only [Option.map_eq_some_iff] at hs
    obtain ⟨c, hc, -⟩ := hs
    exact next_thread (h.reach k) ha hc
  · cases hs

theorem begin_load {p : Prog α} {s s' : Sys α} {m w i : Nat} (h : Load p s m w) (hs : s.begin p i = some s') :
    ∃ m' w', Load p s' m' w' ∧ w' ≤ w + (4 * p.n + 10) ∧ sumTo p.n s'.calls = sumTo p.n s.calls + 1 := by
  unfold Sys.begin at hs
  split at hs
  · rename_i k op hins hcode
    simp only [Option.map_eq_some_iff] at hs
    obtain ⟨c, hc, hs⟩ := hs
    have hin := next_thread (h.reach k) (.inr (.inr (.inr (.inr ⟨op, rfl⟩)))) hc
    have hwc := call_work (n := p.n) hc
    subst hs
    obtain ⟨m', w', h1, h2⟩ := load_change (s' := ⟨set s.obj k c, set s.thr i ⟨(s.thr i).res, true⟩⟩) h rfl
      (oreach_next (h.reach k) hc)
    have h3 := calls_change (s := s) (s' := ⟨set s.obj k c, set s.thr i ⟨(s.thr i).res, true⟩⟩) hin rfl
    refine ⟨m', w', h1, by omega, ?_⟩
    have : s.calls i = (s.thr i).res.length := by simp [Sys.calls, hins]
    rw [this] at h3
    have : (Sys.mk (set s.obj k c) (set s.thr i ⟨(s.thr i).res, true⟩)).calls i = (s.thr i).res.length + 1 := by
      simp [Sys.calls, Verif.Multi.set]
    rw [this] at h3
    omega
  · cases hs

theorem step_load {p : Prog α} {s s' : Sys α} {m w : Nat} {a : MAct} (h : Load p s m w) (hs : step p s a = some s') :
    ∃ m' w', Load p s' m' w' ∧
      1 + w' + (4 * p.n + 11) * sumTo p.n s.calls ≤ w + (4 * p.n + 11) * sumTo p.n s'.calls + 3 * wakeups [a] := by
  cases a with
  | begin i =>
    obtain ⟨m', w', h1, h2, h3⟩ := begin_load h hs
    refine ⟨m', w', h1, ?_⟩
    rw [h3, Nat.mul_add]; omega
  | run i wk =>
    obtain ⟨m', w', h1, h2, h3⟩ := run_load (d := 0) (run_thread h (.inl ⟨wk, rfl⟩) hs) h (fun k c hc => inner_work (h.reach k) (by simp) hc) hs
    refine ⟨m', w', h1, ?_⟩
    rw [h3]; omega
  | throw i =>
    obtain ⟨m', w', h1, h2, h3⟩ := run_load (d := 0) (run_thread h (.inr (.inl rfl)) hs) h (fun k c hc => inner_work (h.reach k) (by simp) hc) hs
    refine ⟨m', w', h1, ?_⟩
    rw [h3]; omega
  | spurious i =>
    obtain ⟨m', w', h1, h2, h3⟩ := run_load (d := 3) (run_thread h (.inr (.inr (.inl rfl))) hs) h
      (fun k c hc => by have := spurious_work (n := p.n) hc; omega) hs
    refine ⟨m', w', h1, ?_⟩
    rw [h3]; simp only [wakeups]; omega
  | stale i =>
    obtain ⟨m', w', h1, h2, h3⟩ := run_load (d := 0) (run_thread h (.inr (.inr (.inr (.inl rfl)))) hs) h (fun k c hc => inner_work (h.reach k) (by simp) hc) hs
    refine ⟨m', w', h1, ?_⟩
    rw [h3]; omega

theorem exec_load {p : Prog α} : ∀ {acts : List MAct} {s s' : Sys α} {m w : Nat}, Load p s m w → exec p s acts = some s' →
    ∃ m' w', Load p s' m' w' ∧
      acts.length + w' + (4 * p.n + 11) * sumTo p.n s.calls ≤ w + (4 * p.n + 11) * sumTo p.n s'.calls + 3 * wakeups acts
  | [], s, s', m, w, h, he => by
    simp only [exec] at he; injection he with he; subst he; exact ⟨m, w, h, by simp [wakeups]⟩
  | a :: l, s, s', m, w, h, he => by
    simp only [exec, Option.bind_eq_some_iff] at he
    obtain ⟨s1, h1, h2⟩ := he
    obtain ⟨m1, w1, hl, hb⟩ := step_load h h1
    obtain ⟨m', w', hl', hb'⟩ := exec_load hl h2
    refine ⟨m', w', hl', ?_⟩
    have := wakeups_append [a] l
    simp only [List.singleton_append] at this
    simp only [List.length_cons]
    omega

theorem load_start (p : Prog α) : Load p (start p) 0 0 :=
  ⟨fun k => fresh_reach α p.n (p.cfg k), fun k _ => fresh_work p.n (p.cfg k), rfl⟩

/-- **C128** Whatever a program does with its objects: an execution has at most four actions for every thread and eleven more for
every call begun, and three for every spurious wakeup. So no thread can go on for ever inside calls. -/
theorem mixed_bounded {p : Prog α} {acts : List MAct} {s : Sys α} (h : exec p (start p) acts = some s) :
    acts.length ≤ (4 * p.n + 11) * sumTo p.n (fun i => (s.thr i).res.length + if (s.thr i).inside then 1 else 0) +
      3 * wakeups acts := by
  obtain ⟨m, w, -, hb⟩ := exec_load (load_start p) h
  have h0 : sumTo p.n (start p).calls = 0 := sumTo_zero (fun j => by simp [Sys.calls, start])
  rw [h0] at hb
  show _ ≤ (4 * p.n + 11) * sumTo p.n s.calls + _
  omega

theorem res_le {p : Prog α} {F : Nat → Nat}
    (hF : ∀ A, AReach p A → ∀ i, (A.res i).length ≤ F i) {s : Sys α} (h : Reach p s) (i : Nat) : (s.thr i).res.length ≤ F i := by
  refine mixed_safety (P := fun R => (R i).length ≤ F i) (fun A hA R hR => ?_) h
  have := hF A hA i
  rcases hR i with e | ⟨r, e⟩
  · rw [e]; exact this
  · rw [e] at this; simp at this; omega

/-- **C128** If thread `i` makes at most `F i` calls whenever calls take effect at once, then the number of actions of every
execution is bounded, apart from spurious wakeups. -/
theorem mixed_bounded_calls {p : Prog α} {F : Nat → Nat}
    (hF : ∀ A, AReach p A → ∀ i, (A.res i).length ≤ F i) {acts : List MAct} {s : Sys α} (h : exec p (start p) acts = some s) :
    acts.length ≤ (4 * p.n + 11) * sumTo p.n (fun i => F i + 1) + 3 * wakeups acts := by
  refine Nat.le_trans (mixed_bounded h) (Nat.add_le_add_right (Nat.mul_le_mul_left _ (sumTo_le fun i _ => ?_)) _)
  have := res_le hF ⟨acts, h⟩ i
  split <;> omega

/-- **C128** Then every execution, however far it has come, can be continued until nothing can go on any more, also without
spurious wakeups; and it must be if it goes on, by `mixed_bounded_calls`. If elements of channels do not throw, the results
are then results with which the program ends if every call takes effect at once. -/
theorem mixed_ends {p : Prog α} {F : Nat → Nat}
    (hF : ∀ A, AReach p A → ∀ i, (A.res i).length ≤ F i) {s : Sys α} (h : Reach p s) :
    ∃ acts s', (∀ a ∈ acts, a.proper = true) ∧ exec p s acts = some s' ∧ Stuck p s' ∧
      ((∀ k, (p.cfg k).calm) → ∃ q c, AReach p ⟨q, c, fun i => (s'.thr i).res⟩ ∧
        AStuck p ⟨q, c, fun i => (s'.thr i).res⟩) := by
  have key : ∀ (d : Nat) (acts0 : List MAct) (s : Sys α), exec p (start p) acts0 = some s →
      (4 * p.n + 11) * sumTo p.n (fun i => F i + 1) + 3 * wakeups acts0 ≤ acts0.length + d →
      ∃ acts s', (∀ a ∈ acts, a.proper = true) ∧ exec p s acts = some s' ∧ Stuck p s' := by
    intro d
    induction d with
    | zero =>
      intro acts0 s h0 hd
      refine ⟨[], s, by simp, rfl, ?_⟩
      by_contra hst
      obtain ⟨a, s1, ha, h1⟩ : ∃ a s1, MAct.proper a = true ∧ step p s a = some s1 := by
        unfold Stuck at hst
        simp only [not_forall, not_and_or] at hst
        obtain ⟨i, w, hx⟩ := hst
        rcases hx with hx | hx
        · obtain ⟨s1, h1⟩ := Option.ne_none_iff_exists'.1 hx
          exact ⟨.begin i, s1, rfl, h1⟩
        · obtain ⟨s1, h1⟩ := Option.ne_none_iff_exists'.1 hx
          exact ⟨.run i w, s1, rfl, h1⟩
      have := mixed_bounded_calls hF (acts := acts0 ++ [a]) (s := s1) (by rw [exec_append, h0]; simp [exec, h1])
      rw [wakeups_append] at this
      have hw : wakeups [a] = 0 := by cases a <;> simp [MAct.proper] at ha <;> rfl
      rw [hw] at this
      simp at this
      omega
    | succ d ih =>
      intro acts0 s h0 hd
      by_cases hst : Stuck p s
      · exact ⟨[], s, by simp, rfl, hst⟩
      obtain ⟨a, s1, ha, h1⟩ : ∃ a s1, MAct.proper a = true ∧ step p s a = some s1 := by
        unfold Stuck at hst
        simp only [not_forall, not_and_or] at hst
        obtain ⟨i, w, hx⟩ := hst
        rcases hx with hx | hx
        · obtain ⟨s1, h1⟩ := Option.ne_none_iff_exists'.1 hx
          exact ⟨.begin i, s1, rfl, h1⟩
        · obtain ⟨s1, h1⟩ := Option.ne_none_iff_exists'.1 hx
          exact ⟨.run i w, s1, rfl, h1⟩
      have hw : wakeups [a] = 0 := by cases a <;> simp [MAct.proper] at ha <;> rfl
      obtain ⟨acts, s', h2, h3, h4⟩ := ih (acts0 ++ [a]) s1 (by rw [exec_append, h0]; simp [exec, h1])
        (by rw [wakeups_append, hw]; simp; omega)
      refine ⟨a :: acts, s', ?_, by simp [exec, h1, h3], h4⟩
      intro b hb
      rcases List.mem_cons.1 hb with e | e
      · rw [e]; exact ha
      · exact h2 b e
  obtain ⟨acts0, h0⟩ := h
  obtain ⟨acts, s', h1, h2, h3⟩ := key ((4 * p.n + 11) * sumTo p.n (fun i => F i + 1) + 3 * wakeups acts0) acts0 s h0 (by omega)
  refine ⟨acts, s', h1, h2, h3, fun hc => ?_⟩
  exact (mixed_deadlocks hc _).1 ⟨s', ⟨acts0 ++ acts, by rw [exec_append, h0]; exact h2⟩, h3, fun _ => rfl⟩

/-! ### Examples -/

/-- The calls of the threads of `report`. -/
theorem report_calls : ∀ A, AReach report A → ∀ i, (A.res i).length ≤ if i = 0 then 2 else if i = 1 then 4 else 1 := by
  intro A hA
  induction hA with
  | start => intro i; simp [astart]
  | @step A B _ hs ih =>
    cases hs with
    | @call i k op r q' c' hi hcode he =>
      intro j
      by_cases e : j = i
      · subst e
        have hlen : ∀ rs : List (Res Nat), report.code j rs = some (k, op) →
            rs.length + 1 ≤ if j = 0 then 2 else if j = 1 then 4 else 1 := by
          intro rs hrs
          match j, hi, rs, hrs with
          | 0, _, [], _ => decide
          | 0, _, [_], _ => simp
          | 0, _, _ :: _ :: _, h => cases h
          | 1, _, [], _ => decide
          | 1, _, [_], _ => simp
          | 1, _, [_, _], _ => simp
          | 1, _, [_, _, _], _ => simp
          | 1, _, _ :: _ :: _ :: _ :: _, h => simp [report] at h
          | 2, _, [], _ => decide
          | 2, _, _ :: _, h => cases h
        simpa [Verif.Multi.set] using hlen _ hcode
      · simpa [Verif.Multi.set, e] using ih j

/-- Every execution of `report` without spurious wakeups has at most 230 actions, and ends as with calls that take effect at once. -/
example : (∀ acts s, wakeups acts = 0 → exec report (start report) acts = some s → acts.length ≤ 230) ∧
    ∀ s, Reach report s → ∃ acts s', exec report s acts = some s' ∧ Stuck report s' ∧
      ∃ q c, AReach report ⟨q, c, fun i => (s'.thr i).res⟩ ∧ AStuck report ⟨q, c, fun i => (s'.thr i).res⟩ := by
  refine ⟨fun acts s hw h => ?_, fun s h => ?_⟩
  · have := mixed_bounded_calls report_calls h
    rw [hw] at this
    simpa [report, sumTo] using this
  · obtain ⟨acts, s', -, h1, h2, h3⟩ := mixed_ends report_calls h
    exact ⟨acts, s', h1, h2, h3 report_calm⟩

/-- Three calls have begun here, and the bound is met. -/
example : ∃ s, exec report (start report) [.begin 2, .begin 1, .run 1 none, .begin 0] = some s ∧
    4 ≤ (4 * 3 + 11) * sumTo 3 (fun i => (s.thr i).res.length + if (s.thr i).inside then 1 else 0) := by
  have h : (exec report (start report) [.begin 2, .begin 1, .run 1 none, .begin 0]).isSome = true := by decide
  obtain ⟨s, hs⟩ := Option.isSome_iff_exists.1 h
  exact ⟨s, hs, mixed_bounded hs⟩

end Verif.Mixed
