import Verif.Net.CapProps

/-!
When networks do not deadlock (C124): in a stuck network every unfinished thread waits for its partner at some channel; if
the threads that finish have closed what they write and read what they read to the end, the partner is unfinished as well;
and if the graph of the channels is a forest, there is no cycle of waiting threads.
-/
namespace Verif.Net

open Verif.Channel

variable {α : Type}

/-- The thread has seen the end of channel `k`: a `pop` returned `nullopt` (for callers of channel.hpp:179-194). -/
def SawEnd (p : Plan α) (j k : Nat) (rs : List (Res α)) : Prop := ∃ pre, pre ++ [.val none] <+: rs ∧ p.prog j pre = .pop k

/-- The thread has closed channel `k` (for callers of channel.hpp:58-69). -/
def HasClosed (p : Plan α) (j k : Nat) (rs : List (Res α)) : Prop := ∃ pre r, pre ++ [r] <+: rs ∧ p.prog j pre = .close k

/-- Thread `i` waits in a `pop` of an empty channel that is open (channel.hpp:181). -/
def WaitsPop (p : Plan α) (s : Sys α) (i k : Nat) : Prop :=
  p.prog i (s.thr i).res = .pop k ∧ (s.chan k).q = [] ∧ (s.chan k).closed = false

/-- Thread `i` waits in a `push` to a full channel that is open (channel.hpp:92). -/
def WaitsPush (p : Plan α) (s : Sys α) (i k : Nat) : Prop :=
  (∃ x, p.prog i (s.thr i).res = .push k x) ∧ p.cap k ≤ (s.chan k).q.length ∧ (s.chan k).closed = false

/-- **C124** In a stuck network every thread has finished, waits for an element or waits for room. -/
theorem network_stuck_waits {p : Plan α} (ho : p.Owned) {s : Sys α} (h : Reach p s) (hs : Stuck p s) (i : Nat) :
    p.prog i (s.thr i).res = .stop ∨ ∃ k, WaitsPop p s i k ∨ WaitsPush p s i k := by
  have hi := inv_reach ho h
  obtain ⟨he, hn⟩ := stuck_abstract ho hi hs
  have hnot : ∀ k, ¬ (shut p (eff p s) k ≠ []) → (s.chan k).closed = false := fun k h0 => by
    have := fun hc => h0 ((hi.closed k).1 hc)
    simpa using this
  cases hp : p.prog i (s.thr i).res with
  | stop => exact .inl rfl
  | close k => exact absurd (.inr (.inr (.inr (.inr ⟨k, by rw [he]; exact hp, rfl⟩)))) (hn i .unit)
  | pop k =>
    refine .inr ⟨k, .inl ⟨hp, ?_, ?_⟩⟩
    · cases hq : (s.chan k).q with
      | nil => rfl
      | cons x rest =>
        exact absurd (.inl ⟨k, x, rest, by rw [he]; exact hp, rfl, by rw [hi.flow, hq]⟩) (hn i (.val (some x)))
    · apply hnot
      intro hne
      cases hq : (s.chan k).q with
      | nil => exact absurd (.inr (.inl ⟨k, by rw [he]; exact hp, rfl, hne, by rw [hi.flow, hq]; simp⟩)) (hn i (.val none))
      | cons x rest =>
        exact absurd (.inl ⟨k, x, rest, by rw [he]; exact hp, rfl, by rw [hi.flow, hq]⟩) (hn i (.val (some x)))
  | push k x =>
    have hop : ¬ (shut p (eff p s) k ≠ []) := fun hne =>
      absurd (.inr (.inr (.inr (.inl ⟨k, x, by rw [he]; exact hp, rfl, hne⟩)))) (hn i (.bool false))
    refine .inr ⟨k, .inr ⟨⟨x, hp⟩, ?_, hnot k hop⟩⟩
    by_contra hl
    refine absurd (.inr (.inr (.inl ⟨k, x, by rw [he]; exact hp, rfl, by simpa using hop, ?_⟩))) (hn i (.bool true))
    rw [hi.flow]; simp; omega

theorem mem_collect {β : Type} {g : List (Res α) → Res α → List β} {pre rs : List (Res α)} {r : Res α} (h : pre ++ [r] <+: rs)
    (hg : g pre r ≠ []) : collect g [] rs ≠ [] := by
  intro e
  have := collect_mono g h
  rw [e, collect_snoc] at this
  have := List.prefix_nil.1 this
  simp at this
  exact hg this.2

/-- **C124** The thread that an unfinished thread of a stuck network waits for is unfinished too, if it does not finish without
having closed the channel, or without having seen its end. -/
theorem network_waits_for {p : Plan α} (ho : p.Owned) {s : Sys α} (h : Reach p s) {i k : Nat} :
    (WaitsPop p s i k → ¬ HasClosed p (p.prod k) k (s.thr (p.prod k)).res) ∧
    (WaitsPush p s i k → ¬ SawEnd p (p.cons k) k (s.thr (p.cons k)).res) := by
  have hi := inv_reach ho h
  constructor
  · rintro ⟨-, -, hc⟩ ⟨pre, r, hpre, hpr⟩
    have : shut p (eff p s) k ≠ [] := mem_collect (hpre.trans (res_eff p s _)) (by simp [oneShut, hpr])
    have := (hi.closed k).2 this
    rw [hc] at this; simp at this
  · rintro ⟨-, -, hc⟩ ⟨pre, hpre, hpr⟩
    have hj := justified ho hi.areach _ pre _ (hpre.trans (res_eff p s _))
    rcases hj with ⟨k', x', hp, hr, -⟩ | ⟨k', hp, -, hne, -⟩ | ⟨k', x', hp, -⟩ | ⟨k', x', hp, -⟩ | ⟨k', hp, -⟩
    · simp at hr
    · rw [hpr] at hp; cases hp
      have := (hi.closed k).2 hne
      rw [hc] at this; simp at this
    · rw [hpr] at hp; cases hp
    · rw [hpr] at hp; cases hp
    · rw [hpr] at hp; cases hp

/-- A network of `n` threads and `m` channels whose graph is a forest: no channel from a thread to itself, and every thread
has at most one channel that joins it with a thread of a smaller number (any forest can be numbered like this; callers of
channel.hpp:58-194). -/
structure Forest (p : Plan α) (n m : Nat) : Prop where
  threads : ∀ i, n ≤ i → ∀ rs, p.prog i rs = .stop
  pops : ∀ i rs k, p.prog i rs = .pop k → k < m
  pushes : ∀ i rs k x, p.prog i rs = .push k x → k < m
  ends : ∀ k, k < m → p.prod k < n ∧ p.cons k < n ∧ p.prod k ≠ p.cons k
  parent : ∀ k k', k < m → k' < m → max (p.prod k) (p.cons k) = max (p.prod k') (p.cons k') → k = k'

/-- A thread that finishes has closed the channels it pushes into and has seen the end of those it pops from (a rule for callers
of channel.hpp:58-194). -/
def Tidy (p : Plan α) (m : Nat) : Prop :=
  ∀ s, Reach p s → ∀ j, p.prog j (s.thr j).res = .stop → ∀ k, k < m →
    (p.prod k = j → HasClosed p j k (s.thr j).res) ∧ (p.cons k = j → SawEnd p j k (s.thr j).res)

/-- **C124** A network whose graph is a forest does not deadlock: if it cannot go on, all threads have finished. Each channel has
one producer, which closes it, and one consumer, and room for at least one element; the threads close what they write and
read what they read to the end. -/
theorem network_forest_no_deadlock {p : Plan α} (ho : p.Owned) {n m : Nat} (hf : Forest p n m) (ht : Tidy p m)
    (hcap : ∀ k, k < m → 1 ≤ p.cap k) {s : Sys α} (h : Reach p s) (hs : Stuck p s) (i : Nat) :
    p.prog i (s.thr i).res = .stop := by
  -- an unfinished thread waits at a channel for another unfinished one
  have hwait : ∀ i, p.prog i (s.thr i).res ≠ .stop → ∃ k j, k < m ∧ p.prog j (s.thr j).res ≠ .stop ∧
      ((WaitsPop p s i k ∧ p.cons k = i ∧ p.prod k = j) ∨ (WaitsPush p s i k ∧ p.prod k = i ∧ p.cons k = j)) := by
    intro i hi
    rcases network_stuck_waits ho h hs i with e | ⟨k, hw | hw⟩
    · exact absurd e hi
    · have hk := hf.pops i _ k hw.1
      refine ⟨k, _, hk, fun e => (network_waits_for ho h).1 hw ((ht s h _ e k hk).1 rfl), .inl ⟨hw, ?_, rfl⟩⟩
      exact (ho i _).1 k hw.1
    · obtain ⟨x, hx⟩ := hw.1
      have hk := hf.pushes i _ k x hx
      refine ⟨k, _, hk, fun e => (network_waits_for ho h).2 hw ((ht s h _ e k hk).2 rfl), .inr ⟨hw, ?_, rfl⟩⟩
      exact (ho i _).2.1 k x hx
  -- two threads do not wait for each other at the same channel
  have hopp : ∀ i j k, k < m → ((WaitsPop p s i k ∧ p.cons k = i ∧ p.prod k = j) ∨ (WaitsPush p s i k ∧ p.prod k = i ∧ p.cons k = j)) →
      ((WaitsPop p s j k ∧ p.cons k = j) ∨ (WaitsPush p s j k ∧ p.prod k = j)) → False := by
    intro i j k hk h1 h2
    have hne := (hf.ends k hk).2.2
    have hc := hcap k hk
    rcases h1 with ⟨h1, c1, d1⟩ | ⟨h1, c1, d1⟩ <;> rcases h2 with ⟨h2, c2⟩ | ⟨h2, c2⟩
    · exact hne (d1.trans c2.symm)
    · have a := h1.2.1; have b := h2.2.1
      rw [a] at b; simp at b; omega
    · have a := h2.2.1; have b := h1.2.1
      rw [a] at b; simp at b; omega
    · exact hne (c2.trans d1.symm)
  -- no thread waits for one with a greater number
  have hup : ∀ d i k j, n - i = d → k < m → p.prog j (s.thr j).res ≠ .stop →
      ((WaitsPop p s i k ∧ p.cons k = i ∧ p.prod k = j) ∨ (WaitsPush p s i k ∧ p.prod k = i ∧ p.cons k = j)) → i < j → False := by
    intro d
    induction d using Nat.strongRecOn with
    | _ d ih =>
      intro i k j hd hk hj hw hlt
      obtain ⟨k', l, hk', hl, hw'⟩ := hwait j hj
      have he := hf.ends k hk
      have he' := hf.ends k' hk'
      have hmax : max (p.prod k) (p.cons k) = j := by
        rcases hw with ⟨-, c, d⟩ | ⟨-, c, d⟩ <;> omega
      by_cases hjl : j < l
      · refine ih (n - j) ?_ j k' l rfl hk' hl hw' hjl
        rcases hw with ⟨-, c, d⟩ | ⟨-, c, d⟩ <;> omega
      · have hmax' : max (p.prod k') (p.cons k') = j := by
          rcases hw' with ⟨-, c, d⟩ | ⟨-, c, d⟩ <;> omega
        have := hf.parent k k' hk hk' (hmax.trans hmax'.symm)
        subst this
        exact hopp i j k hk hw (hw'.imp (fun x => ⟨x.1, x.2.1⟩) (fun x => ⟨x.1, x.2.1⟩))
  -- so all wait for one with a smaller number
  by_contra hi
  induction i using Nat.strongRecOn with
  | _ i ih =>
    obtain ⟨k, j, hk, hj, hw⟩ := hwait i hi
    have he := hf.ends k hk
    rcases Nat.lt_trichotomy j i with hlt | heq | hgt
    · exact ih j hlt hj
    · rcases hw with ⟨-, c, d⟩ | ⟨-, c, d⟩ <;> omega
    · exact hup _ i k j rfl hk hj hw hgt

/-- **C124** If moreover every thread makes a bounded number of calls, then every execution can be continued until all threads have
finished, and every execution, apart from spurious wakeups, is bounded. -/
theorem network_forest_finishes {p : Plan α} (ho : p.Owned) {n m : Nat} (hf : Forest p n m) (ht : Tidy p m)
    (hcap : ∀ k, k < m → 1 ≤ p.cap k) {F : Nat → Nat} (hF : ∀ s i, Reach p s → (s.thr i).res.length ≤ F i) {s : Sys α}
    (h : Reach p s) :
    (∃ acts s', (∀ a ∈ acts, a.proper = true) ∧ exec p s acts = some s' ∧ ∀ i, p.prog i (s'.thr i).res = .stop) ∧
    ∀ acts s', (∀ a ∈ acts, a.proper = true) → exec p (start α) acts = some s' → acts.length ≤ 15 * total (fun i => F i + 2) n := by
  constructor
  · obtain ⟨acts, s', h1, h2, h3, h4⟩ := continue_to_stuck hf.threads ho hF h
    exact ⟨acts, s', h1, h2, network_forest_no_deadlock ho hf ht hcap h3 h4⟩
  · intro acts s' ha he
    have hb := exec_bound hf.threads ho hF acts _ _ ⟨[], rfl⟩ ha he
    have : ∀ n, total (load p F (start α)) n = 15 * total (fun i => F i + 2) n := by
      intro n
      induction n with
      | zero => rfl
      | succ n ih =>
        simp only [total, ih]
        simp [load, start, Sys.here, left]
        omega
    rw [this] at hb
    omega

/-! ### Examples -/

/-- Thread 0 sends the numbers 5 and 6 to threads 1 and 2, which read to the end (example for channel.hpp:58-194). -/
def fork : Plan Nat where
  cap _ := 1
  prod _ := 0
  cons k := k + 1
  prog i rs := match i with
    | 0 => match rs.length with
      | 0 => .push 0 5
      | 1 => .push 1 6
      | 2 => .close 0
      | 3 => .close 1
      | _ => .stop
    | 1 => if .val none ∈ rs then .stop else .pop 0
    | 2 => if .val none ∈ rs then .stop else .pop 1
    | _ => .stop

theorem fork_owned : fork.Owned := by
  intro i rs
  match i with
  | 0 => simp only [fork]; split <;> simp
  | 1 => simp only [fork]; split <;> simp
  | 2 => simp only [fork]; split <;> simp
  | n + 3 => simp [fork]

theorem fork_forest : Forest fork 3 2 where
  threads i hi rs := by
    match i, hi with
    | n + 3, _ => rfl
  pops i rs k := by
    match i with
    | 0 => simp only [fork]; split <;> simp
    | 1 => simp only [fork]; split <;> simp <;> omega
    | 2 => simp only [fork]; split <;> simp <;> omega
    | n + 3 => simp [fork]
  pushes i rs k x := by
    match i with
    | 0 => simp only [fork]; split <;> simp <;> omega
    | 1 => simp only [fork]; split <;> simp
    | 2 => simp only [fork]; split <;> simp
    | n + 3 => simp [fork]
  ends k hk := by simp [fork]; omega
  parent k k' _ _ e := by simp [fork] at e; omega

theorem fork_tidy : Tidy fork 2 := by
  intro s _ j hj k hk
  constructor
  · intro e
    have e0 : j = 0 := e.symm
    subst e0
    have hlen : 4 ≤ (s.thr 0).res.length := by
      by_contra hl
      have : ∀ l : Nat, l < 4 → (match l with | 0 => Req.push 0 5 | 1 => .push 1 6 | 2 => .close 0 | 3 => .close 1 | _ => .stop) ≠
        (Req.stop : Req Nat) := by decide
      exact this _ (by omega) hj
    generalize (s.thr 0).res = rs at hlen
    match rs, hlen with
    | a :: b :: c :: d :: rest, _ =>
      match k, hk with
      | 0, _ => exact ⟨[a, b], c, ⟨d :: rest, rfl⟩, rfl⟩
      | 1, _ => exact ⟨[a, b, c], d, ⟨rest, rfl⟩, rfl⟩
  · intro e
    have e0 : j = k + 1 := e.symm
    subst e0
    generalize (s.thr (k + 1)).res = rs at hj
    have hmem : .val none ∈ rs := by
      by_contra hn
      match k, hk with
      | 0, _ => simp [fork, hn] at hj
      | 1, _ => simp [fork, hn] at hj
    obtain ⟨as, bs, rfl, hno⟩ := List.eq_append_cons_of_mem hmem
    refine ⟨as, ⟨bs, by simp⟩, ?_⟩
    match k, hk with
    | 0, _ => simp [fork, hno]
    | 1, _ => simp [fork, hno]

theorem fork_run : (exec fork (start Nat) (sched fork 3 300 (start Nat))).map (fun s => (s.thr 0, s.thr 1, s.thr 2)) =
    some (⟨[.bool true, .bool true, .unit, .unit], false⟩, ⟨[.val (some 5), .val none], false⟩,
      ⟨[.val (some 6), .val none], false⟩) := by decide +kernel

/-- `fork` meets the hypotheses of `network_forest_no_deadlock`, and has executions that cannot go on. -/
example : (∃ s, Reach fork s ∧ Stuck fork s) ∧ ∀ s, Reach fork s → Stuck fork s → ∀ i, fork.prog i (s.thr i).res = .stop := by
  refine ⟨?_, fun s h hs => network_forest_no_deadlock fork_owned fork_forest fork_tidy (fun _ _ => Nat.le_refl _) h hs⟩
  have h := fork_run
  simp only [Option.map_eq_some_iff] at h
  obtain ⟨s, h1, h2⟩ := h
  simp only [Prod.mk.injEq] at h2
  refine ⟨s, ⟨_, h1⟩, ?_⟩
  intro i w
  match i with
  | 0 => simp [step, Sys.begin, Sys.run, h2.1, fork, Plan.callOf]
  | 1 => simp [step, Sys.begin, Sys.run, h2.2.1, fork, Plan.callOf]
  | 2 => simp [step, Sys.begin, Sys.run, h2.2.2, fork, Plan.callOf]
  | n + 3 =>
    have : ∀ rs, fork.callOf (n + 3) (fork.prog (n + 3) rs) = none := fun rs => rfl
    simp only [step, Sys.begin, Sys.run, this]
    cases (s.thr (n + 3)).inside <;> simp

/-- The calls of `fork` are bounded, so that `network_forest_finishes` applies: at most 4 calls of thread 0, at most 2 of the others. -/
example {s : Sys Nat} (h : Reach fork s) : ∃ acts s', exec fork s acts = some s' ∧ ∀ i, fork.prog i (s'.thr i).res = .stop := by
  have hr := fork_run
  simp only [Option.map_eq_some_iff] at hr
  obtain ⟨s0, h1, h2⟩ := hr
  simp only [Prod.mk.injEq] at h2
  have hF : ∀ s i, Reach fork s → (s.thr i).res.length ≤ (fun i => (s0.thr i).res.length) i := by
    intro s i hs
    refine (network_finished fork_owned (s := s0) (i := i) ⟨_, h1⟩ ?_ hs).length_le
    match i with
    | 0 => rw [h2.1]; rfl
    | 1 => rw [h2.2.1]; rfl
    | 2 => rw [h2.2.2]; rfl
    | n + 3 => rfl
  obtain ⟨⟨acts, s', -, h4, h5⟩, -⟩ := network_forest_finishes fork_owned fork_forest fork_tidy (fun _ _ => Nat.le_refl _) hF h
  exact ⟨acts, s', h4, h5⟩

/-- In the deadlock of `crossed` the threads wait for each other, at two channels: its graph is not a forest. -/
example : ∃ s, Reach (crossed.withCap fun _ => 1) s ∧ WaitsPush (crossed.withCap fun _ => 1) s 0 0 ∧
    WaitsPop (crossed.withCap fun _ => 1) s 1 1 := by
  have h1 : (exec (crossed.withCap fun _ => 1) (start Nat) (sched (crossed.withCap fun _ => 1) 2 300 (start Nat))).map
      (fun s => (s.thr 0, s.thr 1, (s.chan 0).q, (s.chan 0).closed, (s.chan 1).q, (s.chan 1).closed)) =
        some (⟨[.bool true], true⟩, ⟨[], true⟩, ([1] : List Nat), false, ([] : List Nat), false) := by decide +kernel
  have _u1 := @network_stuck_waits Nat (crossed.withCap fun _ => 1) crossed_owned
  have _u2 := @network_waits_for Nat (crossed.withCap fun _ => 1) crossed_owned
  simp only [Option.map_eq_some_iff] at h1
  obtain ⟨s, h1, e1⟩ := h1
  simp only [Prod.mk.injEq] at e1
  obtain ⟨a1, a2, a3, a4, a5, a6⟩ := e1
  exact ⟨s, ⟨_, h1⟩, ⟨⟨2, by rw [a1]; rfl⟩, by rw [a3]; simp [Plan.withCap], a4⟩, by rw [a2]; rfl, a5, a6⟩

end Verif.Net
