import Verif.Exchange.LiveLemmas
import Verif.Channel.LiveExec

/-! Lemmas about executions, and periodic executions, for `LiveProps.lean`. -/
namespace Verif.Exchange

open Verif.Channel (Op Res Ev Act lt_of_getElem? getElem?_set' countP_set' le_ind eventually_const)
open Verif.Channel.Exec (leaves)

variable {α : Type} {cfg : Cfg} {n : Nat}

namespace Exec

theorem reach (e : Exec cfg α n) : ∀ i, Reachable cfg n (e.st i)
  | 0 => ⟨[], by rw [e.start]; rfl⟩
  | i + 1 => by
    obtain ⟨as, h⟩ := reach e i
    rcases e.ok i with ⟨_, h1⟩ | ⟨a, _, h1⟩
    · exact ⟨as, by rw [h, h1]⟩
    · refine ⟨as ++ [a], ?_⟩
      have : ∀ (l : List (Act α)) (s : St α), run cfg s l = some (e.st i) → run cfg s (l ++ [a]) = some (e.st (i + 1)) := by
        intro l
        induction l with
        | nil => intro s h; simp [run] at h; subst h; simp [run, h1]
        | cons b l ih =>
          intro s h
          simp only [run, Option.bind_eq_some_iff, List.cons_append] at h ⊢
          obtain ⟨s1, h2, h3⟩ := h
          exact ⟨s1, h2, ih s1 h3⟩
      exact this as _ h

theorem cases (e : Exec cfg α n) (i : Nat) : e.st (i + 1) = e.st i ∨ Step cfg (e.st i) (e.st (i + 1)) := by
  rcases e.ok i with ⟨_, h⟩ | ⟨a, _, h⟩
  · exact .inl h
  · exact .inr (next_step h)

/-- The position of thread `u` at instant `i` (about exchange_channel.hpp:53-149). -/
def pc (e : Exec cfg α n) (i u : Nat) : PC α := ((e.st i).pcs[u]?).getD .idle

theorem pc_eq (e : Exec cfg α n) {i u : Nat} (hu : u < n) : (e.st i).pcs[u]? = some (e.pc i u) := by
  unfold pc
  rw [List.getElem?_eq_getElem (by rw [reachable_length (e.reach i)]; exact hu)]; rfl

theorem lt_of_pc (e : Exec cfg α n) {i u : Nat} {p : PC α} (h : (e.st i).pcs[u]? = some p) : u < n := by
  have := lt_of_getElem? h; rwa [reachable_length (e.reach i)] at this

/-- A thread that stays inside a member function and awake, and that can run again and again, cannot exist. -/
theorem active_ready (e : Exec cfg α n) (hf : e.Fair) {u N : Nat} (hu : u < n)
    (ha : ∀ i, N ≤ i → (e.pc i u).active = true) (hr : ∀ M, ∃ i, M ≤ i ∧ Ready cfg (e.st i) u) : False := by
  have hmono : ∀ i, N ≤ i → rank n (e.pc (i + 1) u) ≤ rank n (e.pc i u) := by
    intro i hi
    rcases e.cases i with h | h
    · rw [show e.pc (i + 1) u = e.pc i u by unfold pc; rw [h]]; exact Nat.le_refl _
    · obtain ⟨p', h1, h2⟩ := step_active (n := n) h (e.pc_eq hu) (ha i hi)
      rw [e.pc_eq hu] at h1
      injection h1 with h1; subst h1
      rcases h2 with h2 | h2
      · rw [h2]; exact Nat.le_refl _
      · omega
  obtain ⟨M, hM, hc⟩ := eventually_const (f := fun i => rank n (e.pc i u)) hmono
  obtain ⟨i, hi, a, h1, h2⟩ := hf u hr M
  rcases e.ok i with ⟨h3, _⟩ | ⟨a', h3, h4⟩
  · rw [h1] at h3; cases h3
  · rw [h1] at h3; injection h3 with h3; subst h3
    obtain ⟨p, p', h5, h6, h7⟩ := by_rank (n := n) h4 h2
    rw [e.pc_eq hu] at h5 h6
    injection h5 with h5; injection h6 with h6; subst h5; subst h6
    have a1 := hc i hi
    have a2 := hc (i + 1) (by omega)
    omega

/-- The mutex is free again and again. -/
theorem mutex_free (e : Exec cfg α n) (hf : e.Fair) (N : Nat) : ∃ i, N ≤ i ∧ (e.st i).owner = none := by
  apply Classical.byContradiction
  intro hno
  have hne : ∀ i, N ≤ i → (e.st i).owner ≠ none := fun i hi h => hno ⟨i, hi, h⟩
  obtain ⟨u, hu⟩ := Option.ne_none_iff_exists'.mp (hne N (Nat.le_refl _))
  have hown : ∀ i, N ≤ i → (e.st i).owner = some u := by
    intro i hi
    induction i, hi using le_ind with
    | base => exact hu
    | succ i hi ih =>
      rcases e.cases i with h | h
      · rw [h]; exact ih
      · have h2 := hne (i + 1) (by omega)
        generalize e.st (i + 1) = s' at *
        cases h with
        | loc hp hl =>
          dsimp only at h2 ⊢
          exact (hl.owner_kept ih).resolve_left h2
        | _ => exact ih
  have hlt : u < n := by
    have := (lockInv_reach (e.reach N)).2 u hu
    rwa [reachable_length (e.reach N)] at this
  have hh : ∀ i, N ≤ i → (e.pc i u).holds = true := fun i hi =>
    ((lockInv_reach (e.reach i)).1 u _ (e.pc_eq hlt)).mpr (hown i hi)
  have hact : ∀ i, N ≤ i → (e.pc i u).active = true := by
    intro i hi
    have := hh i hi
    revert this
    generalize e.pc i u = p
    cases p <;> simp [PC.holds, PC.active]
  exact e.active_ready hf hlt hact (fun M =>
    ⟨max M N, by omega, ready_of (e.pc_eq hlt) (hact _ (by omega)) (.inr (hh _ (by omega)))⟩)

/-- Every thread is outside the channel or asleep again and again. -/
theorem rests (e : Exec cfg α n) (hf : e.Fair) {u : Nat} (hu : u < n) (N : Nat) :
    ∃ i, N ≤ i ∧ (e.pc i u).active = false := by
  apply Classical.byContradiction
  intro hno
  have ha : ∀ i, N ≤ i → (e.pc i u).active = true := by
    intro i hi
    cases h : (e.pc i u).active with
    | true => rfl
    | false => exact absurd ⟨i, hi, h⟩ hno
  refine e.active_ready hf hu ha (fun M => ?_)
  obtain ⟨i, hi, ho⟩ := e.mutex_free hf (max M N)
  exact ⟨i, by omega, ready_of (e.pc_eq hu) (ha i (by omega)) (.inl ho)⟩

theorem pc_some (e : Exec cfg α n) {i u : Nat} {p : PC α} (h : (e.st i).pcs[u]? = some p) : e.pc i u = p := by
  rw [pc, h]; rfl

theorem pc_stutter (e : Exec cfg α n) {i : Nat} (h : e.st (i + 1) = e.st i) (u : Nat) : e.pc (i + 1) u = e.pc i u := by
  rw [pc, pc, h]

/-- A thread that is inside a member function and later outside has returned in between. -/
theorem returns_of_idle (e : Exec cfg α n) {i j t : Nat} (ht : t < n) (hi : e.pc i t ≠ .idle) (hij : i ≤ j)
    (hj : e.pc j t = .idle) : ∃ k r, i ≤ k ∧ e.Returns k t r := by
  obtain ⟨k, h1, h2, h3⟩ := leaves (P := fun k => e.pc k t ≠ .idle) hi (by simp [hj]) hij
  have h3 : e.pc (k + 1) t = .idle := Classical.byContradiction h3
  rcases e.cases k with h | h
  · rw [e.pc_stutter h] at h3; exact absurd h3 h2
  · obtain ⟨r, hr⟩ := step_returns h (e.pc_eq ht) h2 (by rw [e.pc_eq ht, h3])
    exact ⟨k, r, h1, hr⟩

theorem of_calls (e : Exec cfg α n) {i t : Nat} {op : Op α} (h : e.Calls i t op) :
    t < n ∧ entry op = some (e.pc (i + 1) t) := by
  rcases e.cases i with h1 | h1
  · rw [Calls, h1] at h; simp at h
  · obtain ⟨pc, h2, h3⟩ := step_calls h1 h
    exact ⟨e.lt_of_pc h3, by rw [h2, e.pc_some h3]⟩

theorem entry_ne_idle {op : Op α} {pc : PC α} (h : entry op = some pc) : pc ≠ .idle := by
  cases op <;> simp [entry] at h <;> subst h <;> simp

/-- A call that cannot sleep any more returns. -/
theorem returns_awake (e : Exec cfg α n) (hf : e.Fair) {i t : Nat} (ht : t < n) (hi : e.pc i t ≠ .idle)
    (hm : (e.pc i t).waits = false) : ∃ k r, i ≤ k ∧ e.Returns k t r := by
  by_cases hid : ∃ j, i ≤ j ∧ e.pc j t = .idle
  · obtain ⟨j, hij, hj⟩ := hid
    exact e.returns_of_idle ht hi hij hj
  · have hne : ∀ j, i ≤ j → e.pc j t ≠ .idle := fun j hj h => hid ⟨j, hj, h⟩
    have hms : ∀ j, i ≤ j → (e.pc j t).waits = false := by
      intro j hj
      induction j, hj using le_ind with
      | base => exact hm
      | succ j hj ih =>
        rcases e.cases j with h | h
        · rw [e.pc_stutter h]; exact ih
        · obtain ⟨p, h1, h2⟩ := step_waits_no h (e.pc_eq ht) (hne j hj) ih
          rw [e.pc_some h1]; exact h2
    obtain ⟨j, hj, ha⟩ := e.rests hf ht i
    have h1 := hms j hj
    have h2 := hne j hj
    revert ha h1 h2
    generalize e.pc j t = p
    cases p <;> simp [PC.active, PC.waits]

theorem closed_mono (e : Exec cfg α n) {i j : Nat} (h : (e.st i).closed = true) (hij : i ≤ j) :
    (e.st j).closed = true := by
  induction j, hij using le_ind with
  | base => exact h
  | succ j hj ih =>
    rcases e.cases j with h | h
    · rw [h]; exact ih
    · exact step_closed h ih

theorem closed_of (e : Exec cfg α n) {i : Nat} (h : e.Closed i) : (e.st i).closed = true := by
  obtain ⟨t, ht⟩ := h
  exact (explains_reach (e.reach i)).closed_of_mem ht

theorem avail_iff (e : Exec cfg α n) (i : Nat) : e.Avail i ↔ (e.st i).slot ≠ none := by
  have h := explains_reach (e.reach i)
  constructor
  · rintro ⟨v, c, h'⟩ h0
    have := h.det h'
    rw [h0] at this; cases this
  · intro h0
    obtain ⟨v, hv⟩ := Option.ne_none_iff_exists'.mp h0
    rw [hv] at h
    exact ⟨v, _, h⟩

/-- Waiting for ever for a value: where the thread is. -/
theorem waits_stays (e : Exec cfg α n) (hf : e.Fair) {i t : Nat} (ht : t < n) (hw : (e.pc i t).waits = true)
    (hno : ¬ ∃ k r, i ≤ k ∧ e.Returns k t r) : ∀ j, i ≤ j → (e.pc j t).waits = true := by
  intro j hj
  induction j, hj using le_ind with
  | base => exact hw
  | succ j hj ih =>
    rcases e.cases j with h | h
    · rw [e.pc_stutter h]; exact ih
    · rcases step_waits h (e.pc_eq ht) ih with h1 | ⟨p, h1, h2, _⟩
      · have h2 := e.pc_some h1
        obtain ⟨k, r, h3, h4⟩ := e.returns_awake hf (i := j + 1) ht (by rw [h2]; simp) (by rw [h2]; rfl)
        exact absurd ⟨k, r, by omega, h4⟩ hno
      · rw [e.pc_some h1]; exact h2

/-- A pop that waits for ever although from `M` on it would not go to sleep sleeps from `M` on. -/
theorem waits_asleep (e : Exec cfg α n) (hf : e.Fair) {M t : Nat} (ht : t < n)
    (hw : ∀ j, M ≤ j → (e.pc j t).waits = true) (hq : ∀ j, M ≤ j → (e.st j).slot ≠ none ∨ (e.st j).closed = true) :
    ∀ j, M ≤ j → e.pc j t = .pSleep := by
  intro j hj
  apply Classical.byContradiction
  intro hne
  have hstay : ∀ k, j ≤ k → e.pc k t ≠ .pSleep := by
    intro k hk
    induction k, hk using le_ind with
    | base => exact hne
    | succ k hk ih =>
      rcases e.cases k with h | h
      · rw [e.pc_stutter h]; exact ih
      · rcases step_waits h (e.pc_eq ht) (hw k (by omega)) with h1 | ⟨p, h1, h2, h3⟩
        · rw [e.pc_some h1]; simp
        · rw [e.pc_some h1]
          intro hp
          rcases h3 hp with h4 | ⟨h4, h5⟩
          · exact ih h4
          · rcases hq k (by omega) with h6 | h6
            · exact h6 h4
            · rw [h5] at h6; cases h6
  obtain ⟨k, hk, ha⟩ := e.rests hf ht j
  have h1 := hw k (by omega)
  have h2 := hstay k hk
  revert ha h1 h2
  generalize e.pc k t = p
  cases p <;> simp [PC.active, PC.waits]

theorem find_pc (e : Exec cfg α n) {i : Nat} {p : PC α → Bool} (h : 0 < (e.st i).pcs.countP p) :
    ∃ u, u < n ∧ p (e.pc i u) = true := by
  rw [List.countP_pos_iff] at h
  obtain ⟨pc, hm, hp⟩ := h
  obtain ⟨u, hu⟩ := List.mem_iff_getElem?.mp hm
  exact ⟨u, e.lt_of_pc hu, by rw [e.pc_some hu]; exact hp⟩

theorem count_pos (e : Exec cfg α n) {i u : Nat} {p : PC α → Bool} (hu : u < n) (h : p (e.pc i u) = true) :
    0 < (e.st i).pcs.countP p := countP_pos_of (e.pc_eq hu) h

/-- A thread at a position of `p`, all of which are awake positions inside a member function, comes to a transition out of `p`. -/
theorem passes (e : Exec cfg α n) (hf : e.Fair) {p : PC α → Bool} (hp : ∀ x, p x = true → x.active = true) {M u : Nat}
    (hu : u < n) (h : p (e.pc M u) = true) : ∃ k, M ≤ k ∧ Step cfg (e.st k) (e.st (k + 1)) ∧ p (e.pc k u) = true ∧
      p (e.pc (k + 1) u) = false := by
  obtain ⟨j, hj, ha⟩ := e.rests hf hu M
  obtain ⟨k, h1, h2, h3⟩ := leaves (P := fun k => p (e.pc k u) = true) h (by
    intro hx; rw [hp _ hx] at ha; cases ha) hj
  refine ⟨k, h1, ?_, h2, by simpa using h3⟩
  rcases e.cases k with h | h
  · rw [e.pc_stutter h] at h3; exact absurd h2 h3
  · exact h

theorem cl_active : ∀ x : PC α, isCl x = true → x.active = true := by intro x; cases x <;> simp [isCl, PC.active]
theorem nt_active : ∀ x : PC α, isNt x = true → x.active = true := by intro x; cases x <;> simp [isNt, PC.active]
theorem pop_active : ∀ x : PC α, isPop x = true → x.active = true := by intro x; cases x <;> simp [isPop, PC.active]

/-- A pop does not sleep for ever on a closed channel. -/
theorem closed_wakes (e : Exec cfg α n) (hf : e.Fair) {M t : Nat} (ht : t < n)
    (hs : ∀ j, M ≤ j → e.pc j t = .pSleep) (hc : (e.st M).closed = true) : False := by
  have h0 : 0 < (e.st M).pcs.countP PC.asleep := e.count_pos ht (by rw [hs M (Nat.le_refl _)]; rfl)
  obtain ⟨u, hu, hcl⟩ := e.find_pc (wakeC_reach (e.reach M) hc h0)
  obtain ⟨k, hk, hst, h1, h2⟩ := e.passes hf cl_active hu hcl
  have h3 := step_cl hst (e.pc_eq hu) h1 (e.pc_eq hu) h2
  have h4 : 0 < (e.st (k + 1)).pcs.countP PC.asleep := e.count_pos ht (by rw [hs _ (by omega)]; rfl)
  omega

/-- A pop does not sleep for ever while there always is a value. -/
theorem avail_wakes (e : Exec cfg α n) (hf : e.Fair) (hm : cfg.moveThrow = false) {M t : Nat} (ht : t < n)
    (hs : ∀ j, M ≤ j → e.pc j t = .pSleep) (hq : ∀ j, M ≤ j → (e.st j).slot ≠ none) : False := by
  have hopen : ∀ j, M ≤ j → (e.st j).closed = false := by
    intro j hj
    cases hc : (e.st j).closed with
    | false => rfl
    | true => exact (e.closed_wakes hf ht (fun k hk => hs k (by omega)) hc).elim
  have hpos : ∀ j, M ≤ j → 0 < (e.st j).pcs.countP PC.asleep := fun j hj => e.count_pos ht (by rw [hs j hj]; rfl)
  -- no consumer goes to sleep any more
  obtain ⟨M1, hM1, hconst⟩ := eventually_const (f := fun j => (e.st j).pcs.countP PC.asleep) (N := M) (by
    intro j hj
    rcases e.cases j with h | h
    · rw [h]; exact Nat.le_refl _
    · exact step_asleep h (.inl (hq j hj)))
  -- so nobody is about to notify
  have hnt : ∀ j, M1 ≤ j → ∀ u, u < n → isNt (e.pc j u) = false := by
    intro j hj u hu
    cases hx : isNt (e.pc j u) with
    | false => rfl
    | true =>
      obtain ⟨k, hk, hst, h1, h2⟩ := e.passes hf nt_active hu hx
      rcases step_nt hst (e.pc_eq hu) h1 (e.pc_eq hu) h2 with h3 | h3
      · exact absurd (hs k (by omega)) (h3 _ (List.mem_of_getElem? (e.pc_eq ht)))
      · have a := hconst k (by omega)
        have b := hconst (k + 1) (by omega)
        omega
  -- so there is a consumer that is about to empty the slot
  have hw := (wake_reach hm (e.reach M1)).1 (hopen M1 hM1) (hpos M1 hM1) (hq M1 hM1)
  obtain ⟨u, hu, htok⟩ := e.find_pc hw
  have hpop : isPop (e.pc M1 u) = true := by
    have := hnt M1 (Nat.le_refl _) u hu
    revert this htok
    generalize e.pc M1 u = p
    cases p <;> simp [isTok, isNt, isPop]
  obtain ⟨k, hk, hst, h1, h2⟩ := e.passes hf pop_active hu hpop
  exact hq (k + 1) (by omega) (step_isPop hm hst (e.pc_eq hu) h1 (e.pc_eq hu) h2 (hq k (by omega)))

theorem sole_cons (e : Exec cfg α n) {t : Nat} (hs : e.SoleConsumer t) : ∀ i u, u < n → isCons (e.pc i u) = true → u = t
  | 0, u, hu, h => by
    rw [pc, e.start] at h
    simp [init, hu, isCons] at h
  | i + 1, u, hu, h => by
    rcases e.cases i with h1 | h1
    · rw [e.pc_stutter h1] at h; exact sole_cons e hs i u hu h
    · rcases step_cons h1 (e.pc_eq hu) (e.pc_eq hu) h with h2 | ⟨op, h2, h3⟩
      · exact sole_cons e hs i u hu h2
      · rcases h2 with rfl | rfl
        · exact hs i u (.inl h3)
        · exact hs i u (.inr h3)

theorem sole_avail (e : Exec cfg α n) (hct : cfg.ctorThrow = false) {t M : Nat} (hs : e.SoleConsumer t)
    (hw : ∀ j, M ≤ j → (e.pc j t).waits = true) (hq : (e.st M).slot ≠ none) : ∀ j, M ≤ j → (e.st j).slot ≠ none := by
  intro j hj
  induction j, hj using le_ind with
  | base => exact hq
  | succ j hj ih =>
    rcases e.cases j with h | h
    · rw [h]; exact ih
    · intro h0
      obtain ⟨u, hu⟩ := step_removes hct h ih h0
      have hc : u = t := by
        rcases hu with hu | hu
        · exact e.sole_cons hs j u (e.lt_of_pc hu) (by rw [e.pc_some hu]; rfl)
        · exact e.sole_cons hs j u (e.lt_of_pc hu) (by rw [e.pc_some hu]; rfl)
      subst hc
      have := hw j hj
      rcases hu with hu | hu <;> rw [e.pc_some hu] at this <;> simp [PC.waits] at this

/-- After a return the thread is outside the channel. -/
theorem of_returns (e : Exec cfg α n) {i t : Nat} {r : Res α} (h : e.Returns i t r) : e.pc (i + 1) t = .idle := by
  rcases e.cases i with h1 | h1
  · rw [Returns, h1] at h; simp at h
  · unfold Returns at h
    apply e.pc_some
    generalize e.st (i + 1) = s' at *
    generalize e.st i = s at *
    cases h1 with
    | loc hp hl =>
      rename_i u p q' c' o' p' es
      dsimp only at h ⊢
      have hes := List.append_cancel_left h
      generalize s.slot = q0, s.closed = c0, s.owner = o0 at hl
      cases hl <;> simp at hes
      obtain ⟨rfl, rfl⟩ := hes
      exact List.getElem?_set_self (lt_of_getElem? hp)
    | _ => simp at h

end Exec

/-- A state without the ghost history (exchange_channel.hpp:31-35). -/
def core (s : St α) : St α := { s with hist := [] }

theorem core_eq {s x : St α} (h : core s = core x) :
    s.slot = x.slot ∧ s.closed = x.closed ∧ s.owner = x.owner ∧ s.pcs = x.pcs := by
  simp only [core, St.mk.injEq, and_true] at h
  exact h

theorem notifyOne_core (s : St α) (w : Option Nat) :
    (notifyOne s w).map core = (notifyOne (core s) w).map core := by
  unfold notifyOne core
  cases w with
  | none => dsimp only; split <;> rfl
  | some i =>
    dsimp only
    cases s.pcs[i]? with
    | none => rfl
    | some p => cases p <;> rfl

theorem stepAt_core (s : St α) (t : Nat) (w : Option Nat) (pc : PC α) :
    (stepAt s t w pc).map core = (stepAt (core s) t w pc).map core := by
  cases pc
  case sNotify op =>
    simp only [stepAt, Option.map_map]
    have := notifyOne_core s w
    cases h1 : notifyOne s w <;> cases h2 : notifyOne (core s) w <;> rw [h1, h2] at this <;> simp at this ⊢
    obtain ⟨a, b, c, d⟩ := core_eq this
    simp [core, St.goto, a, b, c, d]
  all_goals
    obtain ⟨q, c, o, pcs, h⟩ := s
    rw [show core (⟨q, c, o, pcs, h⟩ : St α) = ⟨q, c, o, pcs, []⟩ from rfl]
    simp only [stepAt, acquire, release, St.goto, St.log]
  all_goals first
    | rfl
    | (cases o <;> rfl)
    | (cases q <;> rfl)
    | (split <;> rfl)

theorem throwAt_core (s : St α) (t : Nat) (pc : PC α) :
    (throwAt cfg s t pc).map core = (throwAt cfg (core s) t pc).map core := by
  obtain ⟨q, c, o, pcs, h⟩ := s
  rw [show core (⟨q, c, o, pcs, h⟩ : St α) = ⟨q, c, o, pcs, []⟩ from rfl]
  cases pc <;> simp only [throwAt, St.goto, St.log] <;> first | rfl | (split <;> rfl)

/-- The history does not influence what happens. -/
theorem next_core (s : St α) (a : Act α) : (next cfg s a).map core = (next cfg (core s) a).map core := by
  cases a with
  | call t op =>
    simp only [next, core]
    cases s.pcs[t]? with
    | none => rfl
    | some p => cases p <;> cases op <;> rfl
  | spurious t =>
    simp only [next, core]
    cases s.pcs[t]? with
    | none => rfl
    | some p => cases p <;> rfl
  | stale t =>
    simp only [next, core]
    cases s.pcs[t]? with
    | none => rfl
    | some p => cases p <;> rfl
  | step t w =>
    simp only [next]
    rw [show (core s).pcs = s.pcs from rfl]
    cases s.pcs[t]? with
    | none => rfl
    | some p => exact stepAt_core s t w p
  | throw t =>
    simp only [next]
    rw [show (core s).pcs = s.pcs from rfl]
    cases s.pcs[t]? with
    | none => rfl
    | some p => exact throwAt_core s t p

theorem next_of_core {s x y : St α} {a : Act α} (hc : core s = core x) (h : next cfg x a = some y) :
    ∃ s', next cfg s a = some s' ∧ core s' = core y := by
  have h1 := next_core (cfg := cfg) s a
  have h2 := next_core (cfg := cfg) x a
  rw [hc, ← h2, h] at h1
  cases h3 : next cfg s a with
  | none => rw [h3] at h1; simp at h1
  | some s' => rw [h3] at h1; simp at h1; exact ⟨s', rfl, h1⟩

/-- The action at instant `i`: first the prefix, then the loop again and again (schedules of exchange_channel.hpp:53-149). -/
def lassoAct (P C : List (Act α)) (i : Nat) : Option (Act α) :=
  if i < P.length then P[i]? else C[(i - P.length) % C.length]?

/-- The states of the periodic execution (executions of exchange_channel.hpp:53-149). -/
def lassoSt (cfg : Cfg) (n : Nat) (P C : List (Act α)) : Nat → St α
  | 0 => init α n
  | i + 1 => match lassoAct P C i with
    | none => lassoSt cfg n P C i
    | some a => (next cfg (lassoSt cfg n P C i) a).getD (lassoSt cfg n P C i)

theorem run_take_succ {s x : St α} {l : List (Act α)} {k : Nat} {a : Act α} (h : run cfg s (l.take k) = some x)
    (ha : l[k]? = some a) : run cfg s (l.take (k + 1)) = next cfg x a := by
  induction l generalizing s k with
  | nil => simp at ha
  | cons b l ih =>
    cases k with
    | zero =>
      simp at ha; subst ha
      simp [run] at h; subst h
      simp only [List.take_succ_cons, List.take_zero, run]
      cases next cfg s b <;> rfl
    | succ k =>
      simp only [List.take_succ_cons, run, Option.bind_eq_some_iff] at h
      obtain ⟨s1, h1, h2⟩ := h
      simp only [List.getElem?_cons_succ] at ha
      rw [List.take_succ_cons, run, h1]
      exact ih h2 ha

theorem run_take_some {s x : St α} {l : List (Act α)} (h : run cfg s l = some x) (k : Nat) :
    ∃ y, run cfg s (l.take k) = some y := by
  induction l generalizing s k with
  | nil => simp [run]
  | cons b l ih =>
    simp only [run, Option.bind_eq_some_iff] at h
    obtain ⟨s1, h1, h2⟩ := h
    cases k with
    | zero => simp [run]
    | succ k =>
      obtain ⟨y, hy⟩ := ih h2 k
      exact ⟨y, by rw [List.take_succ_cons, run, h1]; exact hy⟩

section
variable {P C : List (Act α)} {s0 s1 : St α}

theorem lasso_prefix (hP : run cfg (init α n) P = some s0) : ∀ i, i ≤ P.length →
    run cfg (init α n) (P.take i) = some (lassoSt cfg n P C i)
  | 0, _ => by simp [run, lassoSt]
  | i + 1, hi => by
    have ih := lasso_prefix hP i (by omega)
    have ha : P[i]? = some P[i] := List.getElem?_eq_getElem (by omega)
    have h1 := run_take_succ ih ha
    obtain ⟨y, hy⟩ := run_take_some hP (i + 1)
    rw [hy] at h1
    rw [hy, lassoSt, lassoAct, if_pos (by omega), ha]
    dsimp only
    rw [← h1]; rfl

theorem lasso_loop (hP : run cfg (init α n) P = some s0) (hC : run cfg s0 C = some s1) (hs : core s1 = core s0)
    (hpos : 0 < C.length) (m : Nat) :
    ∃ x, run cfg s0 (C.take (m % C.length)) = some x ∧ core (lassoSt cfg n P C (P.length + m)) = core x := by
  induction m with
  | zero =>
    refine ⟨s0, by simp [run], ?_⟩
    have := lasso_prefix (C := C) hP P.length (Nat.le_refl _)
    rw [List.take_length, hP] at this
    injection this with this
    rw [Nat.add_zero, ← this]
  | succ m ih =>
    obtain ⟨x, h1, h2⟩ := ih
    have hr : m % C.length < C.length := Nat.mod_lt _ hpos
    have ha : C[m % C.length]? = some C[m % C.length] := List.getElem?_eq_getElem hr
    have h3 := run_take_succ h1 ha
    obtain ⟨y, hy⟩ := run_take_some hC (m % C.length + 1)
    rw [hy] at h3
    obtain ⟨s', h4, h5⟩ := next_of_core h2 h3.symm
    have h6 : lassoSt cfg n P C (P.length + (m + 1)) = s' := by
      rw [← Nat.add_assoc, lassoSt, lassoAct, if_neg (by omega), Nat.add_sub_cancel_left, ha]
      dsimp only
      rw [h4]; rfl
    rw [h6, h5]
    by_cases hm : m % C.length + 1 = C.length
    · rw [hm, List.take_length, hC] at hy
      injection hy with hy; subst hy
      have : (m + 1) % C.length = 0 := by
        have h7 := Nat.div_add_mod m C.length
        rw [show m + 1 = C.length * (m / C.length + 1) by rw [Nat.mul_add]; omega]
        exact Nat.mul_mod_right _ _
      exact ⟨s0, by rw [this]; simp [run], hs⟩
    · have : (m + 1) % C.length = m % C.length + 1 := by
        have h7 := Nat.div_add_mod m C.length
        rw [show m + 1 = m % C.length + 1 + C.length * (m / C.length) by omega, Nat.add_mul_mod_self_left]
        exact Nat.mod_eq_of_lt (by omega)
      exact ⟨y, by rw [this]; exact hy, rfl⟩

/-- The periodic execution (executions of exchange_channel.hpp:53-149). -/
def lasso (hP : run cfg (init α n) P = some s0) (hC : run cfg s0 C = some s1) (hs : core s1 = core s0)
    (hpos : 0 < C.length) : Exec cfg α n where
  st := lassoSt cfg n P C
  act := lassoAct P C
  start := rfl
  ok := by
    intro i
    right
    by_cases hi : i < P.length
    · have ha : P[i]? = some P[i] := List.getElem?_eq_getElem hi
      have ih := lasso_prefix (C := C) hP i (by omega)
      have h1 := run_take_succ ih ha
      obtain ⟨y, hy⟩ := run_take_some hP (i + 1)
      have h2 := lasso_prefix (C := C) hP (i + 1) (by omega)
      exact ⟨P[i], by rw [lassoAct, if_pos hi, ha], by rw [← h1, h2]⟩
    · obtain ⟨m, rfl⟩ : ∃ m, i = P.length + m := ⟨i - P.length, by omega⟩
      obtain ⟨x, h1, h2⟩ := lasso_loop hP hC hs hpos m
      have hr : m % C.length < C.length := Nat.mod_lt _ hpos
      have ha : C[m % C.length]? = some C[m % C.length] := List.getElem?_eq_getElem hr
      have h3 := run_take_succ h1 ha
      obtain ⟨y, hy⟩ := run_take_some hC (m % C.length + 1)
      rw [hy] at h3
      obtain ⟨s', h4, h5⟩ := next_of_core h2 h3.symm
      refine ⟨C[m % C.length], by rw [lassoAct, if_neg hi, Nat.add_sub_cancel_left, ha], ?_⟩
      rw [lassoSt, lassoAct, if_neg hi, Nat.add_sub_cancel_left, ha]
      dsimp only
      rw [h4]; rfl

/-- Every position of the loop comes again and again. -/
theorem lasso_again (hP : run cfg (init α n) P = some s0) (hC : run cfg s0 C = some s1) (hs : core s1 = core s0)
    (hpos : 0 < C.length) {r : Nat} (hr : r < C.length) {a : Act α} (ha : C[r]? = some a) {x : St α}
    (hx : run cfg s0 (C.take r) = some x) (N : Nat) :
    ∃ i, N ≤ i ∧ P.length ≤ i ∧ (lasso hP hC hs hpos).act i = some a ∧ core ((lasso hP hC hs hpos).st i) = core x := by
  have hm : (C.length * N + r) % C.length = r := by
    rw [Nat.mul_add_mod]; exact Nat.mod_eq_of_lt hr
  refine ⟨P.length + (C.length * N + r), ?_, by omega, ?_, ?_⟩
  · have : N ≤ C.length * N := Nat.le_mul_of_pos_left N hpos
    omega
  · show lassoAct P C _ = _
    rw [lassoAct, if_neg (by omega), Nat.add_sub_cancel_left, hm, ha]
  · obtain ⟨y, h1, h2⟩ := lasso_loop hP hC hs hpos (C.length * N + r)
    rw [hm, hx] at h1
    injection h1 with h1; subst h1
    exact h2

/-- What holds at all positions of the loop holds from the end of the prefix on. -/
theorem lasso_always (hP : run cfg (init α n) P = some s0) (hC : run cfg s0 C = some s1) (hs : core s1 = core s0)
    (hpos : 0 < C.length) {Q : St α → Prop} (hQ : ∀ r < C.length, ∀ x, run cfg s0 (C.take r) = some x → Q (core x))
    {i : Nat} (hi : P.length ≤ i) : Q (core ((lasso hP hC hs hpos).st i)) := by
  obtain ⟨m, rfl⟩ : ∃ m, i = P.length + m := ⟨i - P.length, by omega⟩
  obtain ⟨y, h1, h2⟩ := lasso_loop hP hC hs hpos m
  show Q (core (lassoSt cfg n P C (P.length + m)))
  rw [h2]
  exact hQ _ (Nat.mod_lt _ hpos) y h1

end

/-- A periodic execution is fair if every thread takes part in the loop. -/
theorem lasso_fair {P C : List (Act α)} {s0 s1 : St α} (hP : run cfg (init α n) P = some s0)
    (hC : run cfg s0 C = some s1) (hs : core s1 = core s0) (hpos : 0 < C.length)
    (h : ∀ t < n, ∃ (r : Nat) (a : Act α), C[r]? = some a ∧ a.By t) : (lasso hP hC hs hpos).Fair := by
  intro t ht N
  have hlt : t < n := by
    obtain ⟨i, _, w, s', h1⟩ := ht 0
    simp only [next] at h1
    split at h1
    · rename_i hp; exact Exec.lt_of_pc _ hp
    · cases h1
  obtain ⟨r, a, h1, h2⟩ := h t hlt
  have hr := lt_of_getElem? h1
  obtain ⟨x, hx⟩ := run_take_some hC r
  obtain ⟨i, h3, _, h4, _⟩ := lasso_again hP hC hs hpos hr h1 hx N
  exact ⟨i, h3, a, h4, h2⟩

theorem lasso_inside {P C : List (Act α)} {s0 s1 : St α} (hP : run cfg (init α n) P = some s0)
    (hC : run cfg s0 C = some s1) (hs : core s1 = core s0) (hpos : 0 < C.length) {t : Nat}
    (h : ∀ r < C.length, (run cfg s0 (C.take r)).map (fun x => (x.pcs[t]?).map isIdle) = some (some false)) {i : Nat}
    (hi : P.length ≤ i) : (lasso hP hC hs hpos).pc i t ≠ .idle := by
  have := lasso_always hP hC hs hpos (Q := fun x => (x.pcs[t]?).map isIdle = some false) (by
    intro r hr x hx
    have := h r hr
    rw [hx] at this
    exact Option.some.inj this) hi
  rw [show (core ((lasso hP hC hs hpos).st i)).pcs = ((lasso hP hC hs hpos).st i).pcs from rfl] at this
  obtain ⟨p, h1, h2⟩ := Option.map_eq_some_iff.mp this
  rw [Exec.pc_some _ h1]
  rintro rfl
  simp [isIdle] at h2

theorem lasso_starved {P C : List (Act α)} {s0 s1 : St α} (hP : run cfg (init α n) P = some s0)
    (hC : run cfg s0 C = some s1) (hs : core s1 = core s0) (hpos : 0 < C.length) {t i0 : Nat}
    (h : ∀ r < C.length, (run cfg s0 (C.take r)).map (fun x => (x.pcs[t]?).map isIdle) = some (some false))
    (h0 : ∀ i < P.length, i0 < i → (run cfg (init α n) (P.take i)).map (fun x => (x.pcs[t]?).map isIdle) = some (some false))
    {j : Nat} {r : Res α} (hj : i0 < j) : ¬ (lasso hP hC hs hpos).Returns j t r := by
  intro hr
  have h1 := Exec.of_returns _ hr
  by_cases hlt : j + 1 < P.length
  · have h2 := h0 (j + 1) hlt (by omega)
    rw [lasso_prefix (C := C) hP (j + 1) (by omega)] at h2
    simp only [Option.map_some, Option.some.injEq] at h2
    obtain ⟨p, h3, h4⟩ := Option.map_eq_some_iff.mp h2
    have h5 : (lasso hP hC hs hpos).pc (j + 1) t = p := Exec.pc_some _ h3
    rw [h1] at h5; subst h5; simp [isIdle] at h4
  · exact lasso_inside hP hC hs hpos h (by omega) h1

theorem lasso_returns {P C : List (Act α)} {s0 s1 : St α} (hP : run cfg (init α n) P = some s0)
    (hC : run cfg s0 C = some s1) (hs : core s1 = core s0) (hpos : 0 < C.length) {t r : Nat} {op : Op α} {v : Res α}
    (ha : C[r]? = some (.step t none))
    (hx : (run cfg s0 (C.take r)).bind (fun x => x.pcs[t]?) = some (.done op v)) (N : Nat) :
    ∃ i, N ≤ i ∧ (lasso hP hC hs hpos).Returns i t v := by
  obtain ⟨x, hx1, hx2⟩ := Option.bind_eq_some_iff.mp hx
  obtain ⟨i, h1, _, h2, h3⟩ := lasso_again hP hC hs hpos (lt_of_getElem? ha) ha hx1 N
  refine ⟨i, h1, ?_⟩
  rcases (lasso hP hC hs hpos).ok i with ⟨h4, _⟩ | ⟨a, h4, h5⟩
  · rw [h2] at h4; cases h4
  · rw [h2] at h4; injection h4 with h4; subst h4
    have h6 : ((lasso hP hC hs hpos).st i).pcs[t]? = some (.done op v) := by rw [(core_eq h3).2.2.2]; exact hx2
    simp only [next, h6, stepAt] at h5
    injection h5 with h5
    rw [Exec.Returns, ← h5]; rfl

theorem lasso_avail {P C : List (Act α)} {s0 s1 : St α} (hP : run cfg (init α n) P = some s0)
    (hC : run cfg s0 C = some s1) (hs : core s1 = core s0) (hpos : 0 < C.length) {r : Nat} (hr : r < C.length)
    {l : Option α} (hx : (run cfg s0 (C.take r)).map St.slot = some l) (N : Nat) :
    ∃ i, N ≤ i ∧ ((lasso hP hC hs hpos).st i).slot = l := by
  obtain ⟨x, hx1, hx2⟩ := Option.map_eq_some_iff.mp hx
  obtain ⟨i, h1, _, h2, h3⟩ := lasso_again hP hC hs hpos hr (List.getElem?_eq_getElem hr) hx1 N
  exact ⟨i, h1, by rw [(core_eq h3).1]; exact hx2⟩

theorem lasso_calls {P C : List (Act α)} {s0 s1 : St α} (hP : run cfg (init α n) P = some s0)
    (hC : run cfg s0 C = some s1) (hs : core s1 = core s0) (hpos : 0 < C.length) {i t : Nat} {op : Op α}
    (ha : P[i]? = some (.call t op)) : (lasso hP hC hs hpos).Calls i t op := by
  have hlt := lt_of_getElem? ha
  rcases (lasso hP hC hs hpos).ok i with ⟨h4, _⟩ | ⟨a, h4, h5⟩
  · rw [show (lasso hP hC hs hpos).act i = lassoAct P C i from rfl, lassoAct, if_pos hlt, ha] at h4; cases h4
  · rw [show (lasso hP hC hs hpos).act i = lassoAct P C i from rfl, lassoAct, if_pos hlt, ha] at h4
    injection h4 with h4; subst h4
    simp only [next] at h5
    split at h5
    · obtain ⟨pc, _, h5⟩ := Option.map_eq_some_iff.mp h5
      rw [Exec.Calls, ← h5]; rfl
    · cases h5

theorem Exec.act_of_calls (e : Exec cfg α n) {i t : Nat} {op : Op α} (h : e.Calls i t op) :
    e.act i = some (.call t op) := by
  rcases e.ok i with ⟨_, h1⟩ | ⟨a, h0, h1⟩
  · rw [Calls, h1] at h; simp at h
  · rw [h0]
    unfold Calls at h
    cases a with
    | call u op' =>
      simp only [next] at h1
      split at h1
      · obtain ⟨pc, _, h1⟩ := Option.map_eq_some_iff.mp h1
        rw [← h1] at h
        have := List.append_cancel_left h
        simp at this
        obtain ⟨rfl, rfl⟩ := this; rfl
      · cases h1
    | spurious u =>
      simp only [next] at h1
      split at h1 <;> first | (cases h1; done) | (injection h1 with h1; rw [← h1] at h; simp [St.goto] at h)
    | stale u =>
      simp only [next] at h1
      split at h1 <;> first | (cases h1; done) | (injection h1 with h1; rw [← h1] at h; simp [St.goto] at h)
    | throw u =>
      simp only [next] at h1
      split at h1
      · rename_i pc hp
        cases pc <;> simp only [throwAt] at h1
        all_goals
          repeat (split at h1)
          all_goals first
            | (cases h1; done)
            | (injection h1 with h1; rw [← h1] at h; simp [St.goto, St.log] at h)
      · cases h1
    | step u w =>
      simp only [next] at h1
      split at h1
      · rename_i pc hp
        have one : ∀ {s1}, notifyOne (e.st i) w = some s1 → s1.hist = (e.st i).hist := by
          intro s1 h1
          unfold notifyOne at h1
          split at h1
          · split at h1 <;> simp at h1
            subst h1; rfl
          · split at h1
            · injection h1 with h1; subst h1; rfl
            · simp at h1
        cases pc
        case sNotify op' =>
          simp only [stepAt, Option.map_eq_some_iff] at h1
          obtain ⟨s1, h2, h3⟩ := h1
          rw [← h3] at h; simp [St.goto, one h2] at h
        all_goals
          simp only [stepAt, acquire, release] at h1
          repeat (split at h1)
          all_goals first
            | (cases h1; done)
            | (injection h1 with h1; rw [← h1] at h; simp [St.goto, St.log] at h)
      · cases h1

theorem lasso_calls_mem {P C : List (Act α)} {s0 s1 : St α} (hP : run cfg (init α n) P = some s0)
    (hC : run cfg s0 C = some s1) (hs : core s1 = core s0) (hpos : 0 < C.length) {i t : Nat} {op : Op α}
    (h : (lasso hP hC hs hpos).Calls i t op) : .call t op ∈ P ++ C := by
  have h1 := Exec.act_of_calls _ h
  rw [show (lasso hP hC hs hpos).act i = lassoAct P C i from rfl, lassoAct] at h1
  split at h1
  · exact List.mem_append_left _ (List.mem_of_getElem? h1)
  · exact List.mem_append_right _ (List.mem_of_getElem? h1)

theorem lasso_act_mem {P C : List (Act α)} {s0 s1 : St α} (hP : run cfg (init α n) P = some s0)
    (hC : run cfg s0 C = some s1) (hs : core s1 = core s0) (hpos : 0 < C.length) (i : Nat) :
    ∃ a ∈ P ++ C, (lasso hP hC hs hpos).act i = some a := by
  rw [show (lasso hP hC hs hpos).act i = lassoAct P C i from rfl, lassoAct]
  split
  · rename_i h
    exact ⟨_, List.mem_append_left _ (List.getElem_mem h), List.getElem?_eq_getElem h⟩
  · have h := Nat.mod_lt (i - P.length) hpos
    exact ⟨_, List.mem_append_right _ (List.getElem_mem h), List.getElem?_eq_getElem h⟩

end Verif.Exchange
