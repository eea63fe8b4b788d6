import Verif.Channel.Lasso

/-! Lemmas about executions, for `LiveProps.lean`. -/
namespace Verif.Channel

variable {α : Type} {cfg : Cfg} {n : Nat}

namespace Exec

theorem leaves {P : Nat → Prop} {M j : Nat} (hM : P M) (hj : ¬ P j) (hle : M ≤ j) :
    ∃ k, M ≤ k ∧ P k ∧ ¬ P (k + 1) := by
  apply Classical.byContradiction
  intro hno
  have : ∀ k, M ≤ k → P k := by
    intro k hk
    induction k, hk using le_ind with
    | base => exact hM
    | succ k hk ih => exact Classical.byContradiction fun h => hno ⟨k, hk, ih, h⟩
  exact hj (this j hle)

theorem pc_some (e : Exec cfg α n) {i u : Nat} {p : PC α} (h : (e.st i).pcs[u]? = some p) : e.pc i u = p := by
  rw [pc, h]; rfl

theorem pc_stutter (e : Exec cfg α n) {i : Nat} (h : e.st (i + 1) = e.st i) (u : Nat) : e.pc (i + 1) u = e.pc i u := by
  rw [pc, pc, h]

/-- A thread that is inside a member function and later outside has returned in between. -/
theorem returns_of_idle (e : Exec cfg α n) {i j t : Nat} (ht : t < n) (hi : e.pc i t ≠ .idle) (hij : i ≤ j)
    (hj : e.pc j t = .idle) : ∃ k r, i ≤ k ∧ e.Returns k t r := by
  obtain ⟨k, h1, h2, h3⟩ := leaves (P := fun k => e.pc k t ≠ .idle) hi (by simp [hj]) hij
  have h3 : e.pc (k + 1) t = .idle := Classical.byContradiction h3
  rcases e.cases k with h | h
  · rw [e.pc_stutter h] at h3; exact absurd h3 h2
  · obtain ⟨r, hr⟩ := step_returns h (e.pc_eq ht) h2 (by rw [e.pc_eq ht, h3])
    exact ⟨k, r, h1, hr⟩

theorem of_calls (e : Exec cfg α n) {i t : Nat} {op : Op α} (h : e.Calls i t op) :
    t < n ∧ e.pc (i + 1) t = entry op := by
  rcases e.cases i with h1 | h1
  · rw [Calls, h1] at h; simp at h
  · have h2 := step_calls h1 h
    exact ⟨e.lt_of_pc h2, e.pc_some h2⟩

theorem entry_ne_idle (op : Op α) : entry op ≠ .idle := by cases op <;> simp [entry]

/-- A call that cannot sleep any more returns. -/
theorem returns_awake (e : Exec cfg α n) (hf : e.Fair) {i t : Nat} (ht : t < n) (hi : e.pc i t ≠ .idle)
    (hm : (e.pc i t).maySleep = false) : ∃ k r, i ≤ k ∧ e.Returns k t r := by
  by_cases hid : ∃ j, i ≤ j ∧ e.pc j t = .idle
  · obtain ⟨j, hij, hj⟩ := hid
    exact e.returns_of_idle ht hi hij hj
  · have hne : ∀ j, i ≤ j → e.pc j t ≠ .idle := fun j hj h => hid ⟨j, hj, h⟩
    have hms : ∀ j, i ≤ j → (e.pc j t).maySleep = false := by
      intro j hj
      induction j, hj using le_ind with
      | base => exact hm
      | succ j hj ih =>
        rcases e.cases j with h | h
        · rw [e.pc_stutter h]; exact ih
        · obtain ⟨p, h1, h2⟩ := step_maySleep h (e.pc_eq ht) (hne j hj) ih
          rw [e.pc_some h1]; exact h2
    obtain ⟨j, hj, ha⟩ := e.rests hf ht i
    have h1 := hms j hj
    have h2 := hne j hj
    revert ha h1 h2
    generalize e.pc j t = p
    cases p <;> simp [PC.active, PC.maySleep]

theorem closed_mono (e : Exec cfg α n) {i j : Nat} (h : (e.st i).closed = true) (hij : i ≤ j) :
    (e.st j).closed = true := by
  induction j, hij using le_ind with
  | base => exact h
  | succ j hj ih =>
    rcases e.cases j with h | h
    · rw [h]; exact ih
    · exact step_closed h ih

theorem closed_of (e : Exec cfg α n) {i : Nat} (h : e.Closed i) : (e.st i).closed = true := by
  obtain ⟨t, ht⟩ := h
  exact (explains_reach (e.reach i)).closed_of_mem ht

theorem avail_iff (e : Exec cfg α n) (i : Nat) : e.Avail i ↔ (e.st i).q ≠ [] := by
  have := (explains_reach (e.reach i)).fifo
  unfold Avail
  rw [this, List.length_append]
  cases (e.st i).q <;> simp

theorem room_iff (e : Exec cfg α n) (i : Nat) : e.Room i ↔ (e.st i).q.length < cfg.cap := by
  have := (explains_reach (e.reach i)).fifo
  unfold Room
  rw [this, List.length_append]
  dsimp only
  omega

/-- Waiting for ever for a value: where the thread is. -/
theorem waitE_stays (e : Exec cfg α n) (hf : e.Fair) {i t : Nat} (ht : t < n) (hw : (e.pc i t).waitE = true)
    (hno : ¬ ∃ k r, i ≤ k ∧ e.Returns k t r) : ∀ j, i ≤ j → (e.pc j t).waitE = true := by
  intro j hj
  induction j, hj using le_ind with
  | base => exact hw
  | succ j hj ih =>
    rcases e.cases j with h | h
    · rw [e.pc_stutter h]; exact ih
    · rcases step_waitE h (e.pc_eq ht) ih with h1 | ⟨p, h1, h2, _⟩
      · have h2 := e.pc_some h1
        obtain ⟨k, r, h3, h4⟩ := e.returns_awake hf (i := j + 1) ht (by rw [h2]; simp) (by rw [h2]; rfl)
        exact absurd ⟨k, r, by omega, h4⟩ hno
      · rw [e.pc_some h1]; exact h2

/-- A pop that waits for ever although from `M` on it would not go to sleep sleeps from `M` on. -/
theorem waitE_asleep (e : Exec cfg α n) (hf : e.Fair) {M t : Nat} (ht : t < n)
    (hw : ∀ j, M ≤ j → (e.pc j t).waitE = true) (hq : ∀ j, M ≤ j → (e.st j).q ≠ [] ∨ (e.st j).closed = true) :
    ∀ j, M ≤ j → e.pc j t = .pSleep := by
  intro j hj
  apply Classical.byContradiction
  intro hne
  have hstay : ∀ k, j ≤ k → e.pc k t ≠ .pSleep := by
    intro k hk
    induction k, hk using le_ind with
    | base => exact hne
    | succ k hk ih =>
      rcases e.cases k with h | h
      · rw [e.pc_stutter h]; exact ih
      · rcases step_waitE h (e.pc_eq ht) (hw k (by omega)) with h1 | ⟨p, h1, h2, h3⟩
        · rw [e.pc_some h1]; simp
        · rw [e.pc_some h1]
          intro hp
          rcases h3 hp with h4 | ⟨h4, h5⟩
          · exact ih h4
          · rcases hq k (by omega) with h6 | h6
            · exact h6 h4
            · rw [h5] at h6; cases h6
  obtain ⟨k, hk, ha⟩ := e.rests hf ht j
  have h1 := hw k (by omega)
  have h2 := hstay k hk
  revert ha h1 h2
  generalize e.pc k t = p
  cases p <;> simp [PC.active, PC.waitE]

theorem find_pc (e : Exec cfg α n) {i : Nat} {p : PC α → Bool} (h : 0 < (e.st i).pcs.countP p) :
    ∃ u, u < n ∧ p (e.pc i u) = true := by
  rw [List.countP_pos_iff] at h
  obtain ⟨pc, hm, hp⟩ := h
  obtain ⟨u, hu⟩ := List.mem_iff_getElem?.mp hm
  exact ⟨u, e.lt_of_pc hu, by rw [e.pc_some hu]; exact hp⟩

theorem count_pos (e : Exec cfg α n) {i u : Nat} {p : PC α → Bool} (hu : u < n) (h : p (e.pc i u) = true) :
    0 < (e.st i).pcs.countP p := countP_pos_of (e.pc_eq hu) h

/-- A thread at a position of `p`, all of which are awake positions inside a member function, comes to a transition out of `p`. -/
theorem passes (e : Exec cfg α n) (hf : e.Fair) {p : PC α → Bool} (hp : ∀ x, p x = true → x.active = true) {M u : Nat}
    (hu : u < n) (h : p (e.pc M u) = true) : ∃ k, M ≤ k ∧ Step cfg (e.st k) (e.st (k + 1)) ∧ p (e.pc k u) = true ∧
      p (e.pc (k + 1) u) = false := by
  obtain ⟨j, hj, ha⟩ := e.rests hf hu M
  obtain ⟨k, h1, h2, h3⟩ := leaves (P := fun k => p (e.pc k u) = true) h (by
    intro hx; rw [hp _ hx] at ha; cases ha) hj
  refine ⟨k, h1, ?_, h2, by simpa using h3⟩
  rcases e.cases k with h | h
  · rw [e.pc_stutter h] at h3; exact absurd h2 h3
  · exact h

theorem slE_active : ∀ x : PC α, isClE x = true → x.active = true := by intro x; cases x <;> simp [isClE, PC.active]
theorem clF_active : ∀ x : PC α, isClF x = true → x.active = true := by intro x; cases x <;> simp [isClF, PC.active]
theorem ntE_active : ∀ x : PC α, isNtE x = true → x.active = true := by intro x; cases x <;> simp [isNtE, PC.active]
theorem ntF_active : ∀ x : PC α, isNtF x = true → x.active = true := by intro x; cases x <;> simp [isNtF, PC.active]
theorem pop_active : ∀ x : PC α, isPop x = true → x.active = true := by intro x; cases x <;> simp [isPop, PC.active]
theorem push_active : ∀ x : PC α, isPush x = true → x.active = true := by intro x; cases x <;> simp [isPush, PC.active]

/-- A pop does not sleep for ever on a closed channel. -/
theorem closed_wakes (e : Exec cfg α n) (hf : e.Fair) {M t : Nat} (ht : t < n)
    (hs : ∀ j, M ≤ j → e.pc j t = .pSleep) (hc : (e.st M).closed = true) : False := by
  have h0 : 0 < (e.st M).pcs.countP isSlE := e.count_pos ht (by rw [hs M (Nat.le_refl _)]; rfl)
  obtain ⟨u, hu, hcl⟩ := e.find_pc ((wakeC_reach (e.reach M) hc).1 h0)
  obtain ⟨k, hk, hst, h1, h2⟩ := e.passes hf slE_active hu hcl
  have h3 := step_clE hst (e.pc_eq hu) h1 (e.pc_eq hu) h2
  have h4 : 0 < (e.st (k + 1)).pcs.countP isSlE := e.count_pos ht (by rw [hs _ (by omega)]; rfl)
  omega

/-- A pop does not sleep for ever while there always is a value. -/
theorem avail_wakes (e : Exec cfg α n) (hf : e.Fair) (hm : cfg.moveThrow = false) {M t : Nat} (ht : t < n)
    (hs : ∀ j, M ≤ j → e.pc j t = .pSleep) (hq : ∀ j, M ≤ j → (e.st j).q ≠ []) : False := by
  have hopen : ∀ j, M ≤ j → (e.st j).closed = false := by
    intro j hj
    cases hc : (e.st j).closed with
    | false => rfl
    | true => exact (e.closed_wakes hf ht (fun k hk => hs k (by omega)) hc).elim
  have hpos : ∀ j, M ≤ j → 0 < (e.st j).pcs.countP isSlE := fun j hj => e.count_pos ht (by rw [hs j hj]; rfl)
  -- no consumer goes to sleep any more
  obtain ⟨M1, hM1, hconst⟩ := eventually_const (f := fun j => (e.st j).pcs.countP isSlE) (N := M) (by
    intro j hj
    rcases e.cases j with h | h
    · rw [h]; exact Nat.le_refl _
    · exact step_slE h (.inl (hq j hj)))
  -- so nobody is about to notify
  have hnt : ∀ j, M1 ≤ j → ∀ u, u < n → isNtE (e.pc j u) = false := by
    intro j hj u hu
    cases hx : isNtE (e.pc j u) with
    | false => rfl
    | true =>
      obtain ⟨k, hk, hst, h1, h2⟩ := e.passes hf ntE_active hu hx
      rcases step_ntE hst (e.pc_eq hu) h1 (e.pc_eq hu) h2 with h3 | h3
      · exact absurd (hs k (by omega)) (h3 _ (List.mem_of_getElem? (e.pc_eq ht)))
      · have a := hconst k (by omega)
        have b := hconst (k + 1) (by omega)
        omega
  -- so nothing is inserted, and from some instant on nothing is removed
  have hle : ∀ j, M1 ≤ j → (e.st (j + 1)).q.length ≤ (e.st j).q.length := by
    intro j hj
    rcases e.cases j with h | h
    · rw [h]; exact Nat.le_refl _
    · rcases step_queue h with h1 | ⟨_, u, p, h2, h3⟩ | ⟨h1, _⟩
      · omega
      · have := hnt (j + 1) (by omega) u (e.lt_of_pc h2)
        rw [e.pc_some h2, h3] at this; cases this
      · omega
  obtain ⟨M2, hM2, hqc⟩ := eventually_const (f := fun j => (e.st j).q.length) hle
  -- but there is a consumer that is about to remove
  have hw := (wakeE_reach hm (e.reach M2)).1 (hopen M2 (by omega)) (hpos M2 (by omega))
  have hlen : 0 < (e.st M2).q.length := List.length_pos_iff.mpr (hq M2 (by omega))
  obtain ⟨u, hu, htok⟩ := e.find_pc (i := M2) (p := isTokE) (by omega)
  have hpop : isPop (e.pc M2 u) = true := by
    have := hnt M2 hM2 u hu
    revert this htok
    generalize e.pc M2 u = p
    cases p <;> simp [isTokE, isNtE, isPop]
  obtain ⟨k, hk, hst, h1, h2⟩ := e.passes hf pop_active hu hpop
  have h3 := step_isPop hm hst (e.pc_eq hu) h1 (e.pc_eq hu) h2 (hq k (by omega))
  have a := hqc k (by omega)
  have b := hqc (k + 1) (by omega)
  omega

/-! The same for `push`. -/

theorem waitF_stays (e : Exec cfg α n) (hf : e.Fair) {i t : Nat} (ht : t < n) (hw : (e.pc i t).waitF = true)
    (hno : ¬ ∃ k r, i ≤ k ∧ e.Returns k t r) : ∀ j, i ≤ j → (e.pc j t).waitF = true := by
  intro j hj
  induction j, hj using le_ind with
  | base => exact hw
  | succ j hj ih =>
    rcases e.cases j with h | h
    · rw [e.pc_stutter h]; exact ih
    · rcases step_waitF h (e.pc_eq ht) ih with ⟨v, h1⟩ | ⟨op, r, h1⟩ | ⟨p, h1, h2, _⟩
      · have h2 := e.pc_some h1
        obtain ⟨k, r, h3, h4⟩ := e.returns_awake hf (i := j + 1) ht (by rw [h2]; simp) (by rw [h2]; rfl)
        exact absurd ⟨k, r, by omega, h4⟩ hno
      · have h2 := e.pc_some h1
        obtain ⟨k, r, h3, h4⟩ := e.returns_awake hf (i := j + 1) ht (by rw [h2]; simp) (by rw [h2]; rfl)
        exact absurd ⟨k, r, by omega, h4⟩ hno
      · rw [e.pc_some h1]; exact h2

theorem waitF_asleep (e : Exec cfg α n) (hf : e.Fair) {M t : Nat} (ht : t < n)
    (hw : ∀ j, M ≤ j → (e.pc j t).waitF = true)
    (hq : ∀ j, M ≤ j → (e.st j).q.length < cfg.cap ∨ (e.st j).closed = true) :
    ∀ j, M ≤ j → ∃ v, e.pc j t = .eSleep v := by
  intro j hj
  apply Classical.byContradiction
  intro hne
  have hstay : ∀ k, j ≤ k → ¬ ∃ v, e.pc k t = .eSleep v := by
    intro k hk
    induction k, hk using le_ind with
    | base => exact hne
    | succ k hk ih =>
      rcases e.cases k with h | h
      · rw [e.pc_stutter h]; exact ih
      · rcases step_waitF h (e.pc_eq ht) (hw k (by omega)) with ⟨v, h1⟩ | ⟨op, r, h1⟩ | ⟨p, h1, h2, h3⟩
        · rw [e.pc_some h1]; simp
        · rw [e.pc_some h1]; simp
        · rw [e.pc_some h1]
          rintro ⟨v, hp⟩
          rcases h3 v hp with h4 | ⟨h4, h5⟩
          · exact ih h4
          · rcases hq k (by omega) with h6 | h6
            · omega
            · rw [h5] at h6; cases h6
  obtain ⟨k, hk, ha⟩ := e.rests hf ht j
  have h1 := hw k (by omega)
  have h2 := hstay k hk
  revert ha h1 h2
  generalize e.pc k t = p
  cases p <;> simp [PC.active, PC.waitF]

theorem closed_wakesF (e : Exec cfg α n) (hf : e.Fair) {M t : Nat} (ht : t < n)
    (hs : ∀ j, M ≤ j → ∃ v, e.pc j t = .eSleep v) (hc : (e.st M).closed = true) : False := by
  have hsl : ∀ j, M ≤ j → isSlF (e.pc j t) = true := by
    intro j hj; obtain ⟨v, hv⟩ := hs j hj; rw [hv]; rfl
  obtain ⟨u, hu, hcl⟩ := e.find_pc ((wakeC_reach (e.reach M) hc).2 (e.count_pos ht (hsl M (Nat.le_refl _))))
  obtain ⟨k, hk, hst, h1, h2⟩ := e.passes hf clF_active hu hcl
  have h3 := step_clF hst (e.pc_eq hu) h1 (e.pc_eq hu) h2
  have h4 := e.count_pos ht (hsl (k + 1) (by omega))
  omega

theorem room_wakes (e : Exec cfg α n) (hf : e.Fair) (hm : cfg.ctorThrow = false) {M t : Nat} (ht : t < n)
    (hs : ∀ j, M ≤ j → ∃ v, e.pc j t = .eSleep v) (hq : ∀ j, M ≤ j → (e.st j).q.length < cfg.cap) : False := by
  have hsl : ∀ j, M ≤ j → isSlF (e.pc j t) = true := by
    intro j hj; obtain ⟨v, hv⟩ := hs j hj; rw [hv]; rfl
  have hopen : ∀ j, M ≤ j → (e.st j).closed = false := by
    intro j hj
    cases hc : (e.st j).closed with
    | false => rfl
    | true => exact (e.closed_wakesF hf ht (fun k hk => hs k (by omega)) hc).elim
  have hpos : ∀ j, M ≤ j → 0 < (e.st j).pcs.countP isSlF := fun j hj => e.count_pos ht (hsl j hj)
  obtain ⟨M1, hM1, hconst⟩ := eventually_const (f := fun j => (e.st j).pcs.countP isSlF) (N := M) (by
    intro j hj
    rcases e.cases j with h | h
    · rw [h]; exact Nat.le_refl _
    · exact step_slF h (.inl (hq j hj)))
  have hnt : ∀ j, M1 ≤ j → ∀ u, u < n → isNtF (e.pc j u) = false := by
    intro j hj u hu
    cases hx : isNtF (e.pc j u) with
    | false => rfl
    | true =>
      obtain ⟨k, hk, hst, h1, h2⟩ := e.passes hf ntF_active hu hx
      rcases step_ntF hst (e.pc_eq hu) h1 (e.pc_eq hu) h2 with h3 | h3
      · obtain ⟨v, hv⟩ := hs k (by omega)
        exact absurd hv (h3 _ (List.mem_of_getElem? (e.pc_eq ht)) v)
      · have a := hconst k (by omega)
        have b := hconst (k + 1) (by omega)
        omega
  have hle : ∀ j, M1 ≤ j → cfg.cap - (e.st (j + 1)).q.length ≤ cfg.cap - (e.st j).q.length := by
    intro j hj
    rcases e.cases j with h | h
    · rw [h]; exact Nat.le_refl _
    · rcases step_queue h with h1 | ⟨h1, _⟩ | ⟨_, u, p, h2, h3⟩
      · omega
      · omega
      · have := hnt (j + 1) (by omega) u (e.lt_of_pc h2)
        rw [e.pc_some h2, h3] at this; cases this
  obtain ⟨M2, hM2, hqc⟩ := eventually_const (f := fun j => cfg.cap - (e.st j).q.length) hle
  have hw := (wakeF_reach hm (e.reach M2)).1 (hopen M2 (by omega)) (hpos M2 (by omega))
  have hlen := hq M2 (by omega)
  obtain ⟨u, hu, htok⟩ := e.find_pc (i := M2) (p := isTokF) (by omega)
  have hpush : isPush (e.pc M2 u) = true := by
    have := hnt M2 hM2 u hu
    revert this htok
    generalize e.pc M2 u = p
    cases p <;> simp [isTokF, isNtF, isPush]
  obtain ⟨k, hk, hst, h1, h2⟩ := e.passes hf push_active hu hpush
  have h3 := step_isPush hm hst (e.pc_eq hu) h1 (e.pc_eq hu) h2 (hq k (by omega)) (hopen k (by omega))
  have a := hqc k (by omega)
  have b := hqc (k + 1) (by omega)
  have c := hq k (by omega)
  omega

/-- Only `t` calls `pop` or `try_pop` (about channel.hpp:179-212). -/
def SoleConsumer (e : Exec cfg α n) (t : Nat) : Prop := ∀ i u, e.Calls i u .pop ∨ e.Calls i u .tryPop → u = t

/-- Only `t` calls `push` or `try_push` (about channel.hpp:84-171). -/
def SoleProducer (e : Exec cfg α n) (t : Nat) : Prop := ∀ i u v, e.Calls i u (.push v) ∨ e.Calls i u (.tryPush v) → u = t

theorem sole_cons (e : Exec cfg α n) {t : Nat} (hs : e.SoleConsumer t) : ∀ i u, u < n → isCons (e.pc i u) = true → u = t
  | 0, u, hu, h => by
    rw [pc, e.start] at h
    simp [init, hu, isCons] at h
  | i + 1, u, hu, h => by
    rcases e.cases i with h1 | h1
    · rw [e.pc_stutter h1] at h; exact sole_cons e hs i u hu h
    · rcases step_cons h1 (e.pc_eq hu) (e.pc_eq hu) h with h2 | ⟨op, h2, h3⟩
      · exact sole_cons e hs i u hu h2
      · rcases h2 with rfl | rfl
        · exact hs i u (.inl h3)
        · exact hs i u (.inr h3)

theorem sole_prod (e : Exec cfg α n) {t : Nat} (hs : e.SoleProducer t) : ∀ i u, u < n → isProd (e.pc i u) = true → u = t
  | 0, u, hu, h => by
    rw [pc, e.start] at h
    simp [init, hu, isProd] at h
  | i + 1, u, hu, h => by
    rcases e.cases i with h1 | h1
    · rw [e.pc_stutter h1] at h; exact sole_prod e hs i u hu h
    · rcases step_prod h1 (e.pc_eq hu) (e.pc_eq hu) h with h2 | ⟨op, ⟨v, h2⟩, h3⟩
      · exact sole_prod e hs i u hu h2
      · rcases h2 with rfl | rfl
        · exact hs i u v (.inl h3)
        · exact hs i u v (.inr h3)

theorem sole_avail (e : Exec cfg α n) {t M : Nat} (hs : e.SoleConsumer t) (hw : ∀ j, M ≤ j → (e.pc j t).waitE = true)
    (hq : (e.st M).q ≠ []) : ∀ j, M ≤ j → (e.st j).q ≠ [] := by
  intro j hj
  induction j, hj using le_ind with
  | base => exact hq
  | succ j hj ih =>
    rcases e.cases j with h | h
    · rw [h]; exact ih
    · intro h0
      obtain ⟨u, hu⟩ := step_removes h (by rw [h0]; exact List.length_pos_iff.mpr ih)
      have hc : u = t := by
        rcases hu with hu | hu
        · exact e.sole_cons hs j u (e.lt_of_pc hu) (by rw [e.pc_some hu]; rfl)
        · exact e.sole_cons hs j u (e.lt_of_pc hu) (by rw [e.pc_some hu]; rfl)
      subst hc
      have := hw j hj
      rcases hu with hu | hu <;> rw [e.pc_some hu] at this <;> simp [PC.waitE] at this

theorem sole_room (e : Exec cfg α n) {t M : Nat} (hs : e.SoleProducer t) (hw : ∀ j, M ≤ j → (e.pc j t).waitF = true)
    (hq : (e.st M).q.length < cfg.cap) : ∀ j, M ≤ j → (e.st j).q.length < cfg.cap := by
  intro j hj
  induction j, hj using le_ind with
  | base => exact hq
  | succ j hj ih =>
    rcases e.cases j with h | h
    · rw [h]; exact ih
    · apply Classical.byContradiction
      intro h0
      obtain ⟨u, v, hu⟩ := step_inserts h (by omega)
      have hc : u = t := by
        rcases hu with hu | hu
        · exact e.sole_prod hs j u (e.lt_of_pc hu) (by rw [e.pc_some hu]; rfl)
        · exact e.sole_prod hs j u (e.lt_of_pc hu) (by rw [e.pc_some hu]; rfl)
      subst hc
      have := hw j hj
      rcases hu with hu | hu <;> rw [e.pc_some hu] at this <;> simp [PC.waitF] at this

/-- After a return the thread is outside the channel. -/
theorem of_returns (e : Exec cfg α n) {i t : Nat} {r : Res α} (h : e.Returns i t r) : e.pc (i + 1) t = .idle := by
  rcases e.cases i with h1 | h1
  · rw [Returns, h1] at h; simp at h
  · unfold Returns at h
    apply e.pc_some
    generalize e.st (i + 1) = s' at *
    generalize e.st i = s at *
    cases h1 with
    | loc hp hl =>
      rename_i u p q' c' o' p' es
      dsimp only at h ⊢
      have hes := List.append_cancel_left h
      generalize s.q = q0, s.closed = c0, s.owner = o0 at hl
      cases hl <;> simp at hes
      obtain ⟨rfl, rfl⟩ := hes
      exact List.getElem?_set_self (lt_of_getElem? hp)
    | _ => simp at h

end Exec

/-- A periodic execution is fair if every thread takes part in the loop. -/
theorem lasso_fair {P C : List (Act α)} {s0 s1 : St α} (hP : run cfg (init α n) P = some s0)
    (hC : run cfg s0 C = some s1) (hs : core s1 = core s0) (hpos : 0 < C.length)
    (h : ∀ t < n, ∃ (r : Nat) (a : Act α), C[r]? = some a ∧ a.By t) : (lasso hP hC hs hpos).Fair := by
  intro t ht N
  have hlt : t < n := by
    obtain ⟨i, _, w, s', h1⟩ := ht 0
    simp only [next] at h1
    split at h1
    · rename_i hp; exact Exec.lt_of_pc _ hp
    · cases h1
  obtain ⟨r, a, h1, h2⟩ := h t hlt
  have hr := lt_of_getElem? h1
  obtain ⟨x, hx⟩ := run_take_some hC r
  obtain ⟨i, h3, _, h4, _⟩ := lasso_again hP hC hs hpos hr h1 hx N
  exact ⟨i, h3, a, h4, h2⟩

theorem lasso_inside {P C : List (Act α)} {s0 s1 : St α} (hP : run cfg (init α n) P = some s0)
    (hC : run cfg s0 C = some s1) (hs : core s1 = core s0) (hpos : 0 < C.length) {t : Nat}
    (h : ∀ r < C.length, (run cfg s0 (C.take r)).map (fun x => (x.pcs[t]?).map isIdle) = some (some false)) {i : Nat}
    (hi : P.length ≤ i) : (lasso hP hC hs hpos).pc i t ≠ .idle := by
  have := lasso_always hP hC hs hpos (Q := fun x => (x.pcs[t]?).map isIdle = some false) (by
    intro r hr x hx
    have := h r hr
    rw [hx] at this
    exact Option.some.inj this) hi
  rw [show (core ((lasso hP hC hs hpos).st i)).pcs = ((lasso hP hC hs hpos).st i).pcs from rfl] at this
  obtain ⟨p, h1, h2⟩ := Option.map_eq_some_iff.mp this
  rw [Exec.pc_some _ h1]
  rintro rfl
  simp [isIdle] at h2

theorem lasso_starved {P C : List (Act α)} {s0 s1 : St α} (hP : run cfg (init α n) P = some s0)
    (hC : run cfg s0 C = some s1) (hs : core s1 = core s0) (hpos : 0 < C.length) {t i0 : Nat}
    (h : ∀ r < C.length, (run cfg s0 (C.take r)).map (fun x => (x.pcs[t]?).map isIdle) = some (some false))
    (h0 : ∀ i < P.length, i0 < i → (run cfg (init α n) (P.take i)).map (fun x => (x.pcs[t]?).map isIdle) = some (some false))
    {j : Nat} {r : Res α} (hj : i0 < j) : ¬ (lasso hP hC hs hpos).Returns j t r := by
  intro hr
  have h1 := Exec.of_returns _ hr
  by_cases hlt : j + 1 < P.length
  · have h2 := h0 (j + 1) hlt (by omega)
    rw [lasso_prefix (C := C) hP (j + 1) (by omega)] at h2
    simp only [Option.map_some, Option.some.injEq] at h2
    obtain ⟨p, h3, h4⟩ := Option.map_eq_some_iff.mp h2
    have h5 : (lasso hP hC hs hpos).pc (j + 1) t = p := Exec.pc_some _ h3
    rw [h1] at h5; subst h5; simp [isIdle] at h4
  · exact lasso_inside hP hC hs hpos h (by omega) h1

theorem lasso_returns {P C : List (Act α)} {s0 s1 : St α} (hP : run cfg (init α n) P = some s0)
    (hC : run cfg s0 C = some s1) (hs : core s1 = core s0) (hpos : 0 < C.length) {t r : Nat} {op : Op α} {v : Res α}
    (ha : C[r]? = some (.step t none))
    (hx : (run cfg s0 (C.take r)).bind (fun x => x.pcs[t]?) = some (.done op v)) (N : Nat) :
    ∃ i, N ≤ i ∧ (lasso hP hC hs hpos).Returns i t v := by
  obtain ⟨x, hx1, hx2⟩ := Option.bind_eq_some_iff.mp hx
  obtain ⟨i, h1, _, h2, h3⟩ := lasso_again hP hC hs hpos (lt_of_getElem? ha) ha hx1 N
  refine ⟨i, h1, ?_⟩
  rcases (lasso hP hC hs hpos).ok i with ⟨h4, _⟩ | ⟨a, h4, h5⟩
  · rw [h2] at h4; cases h4
  · rw [h2] at h4; injection h4 with h4; subst h4
    have h6 : ((lasso hP hC hs hpos).st i).pcs[t]? = some (.done op v) := by rw [(core_eq h3).2.2.2]; exact hx2
    simp only [next, h6, stepAt] at h5
    injection h5 with h5
    rw [Exec.Returns, ← h5]; rfl

theorem lasso_avail {P C : List (Act α)} {s0 s1 : St α} (hP : run cfg (init α n) P = some s0)
    (hC : run cfg s0 C = some s1) (hs : core s1 = core s0) (hpos : 0 < C.length) {r : Nat} (hr : r < C.length)
    {l : Nat} (hx : (run cfg s0 (C.take r)).map (fun x => x.q.length) = some l) (N : Nat) :
    ∃ i, N ≤ i ∧ ((lasso hP hC hs hpos).st i).q.length = l := by
  obtain ⟨x, hx1, hx2⟩ := Option.map_eq_some_iff.mp hx
  obtain ⟨i, h1, _, h2, h3⟩ := lasso_again hP hC hs hpos hr (List.getElem?_eq_getElem hr) hx1 N
  exact ⟨i, h1, by rw [(core_eq h3).1]; exact hx2⟩

theorem lasso_calls {P C : List (Act α)} {s0 s1 : St α} (hP : run cfg (init α n) P = some s0)
    (hC : run cfg s0 C = some s1) (hs : core s1 = core s0) (hpos : 0 < C.length) {i t : Nat} {op : Op α}
    (ha : P[i]? = some (.call t op)) : (lasso hP hC hs hpos).Calls i t op := by
  have hlt := lt_of_getElem? ha
  rcases (lasso hP hC hs hpos).ok i with ⟨h4, _⟩ | ⟨a, h4, h5⟩
  · rw [show (lasso hP hC hs hpos).act i = lassoAct P C i from rfl, lassoAct, if_pos hlt, ha] at h4; cases h4
  · rw [show (lasso hP hC hs hpos).act i = lassoAct P C i from rfl, lassoAct, if_pos hlt, ha] at h4
    injection h4 with h4; subst h4
    simp only [next] at h5
    split at h5
    · injection h5 with h5
      rw [Exec.Calls, ← h5]; rfl
    · cases h5

theorem Exec.act_of_calls (e : Exec cfg α n) {i t : Nat} {op : Op α} (h : e.Calls i t op) :
    e.act i = some (.call t op) := by
  rcases e.ok i with ⟨_, h1⟩ | ⟨a, h0, h1⟩
  · rw [Calls, h1] at h; simp at h
  · rw [h0]
    unfold Calls at h
    cases a with
    | call u op' =>
      simp only [next] at h1
      split at h1
      · injection h1 with h1
        rw [← h1] at h
        have := List.append_cancel_left h
        simp at this
        obtain ⟨rfl, rfl⟩ := this; rfl
      · cases h1
    | spurious u =>
      simp only [next] at h1
      split at h1 <;> first | (cases h1; done) | (injection h1 with h1; rw [← h1] at h; simp [St.goto] at h)
    | stale u =>
      simp only [next] at h1
      split at h1 <;> first | (cases h1; done) | (injection h1 with h1; rw [← h1] at h; simp [St.goto] at h)
    | throw u =>
      simp only [next] at h1
      split at h1
      · rename_i pc hp
        cases pc <;> simp only [throwAt] at h1
        all_goals
          repeat (split at h1)
          all_goals first
            | (cases h1; done)
            | (injection h1 with h1; rw [← h1] at h; simp [St.goto, St.log] at h)
      · cases h1
    | step u w =>
      simp only [next] at h1
      split at h1
      · rename_i pc hp
        have one : ∀ {sl : PC α → Option (PC α)} {s1}, notifyOne sl (e.st i) w = some s1 → s1.hist = (e.st i).hist := by
          intro sl s1 h1
          unfold notifyOne at h1
          split at h1
          · split at h1 <;> simp at h1
            subst h1; rfl
          · split at h1
            · simp at h1
            · split at h1
              · simp at h1
              · injection h1 with h1; subst h1; rfl
        cases pc
        case sNotify op' =>
          simp only [stepAt, Option.map_eq_some_iff] at h1
          obtain ⟨s1, h2, h3⟩ := h1
          rw [← h3] at h; simp [St.goto, one h2] at h
        case rNotify op' x =>
          simp only [stepAt, Option.map_eq_some_iff] at h1
          obtain ⟨s1, h2, h3⟩ := h1
          rw [← h3] at h; simp [St.goto, one h2] at h
        all_goals
          simp only [stepAt, acquire, release] at h1
          repeat (split at h1)
          all_goals first
            | (cases h1; done)
            | (injection h1 with h1; rw [← h1] at h; simp [St.goto, St.log, notifyAll] at h)
      · cases h1

theorem lasso_calls_mem {P C : List (Act α)} {s0 s1 : St α} (hP : run cfg (init α n) P = some s0)
    (hC : run cfg s0 C = some s1) (hs : core s1 = core s0) (hpos : 0 < C.length) {i t : Nat} {op : Op α}
    (h : (lasso hP hC hs hpos).Calls i t op) : .call t op ∈ P ++ C := by
  have h1 := Exec.act_of_calls _ h
  rw [show (lasso hP hC hs hpos).act i = lassoAct P C i from rfl, lassoAct] at h1
  split at h1
  · exact List.mem_append_left _ (List.mem_of_getElem? h1)
  · exact List.mem_append_right _ (List.mem_of_getElem? h1)

theorem lasso_act_mem {P C : List (Act α)} {s0 s1 : St α} (hP : run cfg (init α n) P = some s0)
    (hC : run cfg s0 C = some s1) (hs : core s1 = core s0) (hpos : 0 < C.length) (i : Nat) :
    ∃ a ∈ P ++ C, (lasso hP hC hs hpos).act i = some a := by
  rw [show (lasso hP hC hs hpos).act i = lassoAct P C i from rfl, lassoAct]
  split
  · rename_i h
    exact ⟨_, List.mem_append_left _ (List.getElem_mem h), List.getElem?_eq_getElem h⟩
  · have h := Nat.mod_lt (i - P.length) hpos
    exact ⟨_, List.mem_append_right _ (List.getElem_mem h), List.getElem?_eq_getElem h⟩

end Verif.Channel
