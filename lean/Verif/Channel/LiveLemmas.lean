import Verif.Channel.LiveModel

/-! Lemmas for `LiveProps.lean`. -/
namespace Verif.Channel

variable {α : Type} {cfg : Cfg} {n : Nat}

/-! ### After a close nobody sleeps unattended, whatever the element operations throw -/

/-- Whoever sleeps on a closed channel will be woken by a close (about channel.hpp:58-69, 92, 181). -/
def WakeC (s : St α) : Prop :=
  s.closed = true → (0 < s.pcs.countP isSlE → 0 < s.pcs.countP isClE) ∧ (0 < s.pcs.countP isSlF → 0 < s.pcs.countP isClF)

theorem wakeC_loc {t : Nat} {q c o} {pc : PC α} {q' c' o' pc' es}
    {pcs : List (PC α)} {h h'} (hl : Loc cfg t q c o pc q' c' o' pc' es) (hp : pcs[t]? = some pc)
    (hi : WakeC ⟨q, c, o, pcs, h⟩) : WakeC ⟨q', c', o', pcs.set t pc', h'⟩ := by
  have a := countP_set' (p := isSlE) (x := pc') hp
  have b := countP_set' (p := isSlF) (x := pc') hp
  have d := countP_set' (p := isClE) (x := pc') hp
  have f := countP_set' (p := isClF) (x := pc') hp
  unfold WakeC at hi ⊢
  dsimp only at hi ⊢
  generalize (pcs.set t pc').countP isSlE = A at *
  generalize (pcs.set t pc').countP isSlF = B at *
  generalize (pcs.set t pc').countP isClE = D at *
  generalize (pcs.set t pc').countP isClF = F at *
  generalize pcs.countP isSlE = A' at *
  generalize pcs.countP isSlF = B' at *
  generalize pcs.countP isClE = D' at *
  generalize pcs.countP isClF = F' at *
  clear hp
  cases hl
  case call op => cases op <;> simp [entry, isSlE, isSlF, isClE, isClF] at a b d f <;> grind
  all_goals simp [isSlE, isSlF, isClE, isClF] at a b d f
  all_goals grind

theorem wakeC_step {s s' : St α} (hi : WakeC s) (h : Step cfg s s') : WakeC s' := by
  cases h with
  | loc hp hl => exact wakeC_loc hl hp hi
  | oneE0 hp hn =>
    rename_i t op
    have a := countP_set' (p := isSlE) (x := .done op (.bool true)) hp
    have b := countP_set' (p := isSlF) (x := .done op (.bool true)) hp
    have d := countP_set' (p := isClE) (x := .done op (.bool true)) hp
    have f := countP_set' (p := isClF) (x := .done op (.bool true)) hp
    simp [isSlE, isSlF, isClE, isClF] at a b d f
    intro hc; have := hi hc; dsimp only at *; rw [a, b, d, f]; exact this
  | oneF0 hp hn =>
    rename_i t op x
    have a := countP_set' (p := isSlE) (x := .rRet op x) hp
    have b := countP_set' (p := isSlF) (x := .rRet op x) hp
    have d := countP_set' (p := isClE) (x := .rRet op x) hp
    have f := countP_set' (p := isClF) (x := .rRet op x) hp
    simp [isSlE, isSlF, isClE, isClF] at a b d f
    intro hc; have := hi hc; dsimp only at *; rw [a, b, d, f]; exact this
  | oneE1 hp hs =>
    rename_i t op j
    have hne : j ≠ t := by rintro rfl; rw [hp] at hs; cases hs
    have hp' : (s.pcs.set j .pLock)[t]? = some (.sNotify op) := by rw [List.getElem?_set_ne hne]; exact hp
    have a := countP_set' (p := isSlE) (x := .done op (.bool true)) hp'
    have b := countP_set' (p := isSlF) (x := .done op (.bool true)) hp'
    have d := countP_set' (p := isClE) (x := .done op (.bool true)) hp'
    have f := countP_set' (p := isClF) (x := .done op (.bool true)) hp'
    have a' := countP_set' (p := isSlE) (x := .pLock) hs
    have b' := countP_set' (p := isSlF) (x := .pLock) hs
    have d' := countP_set' (p := isClE) (x := .pLock) hs
    have f' := countP_set' (p := isClF) (x := .pLock) hs
    simp [isSlE, isSlF, isClE, isClF] at a b d f a' b' d' f'
    intro hc; have := hi hc; dsimp only at *; rw [a, b, d, f, b', d', f']
    exact ⟨fun h => this.1 (by omega), this.2⟩
  | oneF1 hp hs =>
    rename_i t op x j v
    have hne : j ≠ t := by rintro rfl; rw [hp] at hs; cases hs
    have hp' : (s.pcs.set j (.eLock v))[t]? = some (.rNotify op x) := by rw [List.getElem?_set_ne hne]; exact hp
    have a := countP_set' (p := isSlE) (x := .rRet op x) hp'
    have b := countP_set' (p := isSlF) (x := .rRet op x) hp'
    have d := countP_set' (p := isClE) (x := .rRet op x) hp'
    have f := countP_set' (p := isClF) (x := .rRet op x) hp'
    have a' := countP_set' (p := isSlE) (x := .eLock v) hs
    have b' := countP_set' (p := isSlF) (x := .eLock v) hs
    have d' := countP_set' (p := isClE) (x := .eLock v) hs
    have f' := countP_set' (p := isClF) (x := .eLock v) hs
    simp [isSlE, isSlF, isClE, isClF] at a b d f a' b' d' f'
    intro hc; have := hi hc; dsimp only at *; rw [a, b, d, f, a', d', f']
    exact ⟨this.1, fun h => this.2 (by omega)⟩
  | allE hp =>
    rename_i t
    have hp' : (s.pcs.map (fun x => (wakeE x).getD x))[t]? = some .cNotifyE := by rw [List.getElem?_map, hp]; rfl
    have a := countP_set' (p := isSlE) (x := .cNotifyF) hp'
    rw [no_slE_after] at a
    have a0 : isSlE (PC.cNotifyF : PC α) = false := rfl
    have a1 : isSlE (PC.cNotifyE : PC α) = false := rfl
    rw [a0, a1] at a
    intro hc
    dsimp only
    refine ⟨fun h => ?_, fun _ => ?_⟩
    · simp at a h; obtain ⟨x, hx, h⟩ := h; rw [a x hx] at h; cases h
    · rw [List.countP_pos_iff]
      exact ⟨.cNotifyF, List.mem_of_getElem? (i := t) (by
        rw [List.getElem?_set_self]; exact lt_of_getElem? hp'), rfl⟩
  | allF hp =>
    rename_i t
    have hp' : (s.pcs.map (fun x => (wakeF x).getD x))[t]? = some .cNotifyF := by rw [List.getElem?_map, hp]; rfl
    have a := countP_set' (p := isSlE) (x := .done .close .unit) hp'
    have b := countP_set' (p := isSlF) (x := .done .close .unit) hp'
    have d := countP_set' (p := isClE) (x := .done .close .unit) hp'
    rw [countP_map_wakeF (by intro x; cases x <;> rfl)] at a d
    rw [no_slF_after] at b
    have b0 : isSlF (PC.done .close .unit : PC α) = false := rfl
    have b1 : isSlF (PC.cNotifyF : PC α) = false := rfl
    rw [b0, b1] at b
    simp [isSlE, isClE] at a d
    intro hc; have := hi hc; dsimp only at *; rw [a, d]
    refine ⟨this.1, fun h => ?_⟩
    simp at b h; obtain ⟨x, hx, h⟩ := h; rw [b x hx] at h; cases h

theorem wakeC_reach {s : St α} (h : Reachable cfg n s) : WakeC s :=
  reach_ind (P := WakeC) (by intro hc; simp [init] at hc) (fun _ _ hp hs => wakeC_step hp hs) h

/-! ### Positions -/

/-- Asleep on one of the two condition variables (channel.hpp:92,181). -/
def PC.asleep : PC α → Bool
  | .pSleep => true
  | .eSleep _ => true
  | _ => false

/-- Inside a member function and not asleep (channel.hpp:58-212). -/
def PC.active : PC α → Bool
  | .idle => false
  | .pSleep => false
  | .eSleep _ => false
  | _ => true

theorem ready_of {s : St α} {t : Nat} {pc : PC α} (hp : s.pcs[t]? = some pc) (ha : pc.active = true)
    (h : s.owner = none ∨ pc.holds = true) : Ready cfg s t := by
  have : ∃ w s', stepAt cfg s t w pc = some s' := by
    cases pc
    case sNotify op =>
      obtain ⟨w, s', hs⟩ := notifyOne_enabled wakeE s
      exact ⟨w, _, by simp only [stepAt, hs, Option.map_some]; rfl⟩
    case rNotify op x =>
      obtain ⟨w, s', hs⟩ := notifyOne_enabled wakeF s
      exact ⟨w, _, by simp only [stepAt, hs, Option.map_some]; rfl⟩
    all_goals (first | (simp [PC.active] at ha; done) | skip)
    all_goals simp [PC.holds] at h
    all_goals
      refine ⟨none, ?_⟩
      simp only [stepAt, acquire]
      first
        | (rw [h]; exact ⟨_, rfl⟩)
        | (repeat split) <;> exact ⟨_, rfl⟩
  obtain ⟨w, s', hs⟩ := this
  exact ⟨w, s', by simp [next, hp, hs]⟩

/-- An action of a thread takes it closer to the end of its call. -/
theorem by_rank {s s' : St α} {a : Act α} {t : Nat} (h : next cfg s a = some s') (hb : a.By t) :
    ∃ pc pc', s.pcs[t]? = some pc ∧ s'.pcs[t]? = some pc' ∧ rank n pc' < rank n pc := by
  cases a with
  | call => exact hb.elim
  | spurious => exact hb.elim
  | stale u =>
    obtain rfl : u = t := hb
    simp only [next] at h
    split at h
    · rename_i v hp
      injection h with h; subst h
      exact ⟨_, _, hp, by simp [St.goto, List.getElem?_set_self (lt_of_getElem? hp)]; rfl, by simp [rank]⟩
    · rename_i v hp
      injection h with h; subst h
      exact ⟨_, _, hp, by simp [St.goto, List.getElem?_set_self (lt_of_getElem? hp)]; rfl, by simp [rank]⟩
    · simp at h
  | throw u =>
    obtain rfl : u = t := hb
    simp only [next] at h
    split at h
    · rename_i pc hp
      refine ⟨pc, ?_⟩
      have hlt := lt_of_getElem? hp
      cases pc <;> simp only [throwAt] at h
      all_goals
        repeat (split at h)
        all_goals first
          | (simp at h; done)
          | (injection h with h; subst h
             exact ⟨_, hp, by simp [St.goto, St.log, List.getElem?_set_self hlt]; rfl, by simp [rank]⟩)
    · simp at h
  | step u w =>
    obtain rfl : u = t := hb
    simp only [next] at h
    split at h
    · rename_i pc hp
      refine ⟨pc, ?_⟩
      have hlt := lt_of_getElem? hp
      have one : ∀ {sl : PC α → Option (PC α)} {s1}, notifyOne sl s w = some s1 → s1.pcs.length = s.pcs.length := by
        intro sl s1 h1
        unfold notifyOne at h1
        split at h1
        · split at h1 <;> simp at h1
          subst h1; rfl
        · split at h1
          · simp at h1
          · split at h1
            · simp at h1
            · injection h1 with h1; subst h1; simp [St.goto]
      cases pc
      case sNotify op =>
        simp only [stepAt, Option.map_eq_some_iff] at h
        obtain ⟨s1, h1, rfl⟩ := h
        exact ⟨_, hp, by simp only [St.goto]; rw [List.getElem?_set_self (by rw [one h1]; exact hlt)], by simp [rank]⟩
      case rNotify op x =>
        simp only [stepAt, Option.map_eq_some_iff] at h
        obtain ⟨s1, h1, rfl⟩ := h
        exact ⟨_, hp, by simp only [St.goto]; rw [List.getElem?_set_self (by rw [one h1]; exact hlt)], by simp [rank]⟩
      case cNotifyE =>
        simp only [stepAt] at h
        injection h with h; subst h
        exact ⟨_, hp, by simp only [St.goto, notifyAll]; rw [List.getElem?_set_self (by simpa using hlt)],
          by simp [rank]; omega⟩
      case cNotifyF =>
        simp only [stepAt] at h
        injection h with h; subst h
        exact ⟨_, hp, by simp only [St.goto, notifyAll]; rw [List.getElem?_set_self (by simpa using hlt)],
          by simp [rank]⟩
      all_goals
        simp only [stepAt, acquire, release] at h
        repeat (split at h)
        all_goals first
          | (simp at h; done)
          | (injection h with h; subst h
             exact ⟨_, hp, by simp [St.goto, St.log, List.getElem?_set_self hlt]; rfl, by simp [rank]⟩)
    · simp at h

theorem Loc.rank_lt {t : Nat} {q c o} {pc : PC α} {q' c' o' pc' es} (h : Loc cfg t q c o pc q' c' o' pc' es)
    (ha : pc.active = true) : rank n pc' < rank n pc := by
  cases h <;> simp [PC.active] at ha <;> simp [rank]

theorem Loc.owner_kept {t u : Nat} {q c o} {pc : PC α} {q' c' o' pc' es} (h : Loc cfg t q c o pc q' c' o' pc' es)
    (ho : o = some u) : o' = none ∨ o' = some u := by
  cases h <;> simp_all

/-- What one transition does to a thread that is inside a member function and awake. -/
theorem step_active {s s' : St α} (h : Step cfg s s') {u : Nat} {pc : PC α} (hp : s.pcs[u]? = some pc)
    (ha : pc.active = true) : ∃ pc', s'.pcs[u]? = some pc' ∧ (pc' = pc ∨ rank n pc' < rank n pc) := by
  have key : ∀ {t : Nat} {p p' : PC α}, s.pcs[t]? = some p → rank n p' < rank n p →
      ∃ pc', (s.pcs.set t p')[u]? = some pc' ∧ (pc' = pc ∨ rank n pc' < rank n pc) := by
    intro t p p' h1 h2
    by_cases htu : t = u
    · subst htu
      rw [hp] at h1; injection h1 with h1; subst h1
      exact ⟨_, List.getElem?_set_self (lt_of_getElem? hp), .inr h2⟩
    · exact ⟨pc, by rw [List.getElem?_set_ne htu]; exact hp, .inl rfl⟩
  cases h with
  | loc hp' hl =>
    rename_i t p q' c' o' p' es
    by_cases htu : t = u
    · subst htu
      rw [hp] at hp'; injection hp' with hp'; subst hp'
      exact ⟨_, List.getElem?_set_self (lt_of_getElem? hp), .inr (hl.rank_lt ha)⟩
    · exact ⟨pc, by dsimp only; rw [List.getElem?_set_ne htu]; exact hp, .inl rfl⟩
  | oneE0 hp' hn => exact key hp' (by simp [rank])
  | oneF0 hp' hn => exact key hp' (by simp [rank])
  | oneE1 hp' hs =>
    rename_i t op j
    have hju : j ≠ u := by rintro rfl; rw [hp] at hs; injection hs with hs; subst hs; simp [PC.active] at ha
    by_cases htu : t = u
    · subst htu
      rw [hp] at hp'; injection hp' with hp'; subst hp'
      exact ⟨_, List.getElem?_set_self (by simpa using lt_of_getElem? hp), .inr (by simp [rank])⟩
    · exact ⟨pc, by dsimp only; rw [List.getElem?_set_ne htu, List.getElem?_set_ne hju]; exact hp, .inl rfl⟩
  | oneF1 hp' hs =>
    rename_i t op x j v
    have hju : j ≠ u := by rintro rfl; rw [hp] at hs; injection hs with hs; subst hs; simp [PC.active] at ha
    by_cases htu : t = u
    · subst htu
      rw [hp] at hp'; injection hp' with hp'; subst hp'
      exact ⟨_, List.getElem?_set_self (by simpa using lt_of_getElem? hp), .inr (by simp [rank])⟩
    · exact ⟨pc, by dsimp only; rw [List.getElem?_set_ne htu, List.getElem?_set_ne hju]; exact hp, .inl rfl⟩
  | allE hp' =>
    rename_i t
    by_cases htu : t = u
    · subst htu
      rw [hp] at hp'; injection hp' with hp'; subst hp'
      exact ⟨_, List.getElem?_set_self (by simpa using lt_of_getElem? hp), .inr (by simp [rank]; omega)⟩
    · refine ⟨pc, ?_, .inl rfl⟩
      dsimp only
      rw [List.getElem?_set_ne htu, List.getElem?_map, hp]
      cases pc <;> simp [PC.active] at ha <;> rfl
  | allF hp' =>
    rename_i t
    by_cases htu : t = u
    · subst htu
      rw [hp] at hp'; injection hp' with hp'; subst hp'
      exact ⟨_, List.getElem?_set_self (by simpa using lt_of_getElem? hp), .inr (by simp [rank])⟩
    · refine ⟨pc, ?_, .inl rfl⟩
      dsimp only
      rw [List.getElem?_set_ne htu, List.getElem?_map, hp]
      cases pc <;> simp [PC.active] at ha <;> rfl

/-! ### Sequences of numbers -/

@[elab_as_elim]
theorem le_ind {m : Nat} {P : ∀ k, m ≤ k → Prop} (base : P m (Nat.le_refl m))
    (succ : ∀ k hmk, P k hmk → P (k + 1) (Nat.le_succ_of_le hmk)) : ∀ k hmk, P k hmk := by
  intro k hmk
  induction k with
  | zero => obtain rfl : m = 0 := by omega
            exact base
  | succ k ih =>
    by_cases h : m = k + 1
    · subst h; exact base
    · exact succ k (by omega) (ih (by omega))

theorem eventually_const {f : Nat → Nat} {N : Nat} (h : ∀ i, N ≤ i → f (i + 1) ≤ f i) :
    ∃ M, N ≤ M ∧ ∀ i, M ≤ i → f i = f M := by
  suffices H : ∀ k M, N ≤ M → f M ≤ k → ∃ M', N ≤ M' ∧ ∀ i, M' ≤ i → f i = f M' from H (f N) N (Nat.le_refl _) (Nat.le_refl _)
  intro k
  induction k with
  | zero =>
    intro M hM h0
    refine ⟨M, hM, ?_⟩
    intro i hi
    induction i, hi using le_ind with
    | base => rfl
    | succ i hi ih => have := h i (by omega); omega
  | succ k ih =>
    intro M hM hk
    by_cases hc : ∀ i, M ≤ i → f i = f M
    · exact ⟨M, hM, hc⟩
    · have hle : ∀ i, M ≤ i → f i ≤ f M := by
        intro i hi
        induction i, hi using le_ind with
        | base => exact Nat.le_refl _
        | succ i hi ih => have := h i (by omega); omega
      obtain ⟨i, hi⟩ := Classical.not_forall.mp hc
      obtain ⟨hi1, hi2⟩ := Classical.not_imp.mp hi
      exact ih i (by omega) (by have := hle i hi1; omega)

/-! ### Executions -/

namespace Exec

theorem reach (e : Exec cfg α n) : ∀ i, Reachable cfg n (e.st i)
  | 0 => ⟨[], by rw [e.start]; rfl⟩
  | i + 1 => by
    obtain ⟨as, h⟩ := reach e i
    rcases e.ok i with ⟨_, h1⟩ | ⟨a, _, h1⟩
    · exact ⟨as, by rw [h, h1]⟩
    · refine ⟨as ++ [a], ?_⟩
      have : ∀ (l : List (Act α)) (s : St α), run cfg s l = some (e.st i) → run cfg s (l ++ [a]) = some (e.st (i + 1)) := by
        intro l
        induction l with
        | nil => intro s h; simp [run] at h; subst h; simp [run, h1]
        | cons b l ih =>
          intro s h
          simp only [run, Option.bind_eq_some_iff, List.cons_append] at h ⊢
          obtain ⟨s1, h2, h3⟩ := h
          exact ⟨s1, h2, ih s1 h3⟩
      exact this as _ h

theorem cases (e : Exec cfg α n) (i : Nat) : e.st (i + 1) = e.st i ∨ Step cfg (e.st i) (e.st (i + 1)) := by
  rcases e.ok i with ⟨_, h⟩ | ⟨a, _, h⟩
  · exact .inl h
  · exact .inr (next_step h)

/-- The position of thread `u` at instant `i` (about channel.hpp:58-212). -/
def pc (e : Exec cfg α n) (i u : Nat) : PC α := ((e.st i).pcs[u]?).getD .idle

theorem pc_eq (e : Exec cfg α n) {i u : Nat} (hu : u < n) : (e.st i).pcs[u]? = some (e.pc i u) := by
  unfold pc
  rw [List.getElem?_eq_getElem (by rw [reachable_length (e.reach i)]; exact hu)]; rfl

theorem lt_of_pc (e : Exec cfg α n) {i u : Nat} {p : PC α} (h : (e.st i).pcs[u]? = some p) : u < n := by
  have := lt_of_getElem? h; rwa [reachable_length (e.reach i)] at this

/-- A thread that stays inside a member function and awake, and that can run again and again, cannot exist. -/
theorem active_ready (e : Exec cfg α n) (hf : e.Fair) {u N : Nat} (hu : u < n)
    (ha : ∀ i, N ≤ i → (e.pc i u).active = true) (hr : ∀ M, ∃ i, M ≤ i ∧ Ready cfg (e.st i) u) : False := by
  have hmono : ∀ i, N ≤ i → rank n (e.pc (i + 1) u) ≤ rank n (e.pc i u) := by
    intro i hi
    rcases e.cases i with h | h
    · rw [show e.pc (i + 1) u = e.pc i u by unfold pc; rw [h]]; exact Nat.le_refl _
    · obtain ⟨p', h1, h2⟩ := step_active (n := n) h (e.pc_eq hu) (ha i hi)
      rw [e.pc_eq hu] at h1
      injection h1 with h1; subst h1
      rcases h2 with h2 | h2
      · rw [h2]; exact Nat.le_refl _
      · omega
  obtain ⟨M, hM, hc⟩ := eventually_const (f := fun i => rank n (e.pc i u)) hmono
  obtain ⟨i, hi, a, h1, h2⟩ := hf u hr M
  rcases e.ok i with ⟨h3, _⟩ | ⟨a', h3, h4⟩
  · rw [h1] at h3; cases h3
  · rw [h1] at h3; injection h3 with h3; subst h3
    obtain ⟨p, p', h5, h6, h7⟩ := by_rank (n := n) h4 h2
    rw [e.pc_eq hu] at h5 h6
    injection h5 with h5; injection h6 with h6; subst h5; subst h6
    have a1 := hc i hi
    have a2 := hc (i + 1) (by omega)
    omega

/-- The mutex is free again and again. -/
theorem mutex_free (e : Exec cfg α n) (hf : e.Fair) (N : Nat) : ∃ i, N ≤ i ∧ (e.st i).owner = none := by
  apply Classical.byContradiction
  intro hno
  have hne : ∀ i, N ≤ i → (e.st i).owner ≠ none := fun i hi h => hno ⟨i, hi, h⟩
  obtain ⟨u, hu⟩ := Option.ne_none_iff_exists'.mp (hne N (Nat.le_refl _))
  have hown : ∀ i, N ≤ i → (e.st i).owner = some u := by
    intro i hi
    induction i, hi using le_ind with
    | base => exact hu
    | succ i hi ih =>
      rcases e.cases i with h | h
      · rw [h]; exact ih
      · have h2 := hne (i + 1) (by omega)
        generalize e.st (i + 1) = s' at *
        cases h with
        | loc hp hl =>
          dsimp only at h2 ⊢
          exact (hl.owner_kept ih).resolve_left h2
        | _ => exact ih
  have hlt : u < n := by
    have := (lockInv_reach (e.reach N)).2 u hu
    rwa [reachable_length (e.reach N)] at this
  have hh : ∀ i, N ≤ i → (e.pc i u).holds = true := fun i hi =>
    ((lockInv_reach (e.reach i)).1 u _ (e.pc_eq hlt)).mpr (hown i hi)
  have hact : ∀ i, N ≤ i → (e.pc i u).active = true := by
    intro i hi
    have := hh i hi
    revert this
    generalize e.pc i u = p
    cases p <;> simp [PC.holds, PC.active]
  exact e.active_ready hf hlt hact (fun M =>
    ⟨max M N, by omega, ready_of (e.pc_eq hlt) (hact _ (by omega)) (.inr (hh _ (by omega)))⟩)

/-- Every thread is outside the channel or asleep again and again. -/
theorem rests (e : Exec cfg α n) (hf : e.Fair) {u : Nat} (hu : u < n) (N : Nat) :
    ∃ i, N ≤ i ∧ (e.pc i u).active = false := by
  apply Classical.byContradiction
  intro hno
  have ha : ∀ i, N ≤ i → (e.pc i u).active = true := by
    intro i hi
    cases h : (e.pc i u).active with
    | true => rfl
    | false => exact absurd ⟨i, hi, h⟩ hno
  refine e.active_ready hf hu ha (fun M => ?_)
  obtain ⟨i, hi, ho⟩ := e.mutex_free hf (max M N)
  exact ⟨i, by omega, ready_of (e.pc_eq hu) (ha i (by omega)) (.inl ho)⟩

end Exec

end Verif.Channel
