import Verif.Channel.History

/-! Progress: which states have no enabled action, and that the threads cannot run for ever without new calls. -/
namespace Verif.Channel

variable {α : Type}

/-- No thread can take a step (about the model of channel.hpp:58-212). -/
def Quiescent (cfg : Cfg) (s : St α) : Prop := ∀ t w, next cfg s (.step t w) = none

theorem notifyOne_enabled (sl : PC α → Option (PC α)) (s : St α) : ∃ w s', notifyOne sl s w = some s' := by
  by_cases h : s.pcs.any (fun p => (sl p).isSome)
  · obtain ⟨p, hp, h⟩ := List.any_eq_true.mp h
    obtain ⟨i, hi⟩ := List.mem_iff_getElem?.mp hp
    obtain ⟨p', hp'⟩ := Option.isSome_iff_exists.mp h
    exact ⟨some i, s.goto i p', by simp [notifyOne, hi, hp']⟩
  · exact ⟨none, s, by simp only [notifyOne]; rw [if_neg h]⟩

theorem stepAt_holds {cfg : Cfg} {s : St α} {t : Nat} {pc : PC α} (h : pc.holds = true) :
    ∃ s', stepAt cfg s t none pc = some s' := by
  cases pc <;> simp [PC.holds] at h <;> simp only [stepAt] <;> (try split) <;> exact ⟨_, rfl⟩

/-- When nothing can run, every thread is outside the channel or asleep in `pop` or `push`. -/
theorem quiescent_pc {cfg : Cfg} {s : St α} (hl : LockInv s) (hq : Quiescent cfg s) {t : Nat} {pc : PC α}
    (hp : s.pcs[t]? = some pc) : pc = .idle ∨ pc = .pSleep ∨ ∃ v, pc = .eSleep v := by
  have ho : s.owner = none := by
    cases ho : s.owner with
    | none => rfl
    | some i =>
      have hlt := hl.2 i ho
      have hi : s.pcs[i]? = some s.pcs[i] := List.getElem?_eq_getElem hlt
      have hh := (hl.1 i _ hi).mpr ho
      obtain ⟨s', hs⟩ := stepAt_holds (cfg := cfg) (s := s) (t := i) hh
      have := hq i none
      simp [next, hi, hs] at this
  have hn : ∀ w, stepAt cfg s t w pc = none := by
    intro w
    have := hq t w
    simpa [next, hp] using this
  cases pc
  case idle => exact .inl rfl
  case pSleep => exact .inr (.inl rfl)
  case eSleep v => exact .inr (.inr ⟨v, rfl⟩)
  case sNotify op =>
    obtain ⟨w, s', hs⟩ := notifyOne_enabled wakeE s
    have := hn w
    simp [stepAt, hs] at this
  case rNotify op x =>
    obtain ⟨w, s', hs⟩ := notifyOne_enabled wakeF s
    have := hn w
    simp [stepAt, hs] at this
  all_goals
    have := hn none
    simp only [stepAt, acquire, ho] at this
    repeat (split at this)
    all_goals simp at this

theorem quiescent_count {cfg : Cfg} {s : St α} (hl : LockInv s) (hq : Quiescent cfg s) {p : PC α → Bool}
    (h1 : p .idle = false) (h2 : p .pSleep = false) (h3 : ∀ v, p (.eSleep v) = false) : s.pcs.countP p = 0 := by
  rw [List.countP_eq_zero]
  intro pc hpc
  obtain ⟨i, hi⟩ := List.mem_iff_getElem?.mp hpc
  rcases quiescent_pc hl hq hi with rfl | rfl | ⟨v, rfl⟩ <;> simp [*]

theorem countP_pos_of {p : PC α → Bool} {l : List (PC α)} {i : Nat} {pc : PC α} (h : l[i]? = some pc)
    (hp : p pc = true) : 0 < l.countP p := by
  rw [List.countP_pos_iff]
  exact ⟨pc, List.mem_of_getElem? h, hp⟩

theorem quiescent_consumer {cfg : Cfg} (hm : cfg.moveThrow = false) {n : Nat} {s : St α} (hr : Reachable cfg n s)
    (hq : Quiescent cfg s) {t : Nat} (hp : s.pcs[t]? = some .pSleep) : s.q = [] ∧ s.closed = false := by
  have hl := lockInv_reach hr
  have hs : 0 < s.pcs.countP isSlE := countP_pos_of hp rfl
  have hw := wakeE_reach hm hr
  cases hc : s.closed with
  | true =>
    have := hw.2 hc hs
    rw [quiescent_count hl hq (p := isClE) rfl rfl (fun _ => rfl)] at this; omega
  | false =>
    have := hw.1 hc hs
    rw [quiescent_count hl hq (p := isTokE) rfl rfl (fun _ => rfl)] at this
    exact ⟨List.length_eq_zero_iff.mp (by omega), rfl⟩

theorem quiescent_producer {cfg : Cfg} (hm : cfg.ctorThrow = false) {n : Nat} {s : St α} (hr : Reachable cfg n s)
    (hq : Quiescent cfg s) {t : Nat} {v : α} (hp : s.pcs[t]? = some (.eSleep v)) :
    cfg.cap ≤ s.q.length ∧ s.closed = false := by
  have hl := lockInv_reach hr
  have hs : 0 < s.pcs.countP isSlF := countP_pos_of hp rfl
  have hw := wakeF_reach hm hr
  cases hc : s.closed with
  | true =>
    have := hw.2 hc hs
    rw [quiescent_count hl hq (p := isClF) rfl rfl (fun _ => rfl)] at this; omega
  | false =>
    have := hw.1 hc hs
    rw [quiescent_count hl hq (p := isTokF) rfl rfl (fun _ => rfl)] at this
    exact ⟨by omega, rfl⟩

/-! ### Termination of the internal steps -/

/-- Remaining work of a thread, `n` threads in total (measure for channel.hpp:58-212). -/
def rank (n : Nat) : PC α → Nat
  | .idle => 0
  | .done _ _ => 1
  | .relRet _ _ => 2
  | .rRet _ _ => 2
  | .rNotify _ _ => 5
  | .rUnlock _ _ => 6
  | .pBody => 7
  | .pSleep => 8
  | .pCheck => 9
  | .pLock => 10
  | .qBody => 7
  | .qLock => 8
  | .sNotify _ => 4
  | .sUnlock _ => 5
  | .eBody _ => 6
  | .eSleep _ => 7
  | .eCheck _ => 8
  | .eLock _ => 9
  | .eFast _ => 10
  | .tBody _ => 6
  | .tLock _ => 7
  | .tFast _ => 8
  | .kRead => 2
  | .cNotifyF => 2 * n + 2
  | .cNotifyE => 4 * n + 3
  | .cUnlock => 4 * n + 4
  | .cSet => 4 * n + 5
  | .cLock => 4 * n + 6

/-- The remaining work of all threads, measure for the model of channel.hpp:58-212. -/
def work (n : Nat) (pcs : List (PC α)) : Nat := (pcs.map (rank n)).sum

theorem work_set {n t : Nat} {pcs : List (PC α)} {pc pc' : PC α} (h : pcs[t]? = some pc) :
    work n (pcs.set t pc') + rank n pc = work n pcs + rank n pc' := by
  unfold work
  induction pcs generalizing t with
  | nil => simp at h
  | cons a l ih =>
    cases t with
    | zero => simp at h; subst h; simp; omega
    | succ t =>
      simp at h
      have := ih h
      simp only [List.set_cons_succ, List.map_cons, List.sum_cons]
      omega

theorem work_map {n : Nat} {pcs : List (PC α)} {f : PC α → PC α} (hf : ∀ p, rank n (f p) ≤ rank n p + 2) :
    work n (pcs.map f) ≤ work n pcs + 2 * pcs.length := by
  unfold work
  induction pcs with
  | nil => simp
  | cons a l ih => simp only [List.map_cons, List.sum_cons, List.length_cons]; have := hf a; omega

theorem work_step {cfg : Cfg} {s s' : St α} {t : Nat} {w : Option Nat} {pc : PC α} (hp : s.pcs[t]? = some pc)
    (h : stepAt cfg s t w pc = some s') :
    work s.pcs.length s'.pcs + 1 ≤ work s.pcs.length s.pcs ∧ s'.pcs.length = s.pcs.length := by
  have key : ∀ pc', rank s.pcs.length pc' < rank s.pcs.length pc →
      work s.pcs.length (s.pcs.set t pc') + 1 ≤ work s.pcs.length s.pcs := by
    intro pc' h
    have := work_set (n := s.pcs.length) (pc' := pc') hp
    omega
  have hlt := lt_of_getElem? hp
  generalize hn : s.pcs.length = n at *
  have one : ∀ {sl : PC α → Option (PC α)} {s1 pc'}, notifyOne sl s w = some s1 →
      (∀ p p', sl p = some p' → rank n p' = rank n p + 2) → sl pc = none → rank n pc' + 3 ≤ rank n pc →
      work n (s1.pcs.set t pc') + 1 ≤ work n s.pcs ∧ (s1.pcs.set t pc').length = n := by
    intro sl s1 pc' h1 h2 h3 h4
    unfold notifyOne at h1
    split at h1
    · split at h1 <;> simp at h1
      subst h1
      exact ⟨key _ (by omega), by simp [hn]⟩
    · rename_i i
      split at h1
      · simp at h1
      · rename_i p hpi
        split at h1
        · simp at h1
        · rename_i p' hp'
          injection h1 with h1; subst h1
          simp only [St.goto]
          refine ⟨?_, by simp [hn]⟩
          have hne : i ≠ t := by
            rintro rfl
            rw [hp] at hpi; injection hpi with hpi; subst hpi
            rw [h3] at hp'; cases hp'
          have a := work_set (n := n) (pc' := p') hpi
          have b := work_set (n := n) (pcs := s.pcs.set i p') (t := t) (pc := pc) (pc' := pc')
            (by rw [List.getElem?_set_ne hne]; exact hp)
          have := h2 _ _ hp'
          omega
  have hE : ∀ p p' : PC α, wakeE p = some p' → rank n p' = rank n p + 2 := by
    intro p p' h; cases p <;> simp [wakeE] at h; subst h; rfl
  have hF : ∀ p p' : PC α, wakeF p = some p' → rank n p' = rank n p + 2 := by
    intro p p' h; cases p <;> simp [wakeF] at h; subst h; rfl
  have all : ∀ {sl : PC α → Option (PC α)} {pc'}, (∀ p p', sl p = some p' → rank n p' = rank n p + 2) →
      sl pc = none → rank n pc' + 2 * n + 1 ≤ rank n pc →
      work n ((s.pcs.map (fun p => (sl p).getD p)).set t pc') + 1 ≤ work n s.pcs ∧
        ((s.pcs.map (fun p => (sl p).getD p)).set t pc').length = n := by
    intro sl pc' h2 h3 h4
    refine ⟨?_, by simp [hn]⟩
    have a := work_map (n := n) (pcs := s.pcs) (f := fun p => (sl p).getD p) (by
      intro p
      cases hs : sl p with
      | none => simp [hs]
      | some p' => simp [hs]; have := h2 _ _ hs; omega)
    have b := work_set (n := n) (pcs := s.pcs.map (fun p => (sl p).getD p)) (t := t) (pc := pc) (pc' := pc')
      (by rw [List.getElem?_map, hp]; simp [h3])
    rw [hn] at a
    omega
  cases pc
  case sNotify op =>
    simp only [stepAt, Option.map_eq_some_iff] at h
    obtain ⟨s1, h1, rfl⟩ := h
    exact one h1 hE rfl (by simp [rank])
  case rNotify op x =>
    simp only [stepAt, Option.map_eq_some_iff] at h
    obtain ⟨s1, h1, rfl⟩ := h
    exact one h1 hF rfl (by simp [rank])
  case cNotifyE =>
    simp only [stepAt] at h
    injection h with h; subst h
    exact all hE rfl (by simp [rank]; omega)
  case cNotifyF =>
    simp only [stepAt] at h
    injection h with h; subst h
    exact all hF rfl (by simp [rank]; omega)
  all_goals
    simp only [stepAt, acquire, release] at h
    repeat (split at h)
    all_goals first
      | (simp at h; done)
      | (injection h with h; subst h; exact ⟨key _ (by simp [rank]), by simp [St.goto, St.log, hn]⟩)

theorem work_throw {cfg : Cfg} {s s' : St α} {t : Nat} {pc : PC α} (hp : s.pcs[t]? = some pc)
    (h : throwAt cfg s t pc = some s') :
    work s.pcs.length s'.pcs + 1 ≤ work s.pcs.length s.pcs ∧ s'.pcs.length = s.pcs.length := by
  have key : ∀ pc', rank s.pcs.length pc' < rank s.pcs.length pc →
      work s.pcs.length (s.pcs.set t pc') + 1 ≤ work s.pcs.length s.pcs := by
    intro pc' h
    have := work_set (n := s.pcs.length) (pc' := pc') hp
    omega
  cases pc <;> simp only [throwAt] at h
  all_goals
    repeat (split at h)
    all_goals first
      | (simp at h; done)
      | (injection h with h; subst h; exact ⟨key _ (by simp [rank]), by simp [St.goto, St.log]⟩)

theorem work_stale {cfg : Cfg} {s s' : St α} {t : Nat} (h : next cfg s (.stale t) = some s') :
    work s.pcs.length s'.pcs + 1 ≤ work s.pcs.length s.pcs ∧ s'.pcs.length = s.pcs.length := by
  simp only [next] at h
  split at h
  · rename_i v hp
    injection h with h; subst h
    have := work_set (n := s.pcs.length) (pc' := .eLock v) hp
    simp only [rank] at this
    exact ⟨by simp only [St.goto]; omega, by simp [St.goto]⟩
  · rename_i v hp
    injection h with h; subst h
    have := work_set (n := s.pcs.length) (pc' := .tLock v) hp
    simp only [rank] at this
    exact ⟨by simp only [St.goto]; omega, by simp [St.goto]⟩
  · simp at h

/-- An action of a thread inside the channel: not a new call and not a spurious wakeup (about the model of channel.hpp:58-212). -/
def Act.internal : Act α → Bool
  | .step _ _ => true
  | .throw _ => true
  | .stale _ => true
  | _ => false

theorem run_bounded {cfg : Cfg} {s s' : St α} {acts : List (Act α)} (hi : ∀ a ∈ acts, a.internal = true)
    (h : run cfg s acts = some s') : acts.length + work s.pcs.length s'.pcs ≤ work s.pcs.length s.pcs := by
  induction acts generalizing s with
  | nil => simp [run] at h; subst h; simp
  | cons a as ih =>
    simp only [run, Option.bind_eq_some_iff] at h
    obtain ⟨s1, h1, h2⟩ := h
    have h3 := ih (fun a ha => hi a (by simp [ha])) h2
    have : work s.pcs.length s1.pcs + 1 ≤ work s.pcs.length s.pcs ∧ s1.pcs.length = s.pcs.length := by
      have ha := hi a (by simp)
      cases a with
      | call t op => simp [Act.internal] at ha
      | spurious t => simp [Act.internal] at ha
      | stale t => exact work_stale h1
      | step t w =>
        simp only [next] at h1
        split at h1
        · rename_i hp; exact work_step hp h1
        · simp at h1
      | throw t =>
        simp only [next] at h1
        split at h1
        · rename_i hp; exact work_throw hp h1
        · simp at h1
    rw [this.2] at h3
    simp only [List.length_cons]
    omega

theorem work_le (n : Nat) (pcs : List (PC α)) : work n pcs ≤ pcs.length * (4 * n + 10) := by
  unfold work
  induction pcs with
  | nil => simp
  | cons a l ih =>
    simp only [List.map_cons, List.sum_cons, List.length_cons]
    have : rank n a ≤ 4 * n + 10 := by cases a <;> simp only [rank] <;> omega
    rw [Nat.add_mul]; omega

theorem next_length {cfg : Cfg} {s s' : St α} {a : Act α} (h : next cfg s a = some s') :
    s'.pcs.length = s.pcs.length := by
  cases a with
  | call t op =>
    simp only [next] at h
    split at h <;> simp at h
    subst h; simp [St.goto, St.log]
  | spurious t =>
    simp only [next] at h
    split at h <;> simp at h <;> subst h <;> simp [St.goto]
  | stale t => exact (work_stale h).2
  | step t w =>
    simp only [next] at h
    split at h
    · rename_i hp; exact (work_step hp h).2
    · simp at h
  | throw t =>
    simp only [next] at h
    split at h
    · rename_i hp; exact (work_throw hp h).2
    · simp at h

theorem run_length {cfg : Cfg} {s s' : St α} {acts : List (Act α)} (h : run cfg s acts = some s') :
    s'.pcs.length = s.pcs.length := by
  induction acts generalizing s with
  | nil => simp [run] at h; subst h; rfl
  | cons a as ih =>
    simp only [run, Option.bind_eq_some_iff] at h
    obtain ⟨s1, h1, h2⟩ := h
    rw [ih h2, next_length h1]

theorem reachable_length {cfg : Cfg} {n : Nat} {s : St α} (h : Reachable cfg n s) : s.pcs.length = n := by
  obtain ⟨acts, h⟩ := h
  rw [run_length h]; simp [init]

end Verif.Channel
