import Verif.Channel.Lemmas

/-! No lost wakeups: the counting invariants. -/
namespace Verif.Channel

variable {α : Type}

theorem countP_set' {β : Type} {p : β → Bool} {l : List β} {t : Nat} {x z : β} (h : l[t]? = some z) :
    (l.set t x).countP p + (if p z then 1 else 0) = l.countP p + (if p x then 1 else 0) := by
  induction l generalizing t with
  | nil => simp at h
  | cons a l ih =>
    cases t with
    | zero => simp at h; subst h; simp [List.countP_cons]; omega
    | succ t =>
      simp at h
      have := ih h
      simp only [List.set_cons_succ, List.countP_cons]
      omega

/-- Asleep in `pop` (channel.hpp:181). -/
def isSlE : PC α → Bool | .pSleep => true | _ => false
/-- Will notify a consumer, or is a consumer on its way to test the queue (channel.hpp:103, 129, 181). -/
def isTokE : PC α → Bool | .sUnlock _ | .sNotify _ | .pLock | .pCheck | .pBody => true | _ => false
/-- A close that still has to wake all consumers (channel.hpp:64-67). -/
def isClE : PC α → Bool | .cUnlock | .cNotifyE => true | _ => false
/-- Asleep in `emplace` (channel.hpp:92). -/
def isSlF : PC α → Bool | .eSleep _ => true | _ => false
/-- Will notify a producer, or is a producer on its way to test the queue (channel.hpp:92, 192, 210). -/
def isTokF : PC α → Bool | .rUnlock _ _ | .rNotify _ _ | .eLock _ | .eCheck _ | .eBody _ => true | _ => false
/-- A close that still has to wake all producers (channel.hpp:64-68). -/
def isClF : PC α → Bool | .cUnlock | .cNotifyE | .cNotifyF => true | _ => false

/-- No consumer sleeps forever: invariant for the condition variable of channel.hpp:36. -/
def WakeE (s : St α) : Prop :=
  (s.closed = false → 0 < s.pcs.countP isSlE → s.q.length ≤ s.pcs.countP isTokE) ∧
  (s.closed = true → 0 < s.pcs.countP isSlE → 0 < s.pcs.countP isClE)

/-- No producer sleeps forever: invariant for the condition variable of channel.hpp:37. -/
def WakeF (cfg : Cfg) (s : St α) : Prop :=
  (s.closed = false → 0 < s.pcs.countP isSlF → cfg.cap ≤ s.q.length + s.pcs.countP isTokF) ∧
  (s.closed = true → 0 < s.pcs.countP isSlF → 0 < s.pcs.countP isClF)

theorem wakeE_loc {cfg : Cfg} (hm : cfg.moveThrow = false) {t : Nat} {q c o} {pc : PC α} {q' c' o' pc' es}
    {pcs : List (PC α)} {h h'} (hl : Loc cfg t q c o pc q' c' o' pc' es) (hp : pcs[t]? = some pc)
    (hb : bodyOk cfg q c pc) (hi : WakeE ⟨q, c, o, pcs, h⟩) : WakeE ⟨q', c', o', pcs.set t pc', h'⟩ := by
  have a := countP_set' (p := isSlE) (x := pc') hp
  have b := countP_set' (p := isTokE) (x := pc') hp
  have d := countP_set' (p := isClE) (x := pc') hp
  obtain ⟨h1, h2⟩ := hi
  dsimp only at h1 h2
  unfold WakeE
  dsimp only
  generalize (pcs.set t pc').countP isSlE = A at *
  generalize (pcs.set t pc').countP isTokE = B at *
  generalize (pcs.set t pc').countP isClE = D at *
  generalize pcs.countP isSlE = A' at *
  generalize pcs.countP isTokE = B' at *
  generalize pcs.countP isClE = D' at *
  clear hp
  cases hl
  case call op => cases op <;> simp [entry, isSlE, isTokE, isClE] at a b d <;> grind
  all_goals simp [isSlE, isTokE, isClE, bodyOk] at a b d hb
  all_goals grind

theorem wakeF_loc {cfg : Cfg} (hm : cfg.ctorThrow = false) {t : Nat} {q c o} {pc : PC α} {q' c' o' pc' es}
    {pcs : List (PC α)} {h h'} (hl : Loc cfg t q c o pc q' c' o' pc' es) (hp : pcs[t]? = some pc)
    (hb : bodyOk cfg q c pc) (hi : WakeF cfg ⟨q, c, o, pcs, h⟩) : WakeF cfg ⟨q', c', o', pcs.set t pc', h'⟩ := by
  have a := countP_set' (p := isSlF) (x := pc') hp
  have b := countP_set' (p := isTokF) (x := pc') hp
  have d := countP_set' (p := isClF) (x := pc') hp
  obtain ⟨h1, h2⟩ := hi
  dsimp only at h1 h2
  unfold WakeF
  dsimp only
  generalize (pcs.set t pc').countP isSlF = A at *
  generalize (pcs.set t pc').countP isTokF = B at *
  generalize (pcs.set t pc').countP isClF = D at *
  generalize pcs.countP isSlF = A' at *
  generalize pcs.countP isTokF = B' at *
  generalize pcs.countP isClF = D' at *
  clear hp
  cases hl
  case call op => cases op <;> simp [entry, isSlF, isTokF, isClF] at a b d <;> grind
  all_goals simp [isSlF, isTokF, isClF, bodyOk] at a b d hb
  all_goals grind

theorem countP_map_wakeE {p : PC α → Bool} {l : List (PC α)} (h : ∀ x, p ((wakeE x).getD x) = p x) :
    (l.map (fun x => (wakeE x).getD x)).countP p = l.countP p := by
  rw [List.countP_map]; congr 1; funext x; exact h x

theorem countP_map_wakeF {p : PC α → Bool} {l : List (PC α)} (h : ∀ x, p ((wakeF x).getD x) = p x) :
    (l.map (fun x => (wakeF x).getD x)).countP p = l.countP p := by
  rw [List.countP_map]; congr 1; funext x; exact h x

theorem no_slE_after {l : List (PC α)} : (l.map (fun x => (wakeE x).getD x)).countP isSlE = 0 := by
  rw [List.countP_eq_zero]
  intro a ha
  obtain ⟨b, _, rfl⟩ := List.mem_map.mp ha
  cases b <;> simp [wakeE, isSlE]

theorem no_slF_after {l : List (PC α)} : (l.map (fun x => (wakeF x).getD x)).countP isSlF = 0 := by
  rw [List.countP_eq_zero]
  intro a ha
  obtain ⟨b, _, rfl⟩ := List.mem_map.mp ha
  cases b <;> simp [wakeF, isSlF]

theorem wakeE_step {cfg : Cfg} (hm : cfg.moveThrow = false) {s s' : St α} (hb : BodyInv cfg s) (hi : WakeE s)
    (h : Step cfg s s') : WakeE s' := by
  cases h with
  | loc hp hl => exact wakeE_loc hm hl hp (hb _ _ hp) hi
  | @oneE0 t op hp hn =>
    have : s.pcs.countP isSlE = 0 := by
      rw [List.countP_eq_zero]
      intro a ha
      have := hn a ha
      cases a <;> simp_all [isSlE]
    have a := countP_set' (p := isSlE) (x := .done op (.bool true)) hp
    unfold WakeE; dsimp only
    simp [isSlE] at a
    constructor <;> intros <;> omega
  | @oneE1 t op i hp hs =>
    have hne : i ≠ t := by rintro rfl; rw [hp] at hs; cases hs
    have hp' : (s.pcs.set i .pLock)[t]? = some (.sNotify op) := by rw [List.getElem?_set_ne hne]; exact hp
    have a := countP_set' (p := isSlE) (x := .done op (.bool true)) hp'
    have b := countP_set' (p := isTokE) (x := .done op (.bool true)) hp'
    have d := countP_set' (p := isClE) (x := .done op (.bool true)) hp'
    have a' := countP_set' (p := isSlE) (x := .pLock) hs
    have b' := countP_set' (p := isTokE) (x := .pLock) hs
    have d' := countP_set' (p := isClE) (x := .pLock) hs
    simp [isSlE, isTokE, isClE] at a b d a' b' d'
    obtain ⟨h1, h2⟩ := hi
    unfold WakeE; dsimp only
    grind
  | @oneF0 t op x hp hn =>
    have a := countP_set' (p := isSlE) (x := .rRet op x) hp
    have b := countP_set' (p := isTokE) (x := .rRet op x) hp
    have d := countP_set' (p := isClE) (x := .rRet op x) hp
    simp [isSlE, isTokE, isClE] at a b d
    obtain ⟨h1, h2⟩ := hi
    unfold WakeE; dsimp only
    grind
  | @oneF1 t op x i v hp hs =>
    have hne : i ≠ t := by rintro rfl; rw [hp] at hs; cases hs
    have hp' : (s.pcs.set i (.eLock v))[t]? = some (.rNotify op x) := by rw [List.getElem?_set_ne hne]; exact hp
    have a := countP_set' (p := isSlE) (x := .rRet op x) hp'
    have b := countP_set' (p := isTokE) (x := .rRet op x) hp'
    have d := countP_set' (p := isClE) (x := .rRet op x) hp'
    have a' := countP_set' (p := isSlE) (x := .eLock v) hs
    have b' := countP_set' (p := isTokE) (x := .eLock v) hs
    have d' := countP_set' (p := isClE) (x := .eLock v) hs
    simp [isSlE, isTokE, isClE] at a b d a' b' d'
    obtain ⟨h1, h2⟩ := hi
    unfold WakeE; dsimp only
    grind
  | @allE t hp =>
    have hp' : (s.pcs.map (fun x => (wakeE x).getD x))[t]? = some .cNotifyE := by rw [List.getElem?_map, hp]; rfl
    have a := countP_set' (p := isSlE) (x := .cNotifyF) hp'
    rw [no_slE_after] at a
    change _ + 0 = 0 + 0 at a
    unfold WakeE; dsimp only
    constructor <;> intros <;> omega
  | @allF t hp =>
    have hp' : (s.pcs.map (fun x => (wakeF x).getD x))[t]? = some .cNotifyF := by rw [List.getElem?_map, hp]; rfl
    have a := countP_set' (p := isSlE) (x := .done .close .unit) hp'
    have b := countP_set' (p := isTokE) (x := .done .close .unit) hp'
    have d := countP_set' (p := isClE) (x := .done .close .unit) hp'
    rw [countP_map_wakeF (by intro x; cases x <;> rfl)] at a b d
    simp [isSlE, isTokE, isClE] at a b d
    obtain ⟨h1, h2⟩ := hi
    unfold WakeE; dsimp only
    constructor
    · intro hc hs
      have := h1 hc (by omega)
      omega
    · intro hc hs
      have := h2 hc (by omega)
      omega

theorem wakeF_step {cfg : Cfg} (hm : cfg.ctorThrow = false) {s s' : St α} (hb : BodyInv cfg s) (hi : WakeF cfg s)
    (h : Step cfg s s') : WakeF cfg s' := by
  cases h with
  | loc hp hl => exact wakeF_loc hm hl hp (hb _ _ hp) hi
  | @oneF0 t op x hp hn =>
    have : s.pcs.countP isSlF = 0 := by
      rw [List.countP_eq_zero]
      intro a ha
      have := hn a ha
      cases a <;> simp [isSlF]
      exact this _ rfl
    have a := countP_set' (p := isSlF) (x := .rRet op x) hp
    unfold WakeF; dsimp only
    simp [isSlF] at a
    constructor <;> intros <;> omega
  | @oneF1 t op x i v hp hs =>
    have hne : i ≠ t := by rintro rfl; rw [hp] at hs; cases hs
    have hp' : (s.pcs.set i (.eLock v))[t]? = some (.rNotify op x) := by rw [List.getElem?_set_ne hne]; exact hp
    have a := countP_set' (p := isSlF) (x := .rRet op x) hp'
    have b := countP_set' (p := isTokF) (x := .rRet op x) hp'
    have d := countP_set' (p := isClF) (x := .rRet op x) hp'
    have a' := countP_set' (p := isSlF) (x := .eLock v) hs
    have b' := countP_set' (p := isTokF) (x := .eLock v) hs
    have d' := countP_set' (p := isClF) (x := .eLock v) hs
    simp [isSlF, isTokF, isClF] at a b d a' b' d'
    obtain ⟨h1, h2⟩ := hi
    unfold WakeF; dsimp only
    grind
  | @oneE0 t op hp hn =>
    have a := countP_set' (p := isSlF) (x := .done op (.bool true)) hp
    have b := countP_set' (p := isTokF) (x := .done op (.bool true)) hp
    have d := countP_set' (p := isClF) (x := .done op (.bool true)) hp
    simp [isSlF, isTokF, isClF] at a b d
    obtain ⟨h1, h2⟩ := hi
    unfold WakeF; dsimp only
    grind
  | @oneE1 t op i hp hs =>
    have hne : i ≠ t := by rintro rfl; rw [hp] at hs; cases hs
    have hp' : (s.pcs.set i .pLock)[t]? = some (.sNotify op) := by rw [List.getElem?_set_ne hne]; exact hp
    have a := countP_set' (p := isSlF) (x := .done op (.bool true)) hp'
    have b := countP_set' (p := isTokF) (x := .done op (.bool true)) hp'
    have d := countP_set' (p := isClF) (x := .done op (.bool true)) hp'
    have a' := countP_set' (p := isSlF) (x := .pLock) hs
    have b' := countP_set' (p := isTokF) (x := .pLock) hs
    have d' := countP_set' (p := isClF) (x := .pLock) hs
    simp [isSlF, isTokF, isClF] at a b d a' b' d'
    obtain ⟨h1, h2⟩ := hi
    unfold WakeF; dsimp only
    grind
  | @allF t hp =>
    have hp' : (s.pcs.map (fun x => (wakeF x).getD x))[t]? = some .cNotifyF := by rw [List.getElem?_map, hp]; rfl
    have a := countP_set' (p := isSlF) (x := .done .close .unit) hp'
    rw [no_slF_after] at a
    change _ + 0 = 0 + 0 at a
    unfold WakeF; dsimp only
    constructor <;> intros <;> omega
  | @allE t hp =>
    have hp' : (s.pcs.map (fun x => (wakeE x).getD x))[t]? = some .cNotifyE := by rw [List.getElem?_map, hp]; rfl
    have a := countP_set' (p := isSlF) (x := .cNotifyF) hp'
    have b := countP_set' (p := isTokF) (x := .cNotifyF) hp'
    have d := countP_set' (p := isClF) (x := .cNotifyF) hp'
    rw [countP_map_wakeE (by intro x; cases x <;> rfl)] at a b d
    simp [isSlF, isTokF, isClF] at a b d
    obtain ⟨h1, h2⟩ := hi
    unfold WakeF; dsimp only
    constructor
    · intro hc hs
      have := h1 hc (by omega)
      omega
    · intro hc hs
      have := h2 hc (by omega)
      omega

theorem countP_init {p : PC α → Bool} (h : p .idle = false) (n : Nat) : (init α n).pcs.countP p = 0 := by
  simp [init, List.countP_replicate, h]

theorem wakeE_reach {cfg : Cfg} (hm : cfg.moveThrow = false) {n : Nat} {s : St α} (h : Reachable cfg n s) : WakeE s :=
  (reach_ind (P := fun s => (LockInv s ∧ BodyInv cfg s) ∧ WakeE s)
    ⟨⟨lockInv_init n, bodyInv_init cfg n⟩, by
      constructor <;> intro _ h <;> rw [countP_init rfl] at h <;> omega⟩
    (fun _ _ hp hs => ⟨⟨lockInv_step hp.1.1 hs, bodyInv_step hp.1.1 hp.1.2 hs⟩, wakeE_step hm hp.1.2 hp.2 hs⟩) h).2

theorem wakeF_reach {cfg : Cfg} (hm : cfg.ctorThrow = false) {n : Nat} {s : St α} (h : Reachable cfg n s) :
    WakeF cfg s :=
  (reach_ind (P := fun s => (LockInv s ∧ BodyInv cfg s) ∧ WakeF cfg s)
    ⟨⟨lockInv_init n, bodyInv_init cfg n⟩, by
      constructor <;> intro _ h <;> rw [countP_init rfl] at h <;> omega⟩
    (fun _ _ hp hs => ⟨⟨lockInv_step hp.1.1 hs, bodyInv_step hp.1.1 hp.1.2 hs⟩, wakeF_step hm hp.1.2 hp.2 hs⟩) h).2

end Verif.Channel
