import Verif.Channel.Progress

/-! Lost wakeups: how many, if operations of the elements throw. -/
namespace Verif.Channel

variable {α : Type}

/-- Number of calls of `pop` so far that were left by an exception of moving the element out of the queue (channel.hpp:188). -/
def threwPops (h : List (Ev α)) : Nat := h.countP fun | .lin _ .pop .threw => true | _ => false

/-- Number of calls of `push` and `emplace` so far that were left by an exception of constructing the element in the queue (channel.hpp:100). -/
def threwPushes (h : List (Ev α)) : Nat := h.countP fun | .lin _ (.push _) .threw => true | _ => false

theorem threwPops_append (a b : List (Ev α)) : threwPops (a ++ b) = threwPops a + threwPops b := List.countP_append
theorem threwPushes_append (a b : List (Ev α)) : threwPushes (a ++ b) = threwPushes a + threwPushes b := List.countP_append

/-- Every exception loses at most one wakeup of a consumer (condition variable of channel.hpp:36). -/
def LostE (s : St α) : Prop :=
  (s.closed = false → 0 < s.pcs.countP isSlE → s.q.length ≤ s.pcs.countP isTokE + threwPops s.hist) ∧
  (s.closed = true → 0 < s.pcs.countP isSlE → 0 < s.pcs.countP isClE)

/-- Every exception loses at most one wakeup of a producer (condition variable of channel.hpp:37). -/
def LostF (cfg : Cfg) (s : St α) : Prop :=
  (s.closed = false → 0 < s.pcs.countP isSlF → cfg.cap ≤ s.q.length + s.pcs.countP isTokF + threwPushes s.hist) ∧
  (s.closed = true → 0 < s.pcs.countP isSlF → 0 < s.pcs.countP isClF)

theorem lostE_loc {cfg : Cfg} {t : Nat} {q c o} {pc : PC α} {q' c' o' pc' es}
    {pcs : List (PC α)} {h} (hl : Loc cfg t q c o pc q' c' o' pc' es) (hp : pcs[t]? = some pc)
    (hb : bodyOk cfg q c pc) (hi : LostE ⟨q, c, o, pcs, h⟩) : LostE ⟨q', c', o', pcs.set t pc', h ++ es⟩ := by
  have a := countP_set' (p := isSlE) (x := pc') hp
  have b := countP_set' (p := isTokE) (x := pc') hp
  have d := countP_set' (p := isClE) (x := pc') hp
  obtain ⟨h1, h2⟩ := hi
  dsimp only at h1 h2
  unfold LostE
  dsimp only
  generalize (pcs.set t pc').countP isSlE = A at *
  generalize (pcs.set t pc').countP isTokE = B at *
  generalize (pcs.set t pc').countP isClE = D at *
  generalize pcs.countP isSlE = A' at *
  generalize pcs.countP isTokE = B' at *
  generalize pcs.countP isClE = D' at *
  clear hp
  simp only [threwPops_append, threwPushes_append]
  generalize threwPops h = K at *
  generalize threwPushes h = L at *
  cases hl
  case call op => cases op <;> simp [entry, isSlE, isTokE, isClE] at a b d <;> simp [threwPops] <;> grind
  all_goals simp [isSlE, isTokE, isClE, bodyOk] at a b d hb
  all_goals simp [threwPops]
  all_goals grind

theorem lostF_loc {cfg : Cfg} {t : Nat} {q c o} {pc : PC α} {q' c' o' pc' es}
    {pcs : List (PC α)} {h} (hl : Loc cfg t q c o pc q' c' o' pc' es) (hp : pcs[t]? = some pc)
    (hb : bodyOk cfg q c pc) (hi : LostF cfg ⟨q, c, o, pcs, h⟩) : LostF cfg ⟨q', c', o', pcs.set t pc', h ++ es⟩ := by
  have a := countP_set' (p := isSlF) (x := pc') hp
  have b := countP_set' (p := isTokF) (x := pc') hp
  have d := countP_set' (p := isClF) (x := pc') hp
  obtain ⟨h1, h2⟩ := hi
  dsimp only at h1 h2
  unfold LostF
  dsimp only
  generalize (pcs.set t pc').countP isSlF = A at *
  generalize (pcs.set t pc').countP isTokF = B at *
  generalize (pcs.set t pc').countP isClF = D at *
  generalize pcs.countP isSlF = A' at *
  generalize pcs.countP isTokF = B' at *
  generalize pcs.countP isClF = D' at *
  clear hp
  simp only [threwPops_append, threwPushes_append]
  generalize threwPops h = K at *
  generalize threwPushes h = L at *
  cases hl
  case call op => cases op <;> simp [entry, isSlF, isTokF, isClF] at a b d <;> simp [threwPushes] <;> grind
  all_goals simp [isSlF, isTokF, isClF, bodyOk] at a b d hb
  all_goals simp [threwPushes]
  all_goals grind

theorem lostE_step {cfg : Cfg} {s s' : St α} (hb : BodyInv cfg s) (hi : LostE s)
    (h : Step cfg s s') : LostE s' := by
  cases h with
  | loc hp hl => exact lostE_loc hl hp (hb _ _ hp) hi
  | @oneE0 t op hp hn =>
    have : s.pcs.countP isSlE = 0 := by
      rw [List.countP_eq_zero]
      intro a ha
      have := hn a ha
      cases a <;> simp_all [isSlE]
    have a := countP_set' (p := isSlE) (x := .done op (.bool true)) hp
    unfold LostE; dsimp only
    simp [isSlE] at a
    constructor <;> intros <;> omega
  | @oneE1 t op i hp hs =>
    have hne : i ≠ t := by rintro rfl; rw [hp] at hs; cases hs
    have hp' : (s.pcs.set i .pLock)[t]? = some (.sNotify op) := by rw [List.getElem?_set_ne hne]; exact hp
    have a := countP_set' (p := isSlE) (x := .done op (.bool true)) hp'
    have b := countP_set' (p := isTokE) (x := .done op (.bool true)) hp'
    have d := countP_set' (p := isClE) (x := .done op (.bool true)) hp'
    have a' := countP_set' (p := isSlE) (x := .pLock) hs
    have b' := countP_set' (p := isTokE) (x := .pLock) hs
    have d' := countP_set' (p := isClE) (x := .pLock) hs
    simp [isSlE, isTokE, isClE] at a b d a' b' d'
    obtain ⟨h1, h2⟩ := hi
    unfold LostE; dsimp only
    grind
  | @oneF0 t op x hp hn =>
    have a := countP_set' (p := isSlE) (x := .rRet op x) hp
    have b := countP_set' (p := isTokE) (x := .rRet op x) hp
    have d := countP_set' (p := isClE) (x := .rRet op x) hp
    simp [isSlE, isTokE, isClE] at a b d
    obtain ⟨h1, h2⟩ := hi
    unfold LostE; dsimp only
    grind
  | @oneF1 t op x i v hp hs =>
    have hne : i ≠ t := by rintro rfl; rw [hp] at hs; cases hs
    have hp' : (s.pcs.set i (.eLock v))[t]? = some (.rNotify op x) := by rw [List.getElem?_set_ne hne]; exact hp
    have a := countP_set' (p := isSlE) (x := .rRet op x) hp'
    have b := countP_set' (p := isTokE) (x := .rRet op x) hp'
    have d := countP_set' (p := isClE) (x := .rRet op x) hp'
    have a' := countP_set' (p := isSlE) (x := .eLock v) hs
    have b' := countP_set' (p := isTokE) (x := .eLock v) hs
    have d' := countP_set' (p := isClE) (x := .eLock v) hs
    simp [isSlE, isTokE, isClE] at a b d a' b' d'
    obtain ⟨h1, h2⟩ := hi
    unfold LostE; dsimp only
    grind
  | @allE t hp =>
    have hp' : (s.pcs.map (fun x => (wakeE x).getD x))[t]? = some .cNotifyE := by rw [List.getElem?_map, hp]; rfl
    have a := countP_set' (p := isSlE) (x := .cNotifyF) hp'
    rw [no_slE_after] at a
    change _ + 0 = 0 + 0 at a
    unfold LostE; dsimp only
    constructor <;> intros <;> omega
  | @allF t hp =>
    have hp' : (s.pcs.map (fun x => (wakeF x).getD x))[t]? = some .cNotifyF := by rw [List.getElem?_map, hp]; rfl
    have a := countP_set' (p := isSlE) (x := .done .close .unit) hp'
    have b := countP_set' (p := isTokE) (x := .done .close .unit) hp'
    have d := countP_set' (p := isClE) (x := .done .close .unit) hp'
    rw [countP_map_wakeF (by intro x; cases x <;> rfl)] at a b d
    simp [isSlE, isTokE, isClE] at a b d
    obtain ⟨h1, h2⟩ := hi
    unfold LostE; dsimp only
    constructor
    · intro hc hs
      have := h1 hc (by omega)
      omega
    · intro hc hs
      have := h2 hc (by omega)
      omega

theorem lostF_step {cfg : Cfg} {s s' : St α} (hb : BodyInv cfg s) (hi : LostF cfg s)
    (h : Step cfg s s') : LostF cfg s' := by
  cases h with
  | loc hp hl => exact lostF_loc hl hp (hb _ _ hp) hi
  | @oneF0 t op x hp hn =>
    have : s.pcs.countP isSlF = 0 := by
      rw [List.countP_eq_zero]
      intro a ha
      have := hn a ha
      cases a <;> simp [isSlF]
      exact this _ rfl
    have a := countP_set' (p := isSlF) (x := .rRet op x) hp
    unfold LostF; dsimp only
    simp [isSlF] at a
    constructor <;> intros <;> omega
  | @oneF1 t op x i v hp hs =>
    have hne : i ≠ t := by rintro rfl; rw [hp] at hs; cases hs
    have hp' : (s.pcs.set i (.eLock v))[t]? = some (.rNotify op x) := by rw [List.getElem?_set_ne hne]; exact hp
    have a := countP_set' (p := isSlF) (x := .rRet op x) hp'
    have b := countP_set' (p := isTokF) (x := .rRet op x) hp'
    have d := countP_set' (p := isClF) (x := .rRet op x) hp'
    have a' := countP_set' (p := isSlF) (x := .eLock v) hs
    have b' := countP_set' (p := isTokF) (x := .eLock v) hs
    have d' := countP_set' (p := isClF) (x := .eLock v) hs
    simp [isSlF, isTokF, isClF] at a b d a' b' d'
    obtain ⟨h1, h2⟩ := hi
    unfold LostF; dsimp only
    grind
  | @oneE0 t op hp hn =>
    have a := countP_set' (p := isSlF) (x := .done op (.bool true)) hp
    have b := countP_set' (p := isTokF) (x := .done op (.bool true)) hp
    have d := countP_set' (p := isClF) (x := .done op (.bool true)) hp
    simp [isSlF, isTokF, isClF] at a b d
    obtain ⟨h1, h2⟩ := hi
    unfold LostF; dsimp only
    grind
  | @oneE1 t op i hp hs =>
    have hne : i ≠ t := by rintro rfl; rw [hp] at hs; cases hs
    have hp' : (s.pcs.set i .pLock)[t]? = some (.sNotify op) := by rw [List.getElem?_set_ne hne]; exact hp
    have a := countP_set' (p := isSlF) (x := .done op (.bool true)) hp'
    have b := countP_set' (p := isTokF) (x := .done op (.bool true)) hp'
    have d := countP_set' (p := isClF) (x := .done op (.bool true)) hp'
    have a' := countP_set' (p := isSlF) (x := .pLock) hs
    have b' := countP_set' (p := isTokF) (x := .pLock) hs
    have d' := countP_set' (p := isClF) (x := .pLock) hs
    simp [isSlF, isTokF, isClF] at a b d a' b' d'
    obtain ⟨h1, h2⟩ := hi
    unfold LostF; dsimp only
    grind
  | @allF t hp =>
    have hp' : (s.pcs.map (fun x => (wakeF x).getD x))[t]? = some .cNotifyF := by rw [List.getElem?_map, hp]; rfl
    have a := countP_set' (p := isSlF) (x := .done .close .unit) hp'
    rw [no_slF_after] at a
    change _ + 0 = 0 + 0 at a
    unfold LostF; dsimp only
    constructor <;> intros <;> omega
  | @allE t hp =>
    have hp' : (s.pcs.map (fun x => (wakeE x).getD x))[t]? = some .cNotifyE := by rw [List.getElem?_map, hp]; rfl
    have a := countP_set' (p := isSlF) (x := .cNotifyF) hp'
    have b := countP_set' (p := isTokF) (x := .cNotifyF) hp'
    have d := countP_set' (p := isClF) (x := .cNotifyF) hp'
    rw [countP_map_wakeE (by intro x; cases x <;> rfl)] at a b d
    simp [isSlF, isTokF, isClF] at a b d
    obtain ⟨h1, h2⟩ := hi
    unfold LostF; dsimp only
    constructor
    · intro hc hs
      have := h1 hc (by omega)
      omega
    · intro hc hs
      have := h2 hc (by omega)
      omega

theorem lostE_reach {cfg : Cfg} {n : Nat} {s : St α} (h : Reachable cfg n s) : LostE s :=
  (reach_ind (P := fun s => (LockInv s ∧ BodyInv cfg s) ∧ LostE s)
    ⟨⟨lockInv_init n, bodyInv_init cfg n⟩, by
      constructor <;> intro _ h <;> rw [countP_init rfl] at h <;> omega⟩
    (fun _ _ hp hs => ⟨⟨lockInv_step hp.1.1 hs, bodyInv_step hp.1.1 hp.1.2 hs⟩, lostE_step hp.1.2 hp.2 hs⟩) h).2

theorem lostF_reach {cfg : Cfg} {n : Nat} {s : St α} (h : Reachable cfg n s) :
    LostF cfg s :=
  (reach_ind (P := fun s => (LockInv s ∧ BodyInv cfg s) ∧ LostF cfg s)
    ⟨⟨lockInv_init n, bodyInv_init cfg n⟩, by
      constructor <;> intro _ h <;> rw [countP_init rfl] at h <;> omega⟩
    (fun _ _ hp hs => ⟨⟨lockInv_step hp.1.1 hs, bodyInv_step hp.1.1 hp.1.2 hs⟩, lostF_step hp.1.2 hp.2 hs⟩) h).2

end Verif.Channel
