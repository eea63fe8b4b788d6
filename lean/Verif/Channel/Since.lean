import Verif.Channel.WakeThrow

/-! Lost wakeups of one waiting call: only exceptions of others during that call count. -/
namespace Verif.Channel

variable {α : Type}

/-- What an event does to the number of calls of `pop` by threads other than `t` that were left by an exception of moving
the element out of the queue (channel.hpp:188) since the latest call made by `t`. -/
def lostPop (t : Nat) (k : Nat) : Ev α → Nat
  | .call u _ => if u = t then 0 else k
  | .lin u .pop .threw => if u = t then k else k + 1
  | _ => k

/-- Calls of `pop` by threads other than `t` that were left by an exception (channel.hpp:188) since the latest call made by `t`. -/
def lostPops (t : Nat) (h : List (Ev α)) : Nat := h.foldl (lostPop t) 0

/-- What an event does to the number of calls of `push` by threads other than `t` that were left by an exception of
constructing the element in the queue (channel.hpp:100) since the latest call made by `t`. -/
def lostPush (t : Nat) (k : Nat) : Ev α → Nat
  | .call u _ => if u = t then 0 else k
  | .lin u (.push _) .threw => if u = t then k else k + 1
  | _ => k

/-- Calls of `push` and `emplace` by threads other than `t` that were left by an exception (channel.hpp:100) since the latest call
made by `t`. -/
def lostPushes (t : Nat) (h : List (Ev α)) : Nat := h.foldl (lostPush t) 0

/-- A consumer asleep on a channel that is not closed: every element has a notification or an awake consumer, except for
those left behind by an exception during its call (channel.hpp:36,181). -/
def SinceE (s : St α) : Prop := ∀ t : Nat, s.closed = false → s.pcs[t]? = some .pSleep →
  s.q.length ≤ s.pcs.countP isTokE + lostPops t s.hist

/-- A producer asleep on a channel that is not closed: every free place has a notification or an awake producer, except for
those left behind by an exception during its call (channel.hpp:37,92). -/
def SinceF (cfg : Cfg) (s : St α) : Prop := ∀ (t : Nat) (v : α), s.closed = false → s.pcs[t]? = some (.eSleep v) →
  cfg.cap ≤ s.q.length + s.pcs.countP isTokF + lostPushes t s.hist

theorem lostPops_append (t : Nat) (a b : List (Ev α)) : lostPops t (a ++ b) = b.foldl (lostPop t) (lostPops t a) :=
  List.foldl_append

theorem lostPushes_append (t : Nat) (a b : List (Ev α)) : lostPushes t (a ++ b) = b.foldl (lostPush t) (lostPushes t a) :=
  List.foldl_append

theorem sinceE_loc {cfg : Cfg} {u : Nat} {q c o} {pc : PC α} {q' c' o' pc' es}
    {pcs : List (PC α)} {h} (hl : Loc cfg u q c o pc q' c' o' pc' es) (hp : pcs[u]? = some pc)
    (hi : SinceE ⟨q, c, o, pcs, h⟩) : SinceE ⟨q', c', o', pcs.set u pc', h ++ es⟩ := by
  intro t hc ht
  dsimp only at hc ht ⊢
  have b := countP_set' (p := isTokE) (x := pc') hp
  by_cases hut : u = t
  · subst hut
    rw [List.getElem?_set_self (lt_of_getElem? hp)] at ht
    injection ht with ht
    have hz : q' = [] := by
      cases hl
      case pCheckSl hx => exact Classical.byContradiction fun h0 => hx (.inl h0)
      case call op => cases op <;> simp [entry] at ht
      all_goals simp at ht
    rw [hz]; simp
  · rw [List.getElem?_set_ne hut] at ht
    have h1 := fun hcl => hi t hcl ht
    dsimp only at h1
    rw [lostPops_append]
    generalize lostPops t h = K at *
    generalize (pcs.set u pc').countP isTokE = B at *
    generalize pcs.countP isTokE = B' at *
    clear hp
    cases hl
    case call op => cases op <;> simp [entry, isTokE, lostPop, hut] at b ⊢ <;> grind
    all_goals simp [isTokE, lostPop, hut] at b ⊢
    all_goals grind

theorem sinceF_loc {cfg : Cfg} {u : Nat} {q c o} {pc : PC α} {q' c' o' pc' es}
    {pcs : List (PC α)} {h} (hl : Loc cfg u q c o pc q' c' o' pc' es) (hp : pcs[u]? = some pc)
    (hi : SinceF cfg ⟨q, c, o, pcs, h⟩) : SinceF cfg ⟨q', c', o', pcs.set u pc', h ++ es⟩ := by
  intro t v hc ht
  dsimp only at hc ht ⊢
  have b := countP_set' (p := isTokF) (x := pc') hp
  by_cases hut : u = t
  · subst hut
    rw [List.getElem?_set_self (lt_of_getElem? hp)] at ht
    injection ht with ht
    have hz : cfg.cap ≤ q'.length := by
      cases hl
      case eCheckSl hx => omega
      case call op => cases op <;> simp [entry] at ht
      all_goals simp at ht
    omega
  · rw [List.getElem?_set_ne hut] at ht
    have h1 := fun hcl => hi t v hcl ht
    dsimp only at h1
    rw [lostPushes_append]
    generalize lostPushes t h = K at *
    generalize (pcs.set u pc').countP isTokF = B at *
    generalize pcs.countP isTokF = B' at *
    clear hp
    cases hl
    case call op => cases op <;> simp [entry, isTokF, lostPush, hut] at b ⊢ <;> grind
    all_goals simp [isTokF, lostPush, hut] at b ⊢
    all_goals grind

theorem sinceE_step {cfg : Cfg} {s s' : St α} (hi : SinceE s) (h : Step cfg s s') : SinceE s' := by
  cases h with
  | loc hp hl => exact sinceE_loc hl hp hi
  | @oneE0 u op hp hn =>
    intro t hc ht
    dsimp only at hc ht ⊢
    rcases getElem?_set' hp ht with ⟨rfl, e⟩ | ⟨hne, ht⟩
    · cases e
    · exact absurd rfl (hn _ (List.mem_of_getElem? ht))
  | @oneE1 u op i hp hs =>
    intro t hc ht
    dsimp only at hc ht ⊢
    have hne : i ≠ u := by rintro rfl; rw [hp] at hs; cases hs
    have hp' : (s.pcs.set i .pLock)[u]? = some (.sNotify op) := by rw [List.getElem?_set_ne hne]; exact hp
    have b := countP_set' (p := isTokE) (x := .done op (.bool true)) hp'
    have b' := countP_set' (p := isTokE) (x := .pLock) hs
    simp [isTokE] at b b'
    rcases getElem?_set' hp' ht with ⟨rfl, e⟩ | ⟨_, ht⟩
    · cases e
    rcases getElem?_set' hs ht with ⟨rfl, e⟩ | ⟨_, ht⟩
    · cases e
    have := hi t hc ht
    omega
  | @oneF0 u op x hp hn =>
    intro t hc ht
    dsimp only at hc ht ⊢
    have b := countP_set' (p := isTokE) (x := .rRet op x) hp
    simp [isTokE] at b
    rcases getElem?_set' hp ht with ⟨rfl, e⟩ | ⟨_, ht⟩
    · cases e
    have := hi t hc ht
    omega
  | @oneF1 u op x i v hp hs =>
    intro t hc ht
    dsimp only at hc ht ⊢
    have hne : i ≠ u := by rintro rfl; rw [hp] at hs; cases hs
    have hp' : (s.pcs.set i (.eLock v))[u]? = some (.rNotify op x) := by rw [List.getElem?_set_ne hne]; exact hp
    have b := countP_set' (p := isTokE) (x := .rRet op x) hp'
    have b' := countP_set' (p := isTokE) (x := .eLock v) hs
    simp [isTokE] at b b'
    rcases getElem?_set' hp' ht with ⟨rfl, e⟩ | ⟨_, ht⟩
    · cases e
    rcases getElem?_set' hs ht with ⟨rfl, e⟩ | ⟨_, ht⟩
    · cases e
    have := hi t hc ht
    omega
  | @allE u hp =>
    intro t hc ht
    dsimp only at hc ht ⊢
    have hp' : (s.pcs.map (fun x => (wakeE x).getD x))[u]? = some .cNotifyE := by rw [List.getElem?_map, hp]; rfl
    rcases getElem?_set' hp' ht with ⟨rfl, e⟩ | ⟨_, ht⟩
    · cases e
    rw [List.getElem?_map, Option.map_eq_some_iff] at ht
    obtain ⟨a, _, h⟩ := ht
    cases a <;> simp [wakeE] at h
  | @allF u hp =>
    intro t hc ht
    dsimp only at hc ht ⊢
    have hp' : (s.pcs.map (fun x => (wakeF x).getD x))[u]? = some .cNotifyF := by rw [List.getElem?_map, hp]; rfl
    have b := countP_set' (p := isTokE) (x := .done .close .unit) hp'
    rw [countP_map_wakeF (by intro x; cases x <;> rfl)] at b
    simp [isTokE] at b
    rcases getElem?_set' hp' ht with ⟨rfl, e⟩ | ⟨_, ht⟩
    · cases e
    rw [List.getElem?_map, Option.map_eq_some_iff] at ht
    obtain ⟨a, ha, h⟩ := ht
    have : a = .pSleep := by cases a <;> simp [wakeF] at h ⊢
    subst this
    have := hi t hc ha
    omega

theorem sinceF_step {cfg : Cfg} {s s' : St α} (hi : SinceF cfg s) (h : Step cfg s s') : SinceF cfg s' := by
  cases h with
  | loc hp hl => exact sinceF_loc hl hp hi
  | @oneF0 u op x hp hn =>
    intro t v hc ht
    dsimp only at hc ht ⊢
    rcases getElem?_set' hp ht with ⟨rfl, e⟩ | ⟨hne, ht⟩
    · cases e
    · exact absurd rfl (hn _ (List.mem_of_getElem? ht) v)
  | @oneF1 u op x i v' hp hs =>
    intro t v hc ht
    dsimp only at hc ht ⊢
    have hne : i ≠ u := by rintro rfl; rw [hp] at hs; cases hs
    have hp' : (s.pcs.set i (.eLock v'))[u]? = some (.rNotify op x) := by rw [List.getElem?_set_ne hne]; exact hp
    have b := countP_set' (p := isTokF) (x := .rRet op x) hp'
    have b' := countP_set' (p := isTokF) (x := .eLock v') hs
    simp [isTokF] at b b'
    rcases getElem?_set' hp' ht with ⟨rfl, e⟩ | ⟨_, ht⟩
    · cases e
    rcases getElem?_set' hs ht with ⟨rfl, e⟩ | ⟨_, ht⟩
    · cases e
    have := hi t v hc ht
    omega
  | @oneE0 u op hp hn =>
    intro t v hc ht
    dsimp only at hc ht ⊢
    have b := countP_set' (p := isTokF) (x := .done op (.bool true)) hp
    simp [isTokF] at b
    rcases getElem?_set' hp ht with ⟨rfl, e⟩ | ⟨_, ht⟩
    · cases e
    have := hi t v hc ht
    omega
  | @oneE1 u op i hp hs =>
    intro t v hc ht
    dsimp only at hc ht ⊢
    have hne : i ≠ u := by rintro rfl; rw [hp] at hs; cases hs
    have hp' : (s.pcs.set i .pLock)[u]? = some (.sNotify op) := by rw [List.getElem?_set_ne hne]; exact hp
    have b := countP_set' (p := isTokF) (x := .done op (.bool true)) hp'
    have b' := countP_set' (p := isTokF) (x := .pLock) hs
    simp [isTokF] at b b'
    rcases getElem?_set' hp' ht with ⟨rfl, e⟩ | ⟨_, ht⟩
    · cases e
    rcases getElem?_set' hs ht with ⟨rfl, e⟩ | ⟨_, ht⟩
    · cases e
    have := hi t v hc ht
    omega
  | @allF u hp =>
    intro t v hc ht
    dsimp only at hc ht ⊢
    have hp' : (s.pcs.map (fun x => (wakeF x).getD x))[u]? = some .cNotifyF := by rw [List.getElem?_map, hp]; rfl
    rcases getElem?_set' hp' ht with ⟨rfl, e⟩ | ⟨_, ht⟩
    · cases e
    rw [List.getElem?_map, Option.map_eq_some_iff] at ht
    obtain ⟨a, _, h⟩ := ht
    cases a <;> simp [wakeF] at h
  | @allE u hp =>
    intro t v hc ht
    dsimp only at hc ht ⊢
    have hp' : (s.pcs.map (fun x => (wakeE x).getD x))[u]? = some .cNotifyE := by rw [List.getElem?_map, hp]; rfl
    have b := countP_set' (p := isTokF) (x := .cNotifyF) hp'
    rw [countP_map_wakeE (by intro x; cases x <;> rfl)] at b
    simp [isTokF] at b
    rcases getElem?_set' hp' ht with ⟨rfl, e⟩ | ⟨_, ht⟩
    · cases e
    rw [List.getElem?_map, Option.map_eq_some_iff] at ht
    obtain ⟨a, ha, h⟩ := ht
    have : a = .eSleep v := by cases a <;> simp [wakeE] at h ⊢; exact h
    subst this
    have := hi t v hc ha
    omega

theorem sinceE_reach {cfg : Cfg} {n : Nat} {s : St α} (h : Reachable cfg n s) : SinceE s :=
  reach_ind (P := SinceE) (by intro t _ ht; exact absurd (List.eq_of_mem_replicate (List.mem_of_getElem? ht)) (by simp)) (fun _ _ hp hs => sinceE_step hp hs) h

theorem sinceF_reach {cfg : Cfg} {n : Nat} {s : St α} (h : Reachable cfg n s) : SinceF cfg s :=
  reach_ind (P := SinceF cfg) (by intro t v _ ht; exact absurd (List.eq_of_mem_replicate (List.mem_of_getElem? ht)) (by simp)) (fun _ _ hp hs => sinceF_step hp hs) h

end Verif.Channel
