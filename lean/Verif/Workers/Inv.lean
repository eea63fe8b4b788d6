import Verif.Workers.Model

/-! The invariant of layers of workers. -/
namespace Verif.Workers

open Verif.Channel
open Verif.Pipeline (upd upd_eq upd_ne Cls cls Trans Moved moved_next taken rest sumTo sumTo_congr reach_next cls_done
  next_ne_idle_cls)

variable {α : Type}

/-- Weight of a list (to compare what is in the lists of the users of channel.hpp:31-37 up to order). -/
def gsum (g : α → Nat) (l : List α) : Nat := (l.map g).sum

@[simp] theorem gsum_nil (g : α → Nat) : gsum g [] = 0 := rfl
@[simp] theorem gsum_cons (g : α → Nat) (x : α) (l : List α) : gsum g (x :: l) = g x + gsum g l := by simp [gsum]
@[simp] theorem gsum_append (g : α → Nat) (l l' : List α) : gsum g (l ++ l') = gsum g l + gsum g l' := by
  simp [gsum]

theorem sumTo_change {n i : Nat} {F F' : Nat → Nat} (hi : i < n) (h : ∀ j, j < n → j ≠ i → F' j = F j) :
    sumTo n F' + F i = sumTo n F + F' i := by
  induction n with
  | zero => omega
  | succ n ih =>
    simp only [sumTo]
    by_cases hn : i = n
    · subst hn
      rw [sumTo_congr (fun j hj => h j (by omega) (by omega))]; omega
    · have := ih (by omega) (fun j hj hne => h j (by omega) hne)
      rw [h n (by omega) (by omega)]; omega

/-- What the position of a thread of the channel means to its caller (channel.hpp:58-194). -/
def clsAt (c : St α) (t : Nat) : Cls α :=
  match c.pcs[t]? with
  | some pc => cls pc
  | none => .idle

theorem clsAt_of {c : St α} {t : Nat} {pc : PC α} (h : c.pcs[t]? = some pc) : clsAt c t = cls pc := by simp [clsAt, h]

theorem clsAt_eq {c c' : St α} {t : Nat} (h : (c'.pcs[t]?).map cls = (c.pcs[t]?).map cls) : clsAt c' t = clsAt c t := by
  simp only [clsAt]
  cases h1 : c'.pcs[t]? <;> cases h2 : c.pcs[t]? <;> simp_all

/-- A worker's own position agrees with its position as a producer in the channel (channel.hpp:58-105). -/
def ProdOk (w : Worker α) (k : Cls α) (closed : Bool) : Prop :=
  match w.pos with
  | .inPush => ∃ y ys, w.todo = y :: ys ∧ (k = .pushing y ∨ k = .pushed y)
  | .inClose => k = .closing ∨ (k = .shut ∧ closed = true)
  | _ => k = .idle

/-- A worker's own position agrees with its position as a consumer in the channel (channel.hpp:179-194). -/
def ConsOk (w : Worker α) (k : Cls α) (q : List α) (closed : Bool) : Prop :=
  match w.pos with
  | .inPop => k = .popping ∨ (∃ x, k = .took x) ∨ (k = .ended ∧ closed = true ∧ q = [])
  | .ended | .inClose | .over => k = .idle ∧ closed = true ∧ q = []
  | _ => k = .idle

/-- What a worker has produced so far (loops over channel.hpp:214-291). -/
def made (p : Plan α) (i j : Nat) (w : Worker α) : List α :=
  if i = 0 then p.source j else w.got.flatMap (p.body i)

/-- The worker has finished its loop and counted down (users of channel.hpp:58). -/
def gone (w : Worker α) : Prop := w.pos = .inClose ∨ w.pos = .over

/-- The workers of two neighbouring layers and the channel between them (channel.hpp:31-37). -/
structure Link (p : Plan α) (P C : Nat → Worker α) (act : Nat) (k : Nat) (c : St α) : Prop where
  reach : Reachable (p.cfg k) (p.users k) c
  prod : ∀ j, j < p.width k → ProdOk (P j) (clsAt c j) c.closed
  cons : ∀ j, j < p.width (k + 1) → ConsOk (C j) (clsAt c (p.width k + j)) c.q c.closed
  flow : ∀ g : α → Nat, sumTo (p.width k) (fun j => gsum g (made p k j (P j))) =
    sumTo (p.width (k + 1)) (fun j => gsum g (C j).got + gsum g (taken (clsAt c (p.width k + j)))) + gsum g c.q +
      sumTo (p.width k) (fun j => gsum g (rest (P j).todo (clsAt c j)))
  closed : c.closed = true → ∀ j, j < p.width k → gone (P j)
  solo : ∀ j, j < p.width k → (P j).pos = .inClose → ∀ j', j' < p.width k → gone (P j')
  last : 0 < p.width k → act = 0 → c.closed = true ∨ ∃ j, j < p.width k ∧ (P j).pos = .inClose

/-- Calls not accounted for by elements (of channel.hpp:58,85,179). -/
def flag : Pos → Nat
  | .loop => 0
  | .inPop => 1
  | .inPush => 1
  | .ended => 1
  | .inClose => 2
  | .over => 2

/-- One if the worker has not counted down yet (users of channel.hpp:58). -/
def live (w : Worker α) : Nat :=
  match w.pos with
  | .inClose | .over => 0
  | _ => 1

theorem live_gone {w : Worker α} : live w = 0 ↔ gone w := by
  unfold live gone; split <;> simp_all

/-- What holds of one worker (a loop over channel.hpp:214-291). -/
structure WInv (p : Plan α) (i j : Nat) (w : Worker α) : Prop where
  todo : w.pos ≠ .loop → w.pos ≠ .inPush → w.todo = []
  first : i = 0 → w.got = [] ∧ w.pos ≠ .inPop ∧ w.pos ≠ .ended
  last : i = p.inner + 1 → w.todo = [] ∧ w.pos ≠ .inPush ∧ w.pos ≠ .inClose
  calls : w.calls + w.todo.length ≤ w.got.length + (if i ≤ p.inner then (made p i j w).length else 0) + flag w.pos

/-- The invariant (of threads that use channel.hpp:58-194). -/
structure Inv (p : Plan α) (s : Sys α) : Prop where
  workers : ∀ i j, p.has i j → WInv p i j (s.worker i j)
  counts : ∀ i, i ≤ p.inner + 1 → s.active i = sumTo (p.width i) (fun j => live (s.worker i j))
  links : ∀ k, k ≤ p.inner → Link p (s.worker k) (s.worker (k + 1)) (s.active k) k (s.chan k)

theorem sumTo_const {n c : Nat} : sumTo n (fun _ => c) = n * c := by
  induction n with
  | zero => simp [sumTo]
  | succ n ih => simp only [sumTo, ih, Nat.add_mul, Nat.one_mul]

theorem clsAt_init {n t : Nat} : clsAt (init α n) t = .idle := by
  simp only [clsAt, init, List.getElem?_replicate]
  split <;> rename_i h
  · split at h <;> simp at h; subst h; rfl
  · rfl

theorem inv_start (p : Plan α) : Inv p (start p) where
  workers i j _ := by
    refine ⟨?_, ?_, ?_, ?_⟩ <;> simp [start, flag, made]
    · intro h; simp [h]
    · by_cases h : i = 0 <;> simp [h]
  counts i _ := by simp [start, live, sumTo_const]
  links k hk := by
    refine ⟨⟨[], rfl⟩, ?_, ?_, ?_, ?_, ?_, ?_⟩
    · intro j _; simp [ProdOk, start, clsAt_init]
    · intro j _; simp [ConsOk, start, clsAt_init]
    · intro g
      simp only [start, clsAt_init, taken, rest, made, gsum_nil, sumTo_const]
      simp only [init, gsum_nil, Nat.mul_zero, Nat.zero_add, Nat.add_zero]
      refine sumTo_congr (fun j _ => ?_)
      split <;> simp
    · simp [start, init]
    · intro j _ h; simp [start] at h
    · intro h h0; simp only [start] at h0; omega

theorem ConsOk.mono {C : Worker α} {k : Cls α} {q q' : List α} {b b' : Bool} (h : ConsOk C k q b)
    (hb : b = true → b' = true) (hq : b = true → q = [] → q' = []) : ConsOk C k q' b' := by
  unfold ConsOk at h ⊢
  split
  · rename_i hp
    simp only [hp] at h
    rcases h with h | h | ⟨h1, h2, h3⟩
    · exact .inl h
    · exact .inr (.inl h)
    · exact .inr (.inr ⟨h1, hb h2, hq h2 h3⟩)
  · rename_i hp; simp only [hp] at h; exact ⟨h.1, hb h.2.1, hq h.2.1 h.2.2⟩
  · rename_i hp; simp only [hp] at h; exact ⟨h.1, hb h.2.1, hq h.2.1 h.2.2⟩
  · rename_i hp; simp only [hp] at h; exact ⟨h.1, hb h.2.1, hq h.2.1 h.2.2⟩
  · split at h <;> simp_all

theorem ProdOk.mono {P : Worker α} {k : Cls α} {b b' : Bool} (h : ProdOk P k b) (hb : b = true → b' = true) :
    ProdOk P k b' := by
  unfold ProdOk at h ⊢
  split
  · rename_i hp; simp only [hp] at h; exact h
  · rename_i hp
    simp only [hp] at h
    rcases h with h | ⟨h1, h2⟩
    · exact .inl h
    · exact .inr ⟨h1, hb h2⟩
  · split at h <;> simp_all

/-- A producer changes its own state, its position in the channel, the queue or the flag. -/
theorem Link.prodStep {p : Plan α} {P C : Nat → Worker α} {act act' k j : Nat} {c c' : St α} {w' : Worker α}
    (h : Link p P C act k c) (hj : j < p.width k) (hre : Reachable (p.cfg k) (p.users k) c')
    (hoth : ∀ t, t ≠ j → clsAt c' t = clsAt c t) (hok : ProdOk w' (clsAt c' j) c'.closed)
    (hb : c.closed = true → c'.closed = true) (hq : c.closed = true → c'.q = c.q)
    (hflow : ∀ g : α → Nat, gsum g (made p k j w') + gsum g c.q + gsum g (rest (P j).todo (clsAt c j)) =
      gsum g (made p k j (P j)) + gsum g c'.q + gsum g (rest w'.todo (clsAt c' j)))
    (hcl : c'.closed = true → gone w' ∧ (c.closed = true ∨ ∀ j', j' < p.width k → j' ≠ j → gone (P j')))
    (hsolo : w'.pos = .inClose → ∀ j', j' < p.width k → j' ≠ j → gone (P j')) (hgone : gone (P j) → gone w')
    (hlast : act' = 0 → c'.closed = true ∨ ∃ j', j' < p.width k ∧ (upd P j w' j').pos = .inClose) :
    Link p (upd P j w') C act' k c' := by
  refine ⟨hre, ?_, ?_, ?_, ?_, ?_, fun _ => hlast⟩
  · intro j' hj'
    by_cases e : j' = j
    · subst e; rw [upd_eq]; exact hok
    · rw [upd_ne e, hoth j' e]; exact (h.prod j' hj').mono hb
  · intro j' hj'
    rw [hoth _ (by omega)]
    exact (h.cons j' hj').mono hb (fun hc e => by rw [hq hc, e])
  · intro g
    have h1 := h.flow g
    have a := sumTo_change (n := p.width k) (F := fun j => gsum g (made p k j (P j)))
      (F' := fun x => gsum g (made p k x (upd P j w' x))) hj (fun x _ hx => by rw [upd_ne hx])
    have b := sumTo_change (n := p.width k) (F := fun j => gsum g (rest (P j).todo (clsAt c j)))
      (F' := fun x => gsum g (rest (upd P j w' x).todo (clsAt c' x))) hj (fun x _ hx => by rw [upd_ne hx, hoth x hx])
    have d : sumTo (p.width (k + 1)) (fun j => gsum g (C j).got + gsum g (taken (clsAt c' (p.width k + j)))) =
        sumTo (p.width (k + 1)) (fun j => gsum g (C j).got + gsum g (taken (clsAt c (p.width k + j)))) :=
      sumTo_congr (fun x _ => by rw [hoth _ (by omega)])
    have e := hflow g
    simp only [upd_eq] at a b
    omega
  · intro hc j' hj'
    by_cases e : j' = j
    · subst e; rw [upd_eq]; exact (hcl hc).1
    · rw [upd_ne e]
      rcases (hcl hc).2 with h' | h'
      · exact h.closed h' j' hj'
      · exact h' j' hj' e
  · intro j1 hj1 hp j2 hj2
    by_cases e : j1 = j
    · subst e
      rw [upd_eq] at hp
      by_cases e2 : j2 = j1
      · subst e2; rw [upd_eq]; exact .inl hp
      · rw [upd_ne e2]; exact hsolo hp j2 hj2 e2
    · rw [upd_ne e] at hp
      have hg := h.solo j1 hj1 hp
      by_cases e2 : j2 = j
      · subst e2; rw [upd_eq]; exact hgone (hg j2 hj2)
      · rw [upd_ne e2]; exact hg j2 hj2

/-- A consumer changes its own state, its position in the channel, or the queue. -/
theorem Link.consStep {p : Plan α} {P C : Nat → Worker α} {act k j : Nat} {c c' : St α} {w' : Worker α}
    (h : Link p P C act k c) (hj : j < p.width (k + 1)) (hre : Reachable (p.cfg k) (p.users k) c')
    (hoth : ∀ t, t ≠ p.width k + j → clsAt c' t = clsAt c t)
    (hok : ConsOk w' (clsAt c' (p.width k + j)) c'.q c'.closed)
    (hb : c'.closed = c.closed) (hq : c.q = [] → c'.q = [])
    (hflow : ∀ g : α → Nat, gsum g w'.got + gsum g (taken (clsAt c' (p.width k + j))) + gsum g c'.q =
      gsum g (C j).got + gsum g (taken (clsAt c (p.width k + j))) + gsum g c.q) :
    Link p P (upd C j w') act k c' := by
  refine ⟨hre, ?_, ?_, ?_, ?_, h.solo, ?_⟩
  · intro j' hj'
    rw [hoth _ (by omega), hb]; exact h.prod j' hj'
  · intro j' hj'
    by_cases e : j' = j
    · subst e; rw [upd_eq]; exact hok
    · rw [upd_ne e, hoth _ (by omega)]
      exact (h.cons j' hj').mono (by rw [hb]; exact id) (fun _ => hq)
  · intro g
    have h1 := h.flow g
    have a := sumTo_change (n := p.width (k + 1))
      (F := fun j => gsum g (C j).got + gsum g (taken (clsAt c (p.width k + j))))
      (F' := fun x => gsum g (upd C j w' x).got + gsum g (taken (clsAt c' (p.width k + x)))) hj
      (fun x _ hx => by rw [upd_ne hx, hoth _ (by omega)])
    have d : sumTo (p.width k) (fun j => gsum g (rest (P j).todo (clsAt c' j))) =
        sumTo (p.width k) (fun j => gsum g (rest (P j).todo (clsAt c j))) :=
      sumTo_congr (fun x hx => by rw [hoth _ (by omega)])
    have e := hflow g
    simp only [upd_eq] at a
    omega
  · rw [hb]; exact h.closed
  · rw [hb]; exact h.last

/-- Only the link to the layer before and the link to the layer after a worker depend on it. -/
theorem inv_of {p : Plan α} {s s' : Sys α} {i j : Nat} {w' : Worker α} (h : Inv p s) (hij : p.has i j)
    (hwk : s'.worker = upd s.worker i (upd (s.worker i) j w'))
    (hch : ∀ k, k ≠ i → k + 1 ≠ i → s'.chan k = s.chan k) (hac : ∀ k, k ≠ i → s'.active k = s.active k)
    (hai : s'.active i + live (s.worker i j) = s.active i + live w') (hw : WInv p i j w')
    (hout : i ≤ p.inner → Link p (upd (s.worker i) j w') (s.worker (i + 1)) (s'.active i) i (s'.chan i))
    (hin : ∀ k, i = k + 1 → k ≤ p.inner → Link p (s.worker k) (upd (s.worker i) j w') (s.active k) k (s'.chan k)) :
    Inv p s' where
  workers i' j' hij' := by
    rw [hwk]
    by_cases h1 : i' = i
    · subst h1
      rw [upd_eq]
      by_cases h2 : j' = j
      · subst h2; rw [upd_eq]; exact hw
      · rw [upd_ne h2]; exact h.workers _ _ hij'
    · rw [upd_ne h1]; exact h.workers _ _ hij'
  counts i' hi' := by
    rw [hwk]
    by_cases h1 : i' = i
    · subst h1
      rw [upd_eq]
      have a := sumTo_change (n := p.width i') (F := fun x => live (s.worker i' x))
        (F' := fun x => live (upd (s.worker i') j w' x)) hij.2 (fun x _ hx => by rw [upd_ne hx])
      have b := h.counts i' hi'
      simp only [upd_eq] at a
      omega
    · rw [upd_ne h1, hac i' h1]; exact h.counts i' hi'
  links k hk := by
    rw [hwk]
    by_cases h1 : k = i
    · subst h1
      rw [upd_eq, upd_ne (by omega)]
      exact hout hk
    · rw [upd_ne h1, hac k h1]
      by_cases h2 : k + 1 = i
      · subst h2
        rw [upd_eq]
        exact hin k rfl hk
      · rw [upd_ne h2, hch k h1 h2]
        exact h.links k hk

end Verif.Workers
