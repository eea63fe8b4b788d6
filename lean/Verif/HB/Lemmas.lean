import Verif.HB.Model

/-! Invariants of the memory, for any machine that obeys the laws below. -/
namespace Verif.HB

open Verif.Channel (Op Res Ev Act)

variable {α S : Type}

/-- The entry is the linearization of a call of `close`. -/
def IsClose (e : Entry α) : Prop := ∃ t, e.what = .ev (.lin t .close .unit)

/-- The entry says that the channel was found or made closed: `close()`, or `closed()` returning `true`. -/
def SawClosed (e : Entry α) : Prop := IsClose e ∨ e.what = .closed true

/-- The event is a rejected insertion. -/
def Rejected (e : Ev α) : Prop := (∃ t v, e = .lin t (.push v) (.bool false)) ∨ ∃ t v, e = .lin t (.tryPush v) (.bool false)

/-- The event is an operation taking effect. -/
def IsLin (e : Ev α) : Prop := ∃ t op r, e = .lin t op r ∧ op ≠ .isClosed

/-- The entry is an operation that takes effect with the mutex held: all except rejected insertions. -/
def Locked (e : Entry α) : Prop := ∃ v, e.what = .ev v ∧ IsLin v ∧ ¬ Rejected v

theorem IsClose.locked {e : Entry α} (h : IsClose e) : Locked e := by
  obtain ⟨t, h⟩ := h
  refine ⟨_, h, ⟨t, .close, .unit, rfl, by simp⟩, ?_⟩
  rintro (⟨_, _, h⟩ | ⟨_, _, h⟩) <;> cases h

/-- The views there are. -/
def Mem.Has (m : Mem α) (v : View) : Prop := (∃ t, v = m.view t) ∨ v = m.mtx ∨ v ∈ m.writes

/-- The view of whoever has the mutex, or the one it carries. -/
def Mem.cur (m : Mem α) : Option Nat → View
  | some t => m.view t
  | none => m.mtx

/-- The invariant; `o` has the mutex. `b` is `false` only between logging a `close()` and its store. -/
structure MInv (m : Mem α) (o : Option Nat) (b : Bool := true) : Prop where
  nonempty : 0 < m.writes.length
  seen_lt : ∀ v, m.Has v → v.seen < m.writes.length
  cur_seen : (m.cur o).seen + 1 = m.writes.length
  know_lt : ∀ v, m.Has v → ∀ p ∈ v.know, p < m.log.length
  closed_under : ∀ v, m.Has v → ∀ p ∈ v.know, ∀ e : Entry α, m.log[p]? = some e → e.know ⊆ v.know
  order : ∀ (p : Nat) (e : Entry α), m.log[p]? = some e → p ∈ (m.view e.tid).know
  cur_locked : ∀ (p : Nat) (e : Entry α), m.log[p]? = some e → Locked e → p ∈ (m.cur o).know
  saw : b = true → ∀ v, m.Has v → ∀ p ∈ v.know, ∀ e : Entry α, m.log[p]? = some e → SawClosed e → 0 < v.seen
  carries : ∀ (i : Nat) (v : View), m.writes[i]? = some v → 0 < i → ∃ p ∈ v.know, ∃ e : Entry α, m.log[p]? = some e ∧ IsClose e
  own : ∀ (q : Nat) (e : Entry α), m.log[q]? = some e → q ∈ e.know
  le_self : ∀ (q : Nat) (e : Entry α), m.log[q]? = some e → ∀ p ∈ e.know, p ≤ q
  trans : ∀ (q : Nat) (e : Entry α), m.log[q]? = some e → ∀ p ∈ e.know, ∀ e' : Entry α, m.log[p]? = some e' → e'.know ⊆ e.know
  prog : ∀ (p q : Nat) (e e' : Entry α), m.log[p]? = some e → m.log[q]? = some e' → p < q → e.tid = e'.tid → p ∈ e'.know
  lin : ∀ (q : Nat) (e : Entry α) (v : Ev α), m.log[q]? = some e → e.what = .ev v → IsLin v →
    (∀ p < q, ∀ e' : Entry α, m.log[p]? = some e' → Locked e' → p ∈ e.know) ∨
    (Rejected v ∧ ∃ p ∈ e.know, ∃ e' : Entry α, m.log[p]? = some e' ∧ IsClose e')
  closed_true : ∀ (q : Nat) (e : Entry α), m.log[q]? = some e → e.what = .closed true → ∃ p ∈ e.know, ∃ e' : Entry α, m.log[p]? = some e' ∧ IsClose e'
  closed_false : ∀ (q : Nat) (e : Entry α), m.log[q]? = some e → e.what = .closed false → ∀ p ∈ e.know, ∀ e' : Entry α, m.log[p]? = some e' → ¬ SawClosed e'

theorem MInv.init : MInv (.init α) none where
  nonempty := by simp [Mem.init]
  seen_lt := by
    rintro v (⟨t, rfl⟩ | rfl | h)
    · simp [Mem.init]
    · simp [Mem.init]
    · simp [Mem.init] at h; subst h; simp [Mem.init]
  cur_seen := rfl
  know_lt := by
    rintro v (⟨t, rfl⟩ | rfl | h) p hp
    · simp [Mem.init] at hp
    · simp [Mem.init] at hp
    · simp [Mem.init] at h; subst h; simp at hp
  closed_under := by intro v _ p _ e he; simp [Mem.init] at he
  order := by intro p e he; simp [Mem.init] at he
  cur_locked := by intro p e he; simp [Mem.init] at he
  saw := by intro _ v _ p _ e he; simp [Mem.init] at he
  carries := by
    intro i v h hi
    have := (List.getElem?_eq_some_iff.1 h).1
    simp [Mem.init] at this; omega
  own := by intro q e he; simp [Mem.init] at he
  le_self := by intro q e he; simp [Mem.init] at he
  trans := by intro q e he; simp [Mem.init] at he
  prog := by intro p q e e' he; simp [Mem.init] at he
  lin := by intro q e v he; simp [Mem.init] at he
  closed_true := by intro q e he; simp [Mem.init] at he
  closed_false := by intro q e he; simp [Mem.init] at he

/-! ### Changes of views only -/

/-- A view made of views there are. -/
def Mem.Made (m : Mem α) (b : Bool) (v : View) : Prop :=
  v.seen < m.writes.length ∧ (∀ p ∈ v.know, p < m.log.length) ∧ (∀ p ∈ v.know, ∀ e, m.log[p]? = some e → e.know ⊆ v.know) ∧
  (b = true → ∀ p ∈ v.know, ∀ e, m.log[p]? = some e → SawClosed e → 0 < v.seen)

theorem MInv.made {m : Mem α} {o b} (h : MInv m o b) {v : View} (hv : m.Has v) : m.Made b v :=
  ⟨h.seen_lt v hv, h.know_lt v hv, h.closed_under v hv, fun hb => h.saw hb v hv⟩

theorem Mem.Made.join {m : Mem α} {b} {v v' : View} (h : m.Made b v) (h' : m.Made b v') : m.Made b (v.join v') := by
  obtain ⟨a1, a2, a3, a4⟩ := h
  obtain ⟨b1, b2, b3, b4⟩ := h'
  refine ⟨by simp only [View.join]; omega, ?_, ?_, ?_⟩
  · intro p hp
    rcases List.mem_append.1 hp with hp | hp
    · exact a2 p hp
    · exact b2 p hp
  · intro p hp e he x hx
    rcases List.mem_append.1 hp with hp | hp
    · exact List.mem_append.2 (.inl (a3 p hp e he hx))
    · exact List.mem_append.2 (.inr (b3 p hp e he hx))
  · intro hb p hp e he hs
    rcases List.mem_append.1 hp with hp | hp
    · have := a4 hb p hp e he hs; simp only [View.join]; omega
    · have := b4 hb p hp e he hs; simp only [View.join]; omega

/-- Replace views by views that know at least as much. -/
theorem MInv.views {m : Mem α} {o o' : Option Nat} {b} (h : MInv m o b) {view : Nat → View} {mtx : View}
    (hv : ∀ t, m.Made b (view t)) (hm : m.Made b mtx) (hle : ∀ t, (m.view t).know ⊆ (view t).know)
    (hc : (m.cur o).know ⊆ (Mem.cur { m with view := view, mtx := mtx } o').know)
    (hs : (Mem.cur { m with view := view, mtx := mtx } o').seen + 1 = m.writes.length) :
    MInv { m with view := view, mtx := mtx } o' b := by
  have made : ∀ v, Mem.Has { m with view := view, mtx := mtx } v → m.Made b v := by
    rintro v (⟨t, rfl⟩ | rfl | hw)
    · exact hv t
    · exact hm
    · exact h.made (.inr (.inr hw))
  exact {
    nonempty := h.nonempty
    seen_lt := fun v hv => (made v hv).1
    cur_seen := hs
    know_lt := fun v hv => (made v hv).2.1
    closed_under := fun v hv => (made v hv).2.2.1
    order := fun p e he => hle _ (h.order p e he)
    cur_locked := fun p e he hl => hc (h.cur_locked p e he hl)
    saw := fun hb v hv => (made v hv).2.2.2 hb
    carries := h.carries
    own := h.own
    le_self := h.le_self
    trans := h.trans
    prog := h.prog
    lin := h.lin
    closed_true := h.closed_true
    closed_false := h.closed_false }

theorem View.left_sub (a b : View) : a.know ⊆ (a.join b).know := fun _ h => List.mem_append.2 (.inl h)
theorem View.right_sub (a b : View) : b.know ⊆ (a.join b).know := fun _ h => List.mem_append.2 (.inr h)

/-- Add to the view of one thread. -/
theorem MInv.addView {m : Mem α} {o : Option Nat} {b} (h : MInv m o b) (t : Nat) {v : View} (hv : m.Made b v) :
    MInv (m.setView t ((m.view t).join v)) o b := by
  have hthr : ∀ u, m.Made b (if u = t then (m.view t).join v else m.view u) := by
    intro u
    split
    · exact (h.made (.inl ⟨t, rfl⟩)).join hv
    · exact h.made (.inl ⟨u, rfl⟩)
  refine h.views (mtx := m.mtx) hthr (h.made (.inr (.inl rfl))) ?_ ?_ ?_
  · intro u
    split
    · next hu => subst hu; exact View.left_sub _ _
    · exact fun _ h => h
  · cases o with
    | none => exact fun _ h => h
    | some u =>
      simp only [Mem.cur]
      split
      · next hu => subst hu; exact View.left_sub _ _
      · exact fun _ h => h
  · have hc := h.cur_seen
    cases o with
    | none => exact hc
    | some u =>
      simp only [Mem.cur] at hc ⊢
      split
      · next hu =>
        subst hu
        have := hv.1
        simp only [View.join]; omega
      · exact hc

theorem MInv.lock {m : Mem α} (h : MInv m none) (t : Nat) : MInv (m.lock t) (some t) := by
  have h1 := h.addView t (h.made (.inr (.inl rfl)))
  refine h1.views (o' := some t) (mtx := m.mtx) (fun u => h1.made (.inl ⟨u, rfl⟩)) (h1.made (.inr (.inl rfl))) (fun u => List.Subset.refl _) ?_ ?_
  · intro p hp
    simp only [Mem.cur, Mem.setView] at hp ⊢
    exact View.right_sub _ _ hp
  · have hc := h.cur_seen
    have hs := h.seen_lt _ (.inl ⟨t, rfl⟩)
    simp only [Mem.cur, Mem.setView, View.join, if_true] at hc ⊢
    omega

theorem MInv.unlock {m : Mem α} {t : Nat} (h : MInv m (some t)) : MInv (m.unlock t) none := by
  refine h.views (view := m.view) (fun u => h.made (.inl ⟨u, rfl⟩)) ((h.made (.inr (.inl rfl))).join (h.made (.inl ⟨t, rfl⟩))) (fun _ => List.Subset.refl _) ?_ ?_
  · exact View.right_sub _ _
  · have hc := h.cur_seen
    have hs := h.seen_lt _ (.inr (.inl rfl))
    simp only [Mem.cur, View.join] at hc ⊢
    omega

theorem Mem.made_seen {m : Mem α} {b} {i : Nat} (hi : i < m.writes.length) : m.Made b ⟨[], i⟩ :=
  ⟨hi, by simp, by simp, by simp⟩

theorem MInv.load {m : Mem α} {o : Option Nat} (h : MInv m o) (acq : Bool) (t i : Nat) (hi : i < m.writes.length) : MInv (m.load acq t i) o := by
  have h1 : ∀ acq : Bool, m.Made true (match acq with | true => m.writes.getD i ⟨[], 0⟩ | false => ⟨[], 0⟩) := by
    intro acq
    cases acq
    · exact Mem.made_seen h.nonempty
    · refine h.made (.inr (.inr ?_))
      simp only [List.getD_eq_getElem?_getD, List.getElem?_eq_getElem hi, Option.getD_some]
      exact List.getElem_mem hi
  have h2 := h.addView t ((Mem.made_seen hi).join (h1 acq))
  simp only [View.join, ← List.append_assoc, ← Nat.max_assoc] at h2
  exact h2

theorem MInv.sync {m : Mem α} {o : Option Nat} (h : MInv m o) (t t' : Nat) : MInv (m.sync t t') o :=
  h.addView t' (h.made (.inl ⟨t, rfl⟩))

/-! ### Log entries -/

theorem getElem?_snoc {β : Type} {l : List β} {x y : β} {p : Nat} (h : (l ++ [x])[p]? = some y) :
    l[p]? = some y ∨ (p = l.length ∧ y = x) := by
  rcases Nat.lt_trichotomy p l.length with hp | hp | hp
  · rw [List.getElem?_append_left hp] at h; exact .inl h
  · subst hp; simp at h; exact .inr ⟨rfl, h.symm⟩
  · rw [List.getElem?_append_right (by omega)] at h
    have : p - l.length ≠ 0 := by omega
    obtain ⟨k, hk⟩ : ∃ k, p - l.length = k + 1 := ⟨p - l.length - 1, by omega⟩
    rw [hk] at h; simp at h

theorem getElem?_lt {β : Type} {l : List β} {p : Nat} {x : β} (h : l[p]? = some x) : p < l.length :=
  (List.getElem?_eq_some_iff.1 h).1

/-- What it takes to log something. -/
structure Loggable (m : Mem α) (o : Option Nat) (t : Nat) (x : What α) (b : Bool := true) : Prop where
  locked : Locked (⟨t, x, []⟩ : Entry α) → o = some t
  lin : ∀ v, x = .ev v → IsLin v → o = some t ∨ (Rejected v ∧ ∃ p ∈ (m.view t).know, ∃ e', m.log[p]? = some e' ∧ IsClose e')
  saw : b = true → SawClosed (⟨t, x, []⟩ : Entry α) → 0 < (m.view t).seen
  closed_true : x = .closed true → ∃ p ∈ (m.view t).know, ∃ e', m.log[p]? = some e' ∧ IsClose e'
  closed_false : x = .closed false → (m.view t).seen = 0

theorem MInv.record {m : Mem α} {o : Option Nat} (h : MInv m o) {t : Nat} {x : What α} {b} (hx : Loggable m o t x b) :
    MInv (m.record t x) o b := by
  have old : ∀ v, m.Has v → ∀ p ∈ v.know, ∀ e, (m.record t x).log[p]? = some e → m.log[p]? = some e := by
    intro v hv p hp e he
    rcases getElem?_snoc he with he | ⟨rfl, -⟩
    · exact he
    · exact absurd (h.know_lt v hv _ hp) (by omega)
  have mono : ∀ {p : Nat} {e : Entry α}, m.log[p]? = some e → (m.record t x).log[p]? = some e := by
    intro p e he
    simp only [Mem.record]
    rw [List.getElem?_append_left (getElem?_lt he)]; exact he
  have len : (m.record t x).log.length = m.log.length + 1 := by simp [Mem.record]
  have thr : ∀ u, (m.record t x).view u = if u = t then ⟨m.log.length :: (m.view t).know, (m.view t).seen⟩ else m.view u := fun _ => rfl
  have new : (m.record t x).log[m.log.length]? = some ⟨t, x, m.log.length :: (m.view t).know⟩ := by simp [Mem.record]
  have hmt : m.Has (m.view t) := .inl ⟨t, rfl⟩
  have made : ∀ v, (m.record t x).Has v → m.Has v ∨ v = ⟨m.log.length :: (m.view t).know, (m.view t).seen⟩ := by
    rintro v (⟨u, rfl⟩ | rfl | hw)
    · rw [thr]; split
      · exact .inr rfl
      · exact .inl (.inl ⟨u, rfl⟩)
    · exact .inl (.inr (.inl rfl))
    · exact .inl (.inr (.inr hw))
  have cur : (m.cur o).know ⊆ ((m.record t x).cur o).know ∧ ((m.record t x).cur o).seen = (m.cur o).seen := by
    cases o with
    | none => exact ⟨fun _ h => h, rfl⟩
    | some u =>
      simp only [Mem.cur, thr]
      split
      · next hu => subst hu; exact ⟨fun p hp => List.mem_cons_of_mem _ hp, rfl⟩
      · exact ⟨fun _ h => h, rfl⟩
  have saw_old : ∀ p ∈ (m.view t).know, ∀ e, (m.record t x).log[p]? = some e → SawClosed e → 0 < (m.view t).seen :=
    fun p hp e he hs => h.saw rfl _ hmt p hp e (old _ hmt p hp e he) hs
  refine ⟨h.nonempty, ?_, ?_, ?_, ?_, ?_, ?_, ?_, ?_, ?_, ?_, ?_, ?_, ?_, ?_, ?_⟩
  · intro v hv
    rcases made v hv with hv | rfl
    · exact h.seen_lt v hv
    · exact h.seen_lt (m.view t) hmt
  · rw [cur.2]; exact h.cur_seen
  · intro v hv p hp
    rw [len]
    rcases made v hv with hv | rfl
    · have := h.know_lt v hv p hp; omega
    · rcases List.mem_cons.1 hp with rfl | hp
      · omega
      · have := h.know_lt _ hmt p hp; omega
  · intro v hv p hp e he
    rcases made v hv with hv | rfl
    · exact h.closed_under v hv p hp e (old v hv p hp e he)
    · rcases List.mem_cons.1 hp with rfl | hp
      · rw [new] at he; cases he; exact List.Subset.refl _
      · exact fun q hq => List.mem_cons_of_mem _ (h.closed_under _ hmt p hp e (old _ hmt p hp e he) hq)
  · intro p e he
    rw [thr]
    rcases getElem?_snoc he with he | ⟨rfl, rfl⟩
    · split
      · next hu => exact List.mem_cons_of_mem _ (hu ▸ h.order p e he)
      · exact h.order p e he
    · simp
  · intro p e he hl
    rcases getElem?_snoc he with he | ⟨rfl, rfl⟩
    · exact cur.1 (h.cur_locked p e he hl)
    · have : o = some t := hx.locked (by obtain ⟨v, a, b, c⟩ := hl; exact ⟨v, a, b, c⟩)
      subst this
      simp [Mem.cur, thr]
  · intro hb v hv p hp e he hs
    rcases made v hv with hv | rfl
    · exact h.saw rfl v hv p hp e (old v hv p hp e he) hs
    · rcases List.mem_cons.1 hp with rfl | hp
      · rw [new] at he; cases he
        exact hx.saw hb (by rcases hs with ⟨u, hs⟩ | hs; exact .inl ⟨u, hs⟩; exact .inr hs)
      · exact saw_old p hp e he hs
  · intro i v hv hi
    obtain ⟨p, hp, e, he, hc⟩ := h.carries i v hv hi
    exact ⟨p, hp, e, mono he, hc⟩
  · intro q e he
    rcases getElem?_snoc he with he | ⟨rfl, rfl⟩
    · exact h.own q e he
    · simp
  · intro q e he p hp
    rcases getElem?_snoc he with he | ⟨rfl, rfl⟩
    · exact h.le_self q e he p hp
    · rcases List.mem_cons.1 hp with rfl | hp
      · exact Nat.le_refl _
      · exact Nat.le_of_lt (h.know_lt _ hmt p hp)
  · intro q e he p hp e' he'
    rcases getElem?_snoc he with he | ⟨rfl, rfl⟩
    · rcases getElem?_snoc he' with he' | ⟨rfl, rfl⟩
      · exact h.trans q e he p hp e' he'
      · have := h.le_self q e he _ hp
        have := getElem?_lt he
        omega
    · rcases List.mem_cons.1 hp with rfl | hp
      · rw [new] at he'; cases he'; exact List.Subset.refl _
      · exact fun q hq => List.mem_cons_of_mem _ (h.closed_under _ hmt p hp e' (old _ hmt p hp e' he') hq)
  · intro p q e e' he he' hpq ht
    rcases getElem?_snoc he' with he' | ⟨rfl, rfl⟩
    · rcases getElem?_snoc he with he | ⟨rfl, rfl⟩
      · exact h.prog p q e e' he he' hpq ht
      · have := getElem?_lt he'; omega
    · rcases getElem?_snoc he with he | ⟨rfl, rfl⟩
      · exact List.mem_cons_of_mem _ (by have := h.order p e he; rw [ht] at this; exact this)
      · omega
  · intro q e v he hv hl
    rcases getElem?_snoc he with he | ⟨rfl, rfl⟩
    · rcases h.lin q e v he hv hl with h1 | ⟨h1, p, hp, e', he', hc⟩
      · refine .inl fun p hp e' he' => h1 p hp e' ?_
        rcases getElem?_snoc he' with he' | ⟨rfl, rfl⟩
        · exact he'
        · have := getElem?_lt he; omega
      · exact .inr ⟨h1, p, hp, e', mono he', hc⟩
    · rcases hx.lin v hv hl with rfl | ⟨h1, p, hp, e', he', hc⟩
      · refine .inl fun p hp e' he' hlk => ?_
        rcases getElem?_snoc he' with he' | ⟨rfl, rfl⟩
        · exact List.mem_cons_of_mem _ (h.cur_locked p e' he' hlk)
        · omega
      · exact .inr ⟨h1, p, List.mem_cons_of_mem _ hp, e', mono he', hc⟩
  · intro q e he hw
    rcases getElem?_snoc he with he | ⟨rfl, rfl⟩
    · obtain ⟨p, hp, e', he', hc⟩ := h.closed_true q e he hw
      exact ⟨p, hp, e', mono he', hc⟩
    · obtain ⟨p, hp, e', he', hc⟩ := hx.closed_true hw
      exact ⟨p, List.mem_cons_of_mem _ hp, e', mono he', hc⟩
  · intro q e he hw p hp e' he'
    rcases getElem?_snoc he with he | ⟨rfl, rfl⟩
    · rcases getElem?_snoc he' with he' | ⟨rfl, rfl⟩
      · exact h.closed_false q e he hw p hp e' he'
      · have := h.le_self q e he _ hp
        have := getElem?_lt he
        omega
    · intro hs
      have h0 := hx.closed_false hw
      rcases List.mem_cons.1 hp with rfl | hp
      · rw [new] at he'; cases he'
        rcases hs with ⟨u, hs⟩ | hs
        · have hs : x = _ := hs
          rw [hs] at hw; cases hw
        · have hs : x = _ := hs
          rw [hs] at hw; cases hw
      · have := saw_old p hp e' he' hs; omega

/-- `close()`: the log entry, then the store. -/
theorem MInv.close {m : Mem α} {t : Nat} (h : MInv m (some t)) :
    MInv ((m.record t (.ev (.lin t .close .unit))).store true t) (some t) := by
  have hl : Loggable m (some t) t (.ev (.lin t .close .unit)) false := ⟨fun _ => rfl, fun _ _ _ => .inl rfl, nofun, nofun, nofun⟩
  have h1 := h.record hl
  generalize hm1 : m.record t (.ev (.lin t .close .unit)) = m1 at h1
  have hclose : ∃ p ∈ (m1.view t).know, ∃ e, m1.log[p]? = some e ∧ IsClose e := by
    subst hm1
    exact ⟨m.log.length, by simp [Mem.record, Mem.setView], _, by simp [Mem.record]; rfl, t, rfl⟩
  have hlast : m1.writes.getLastD ⟨[], 0⟩ ∈ m1.writes := by
    have := h1.nonempty
    rw [List.getLastD_eq_getLast?]
    cases hw : m1.writes.getLast? with
    | none => rw [List.getLast?_eq_none_iff] at hw; simp [hw] at this
    | some x => exact List.mem_of_getLast? hw
  generalize hlv : m1.writes.getLastD ⟨[], 0⟩ = lw at hlast
  have hst : m1.store true t = { m1 with
      view := fun u => if u = t then (m1.view t).join ⟨[], m1.writes.length⟩ else m1.view u,
      writes := m1.writes ++ [((m1.view t).join ⟨[], m1.writes.length⟩).join lw] } := by
    simp only [Mem.store, Mem.setView, hlv]
  rw [hst]
  clear hst hlv
  have hvt : m1.Has (m1.view t) := .inl ⟨t, rfl⟩
  have hlw : m1.Has lw := .inr (.inr hlast)
  have made : ∀ v, Mem.Has { m1 with
      view := fun u => if u = t then (m1.view t).join ⟨[], m1.writes.length⟩ else m1.view u,
      writes := m1.writes ++ [((m1.view t).join ⟨[], m1.writes.length⟩).join lw] } v →
      v.seen < m1.writes.length + 1 ∧ (∀ p ∈ v.know, p < m1.log.length) ∧
      (∀ p ∈ v.know, ∀ e, m1.log[p]? = some e → e.know ⊆ v.know) ∧
      (∀ p ∈ v.know, ∀ e, m1.log[p]? = some e → SawClosed e → 0 < v.seen) := by
    have old : ∀ v, m1.Has v → v.seen < m1.writes.length + 1 ∧ (∀ p ∈ v.know, p < m1.log.length) ∧
        (∀ p ∈ v.know, ∀ e, m1.log[p]? = some e → e.know ⊆ v.know) := fun v hv =>
      ⟨by have := h1.seen_lt v hv; omega, h1.know_lt v hv, h1.closed_under v hv⟩
    have hpos := h1.nonempty
    have hs := h1.seen_lt _ hvt
    have hsl := h1.seen_lt _ hlw
    have mine : ∀ w, m1.Has w → w.seen < m1.writes.length + 1 ∧
        (∀ p ∈ ((m1.view t).join ⟨[], m1.writes.length⟩).know ++ w.know, p < m1.log.length) ∧
        (∀ p ∈ ((m1.view t).join ⟨[], m1.writes.length⟩).know ++ w.know, ∀ e, m1.log[p]? = some e → e.know ⊆ ((m1.view t).join ⟨[], m1.writes.length⟩).know ++ w.know) := by
      intro w hw
      refine ⟨(old w hw).1, ?_, ?_⟩
      · intro p hp
        simp only [View.join, List.append_nil, List.mem_append] at hp
        rcases hp with hp | hp
        · exact (old _ hvt).2.1 p hp
        · exact (old _ hw).2.1 p hp
      · intro p hp e he x hx
        simp only [View.join, List.append_nil, List.mem_append] at hp ⊢
        rcases hp with hp | hp
        · exact .inl ((old _ hvt).2.2 p hp e he hx)
        · exact .inr ((old _ hw).2.2 p hp e he hx)
    rintro v (⟨u, rfl⟩ | rfl | hw)
    · dsimp only
      split
      · refine ⟨by simp only [View.join]; omega, ?_, ?_, ?_⟩
        · intro p hp; simp only [View.join, List.append_nil] at hp; exact (old _ hvt).2.1 p hp
        · intro p hp e he; simp only [View.join, List.append_nil] at hp ⊢; exact (old _ hvt).2.2 p hp e he
        · intro _ _ _ _ _; simp only [View.join]; omega
      · rename_i hu
        refine ⟨(old _ (.inl ⟨u, rfl⟩)).1, (old _ (.inl ⟨u, rfl⟩)).2.1, (old _ (.inl ⟨u, rfl⟩)).2.2, ?_⟩
        subst hm1
        intro p hp e he hsc
        have hne : (m.record t (.ev (.lin t .close .unit))).view u = m.view u := by simp [Mem.record, Mem.setView, hu]
        rw [hne] at hp ⊢
        refine h.saw rfl (m.view u) (.inl ⟨u, rfl⟩) p hp e ?_ hsc
        rcases getElem?_snoc he with he | ⟨rfl, -⟩
        · exact he
        · exact absurd (h.know_lt _ (.inl ⟨u, rfl⟩) _ hp) (by omega)
    · refine ⟨(old _ (.inr (.inl rfl))).1, (old _ (.inr (.inl rfl))).2.1, (old _ (.inr (.inl rfl))).2.2, ?_⟩
      subst hm1
      intro p hp e he hsc
      refine h.saw rfl m.mtx (.inr (.inl rfl)) p hp e ?_ hsc
      rcases getElem?_snoc he with he | ⟨rfl, -⟩
      · exact he
      · exact absurd (h.know_lt _ (.inr (.inl rfl)) _ hp) (by omega)
    · rcases List.mem_append.1 hw with hw | hw
      · refine ⟨(old _ (.inr (.inr hw))).1, (old _ (.inr (.inr hw))).2.1, (old _ (.inr (.inr hw))).2.2, ?_⟩
        subst hm1
        intro p hp e he hsc
        refine h.saw rfl v (.inr (.inr hw)) p hp e ?_ hsc
        rcases getElem?_snoc he with he | ⟨rfl, -⟩
        · exact he
        · exact absurd (h.know_lt _ (.inr (.inr hw)) _ hp) (by omega)
      · simp only [List.mem_singleton] at hw
        subst hw
        have := mine lw hlw
        refine ⟨by simp only [View.join]; omega, this.2.1, this.2.2, ?_⟩
        intro _ _ _ _ _; simp only [View.join]; omega
  have hcs := h1.cur_seen
  simp only [Mem.cur] at hcs
  exact {
    nonempty := by simp
    seen_lt := fun v hv => by have := (made v hv).1; simp only [List.length_append, List.length_singleton]; exact this
    cur_seen := by simp only [Mem.cur, if_true, View.join, List.length_append, List.length_singleton]; omega
    know_lt := fun v hv => (made v hv).2.1
    closed_under := fun v hv => (made v hv).2.2.1
    order := fun p e he => by
      have := h1.order p e he
      dsimp only
      split
      · rename_i hu; rw [hu] at this; exact View.left_sub _ _ this
      · exact this
    cur_locked := fun p e he hl => by
      have := h1.cur_locked p e he hl
      simp only [Mem.cur, if_true] at this ⊢
      exact View.left_sub _ _ this
    saw := fun _ v hv => (made v hv).2.2.2
    carries := fun i v hv hi => by
      dsimp only at hv
      rcases getElem?_snoc hv with hv | ⟨rfl, rfl⟩
      · exact h1.carries i v hv hi
      · obtain ⟨p, hp, e, he⟩ := hclose
        exact ⟨p, View.left_sub _ _ (View.left_sub _ _ hp), e, he⟩
    own := h1.own
    le_self := h1.le_self
    trans := h1.trans
    prog := h1.prog
    lin := h1.lin
    closed_true := h1.closed_true
    closed_false := h1.closed_false }

/-! ### Machines -/

/-- The transitions of a machine, as far as the memory is concerned. -/
inductive Tr (M : Machine S α) (s s' : S) (a : Act α) : Prop where
  /-- no change -/
  | tau : M.sets s a = false → M.closed s' = M.closed s → M.hist s' = M.hist s → M.owner s' = M.owner s → Tr M s s' a
  | lock : M.sets s a = false → M.closed s' = M.closed s → M.hist s' = M.hist s → M.owner s = none → M.owner s' = some (tid a) → Tr M s s' a
  | unlock : M.sets s a = false → M.closed s' = M.closed s → M.hist s' = M.hist s → M.owner s = some (tid a) → M.owner s' = none → Tr M s s' a
  /-- call or return -/
  | border {e} : M.sets s a = false → M.closed s' = M.closed s → M.hist s' = M.hist s ++ [e] → M.owner s' = M.owner s →
      ¬ IsLin e → e.tid = tid a → Tr M s s' a
  | lin {op r} : M.sets s a = false → M.closed s' = M.closed s → M.hist s' = M.hist s ++ [.lin (tid a) op r] → M.owner s = some (tid a) →
      M.owner s' = some (tid a) → op ≠ .close → Tr M s s' a
  /-- rejected without the mutex -/
  | fast {e} : M.sets s a = false → M.closed s' = M.closed s → M.hist s' = M.hist s ++ [e] → M.owner s' = M.owner s →
      Rejected e → e.tid = tid a → M.load s a = some true → M.closed s = true → Tr M s s' a
  | close : M.sets s a = true → M.closed s' = true → M.hist s' = M.hist s ++ [.lin (tid a) .close .unit] → M.owner s = some (tid a) →
      M.owner s' = some (tid a) → M.load s a = none → Tr M s s' a

/-- What the memory needs from a machine. -/
structure Lawful (M : Machine S α) (Good : S → Prop) : Prop where
  rel : M.setRel = true
  acq : M.closedAcq = true
  set_self : ∀ s, M.setClosed s (M.closed s) = s
  set_owner : ∀ s b, M.owner (M.setClosed s b) = M.owner s
  set_hist : ∀ s b, M.hist (M.setClosed s b) = M.hist s
  set_closed : ∀ s b, M.closed (M.setClosed s b) = b
  good : ∀ s a s', Good s → replaced a = false → M.next s a = some s' → Good s' ∧ Tr M s s' a
  relaxed : ∀ s a b, Good s → M.load s a = some false → M.next (M.setClosed s b) a ≠ none → M.owner s = some (tid a)
  keeps : ∀ s a s', Good s → M.next s a = some s' → M.load s a ≠ none → M.closed s' = M.closed s
  stale : ∀ s a s', Good s → replaced a = false → M.load s a = some true → M.next (M.setClosed s false) a = some s' → M.closed s = true →
    Good (M.setClosed s' true) ∧ M.sets s a = false ∧ M.hist s' = M.hist s ∧ M.owner s' = M.owner s

/-- The invariant of a channel and its memory. -/
structure WInv (M : Machine S α) (Good : S → Prop) (w : W S α) : Prop where
  good : Good w.s
  mem : MInv w.m (M.owner w.s)
  flag : M.closed w.s = decide (1 < w.m.writes.length)
  first : w.m.writes[0]? = some ⟨[], 0⟩
  hist : histOf w.m.log = M.hist w.s
  tids : ∀ e ∈ w.m.log, ∀ v, e.what = .ev v → v.tid = e.tid

theorem histOf_append (l l' : List (Entry α)) : histOf (l ++ l') = histOf l ++ histOf l' := by simp [histOf]

theorem Mem.load_log (m : Mem α) (b t i) : (m.load b t i).log = m.log := rfl
theorem Mem.load_writes (m : Mem α) (b t i) : (m.load b t i).writes = m.writes := rfl

theorem Rejected.notClose {e : Ev α} (h : Rejected e) {t} : e ≠ .lin t .close .unit := by
  rintro rfl
  rcases h with ⟨_, _, h⟩ | ⟨_, _, h⟩ <;> cases h

theorem Loggable.of_ev {m : Mem α} {o : Option Nat} {t : Nat} {e : Ev α} (hc : ∀ u, e ≠ .lin u .close .unit)
    (h : IsLin e → o = some t ∨ (Rejected e ∧ ∃ p ∈ (m.view t).know, ∃ e', m.log[p]? = some e' ∧ IsClose e')) : Loggable m o t (.ev e) where
  locked := by
    rintro ⟨v, hv, hl, hr⟩
    cases hv
    rcases h hl with h | ⟨h, -⟩
    · exact h
    · exact absurd h hr
  lin := by rintro v hv hl; cases hv; exact h hl
  saw := by
    rintro _ (⟨u, hu⟩ | hu)
    · cases hu; exact absurd rfl (hc u)
    · cases hu
  closed_true := nofun
  closed_false := nofun

/-- The effect of a transition on a memory whose loads have been done. -/
theorem effect_inv {M : Machine S α} {Good : S → Prop} (L : Lawful M Good) {s s' : S} {a : Act α} {m : Mem α}
    (hm : MInv m (M.owner s)) (hf : M.closed s = decide (1 < m.writes.length)) (h0 : m.writes[0]? = some ⟨[], 0⟩) (hh : histOf m.log = M.hist s)
    (ht : ∀ e ∈ m.log, ∀ v, e.what = .ev v → v.tid = e.tid)
    (hfast : M.load s a = some true → M.closed s = true → (∃ e ∈ (M.hist s').drop (M.hist s).length, Rejected e) →
      ∃ p ∈ (m.view (tid a)).know, ∃ e', m.log[p]? = some e' ∧ IsClose e')
    (h : Tr M s s' a) (hg : Good s') : WInv M Good ⟨s', effect M s s' a m⟩ := by
  have add : ∀ {e : Ev α}, e.tid = tid a → ∀ x ∈ (m.record (tid a) (.ev e)).log, ∀ v, x.what = .ev v → v.tid = x.tid := by
    intro e he x hx v hv
    rcases List.mem_append.1 hx with hx | hx
    · exact ht x hx v hv
    · simp only [List.mem_singleton] at hx; subst hx; cases hv; exact he
  have hadd : ∀ e : Ev α, histOf (m.record (tid a) (.ev e)).log = M.hist s ++ [e] := by
    intro e; simp only [Mem.record, histOf_append, hh]; rfl
  cases h with
  | tau hs hc hi ho =>
    have : effect M s s' a m = m := by
      simp only [effect, hs, hi, List.drop_length, List.foldl_nil, ho]
      cases M.owner s <;> rfl
    rw [this]
    exact ⟨hg, by rw [ho]; exact hm, by rw [hc]; exact hf, h0, by rw [hi]; exact hh, ht⟩
  | lock hs hc hi ho ho' =>
    have : effect M s s' a m = m.lock (tid a) := by
      simp only [effect, hs, hi, List.drop_length, List.foldl_nil, ho, ho']
    rw [this]
    exact ⟨hg, by rw [ho']; rw [ho] at hm; exact hm.lock _, by rw [hc]; exact hf, h0, by rw [hi]; exact hh, ht⟩
  | unlock hs hc hi ho ho' =>
    have : effect M s s' a m = m.unlock (tid a) := by
      simp only [effect, hs, hi, List.drop_length, List.foldl_nil, ho, ho']
    rw [this]
    exact ⟨hg, by rw [ho']; rw [ho] at hm; exact hm.unlock, by rw [hc]; exact hf, h0, by rw [hi]; exact hh, ht⟩
  | @border e hs hc hi ho hl he =>
    have : effect M s s' a m = m.record (tid a) (.ev e) := by
      simp only [effect, hs, hi, List.drop_left, List.foldl_nil, List.foldl_cons, ho]
      cases M.owner s <;> rfl
    rw [this]
    have hncl : ∀ u, e ≠ .lin u .close .unit := by
      rintro u rfl
      exact hl ⟨u, _, _, rfl, by simp⟩
    exact ⟨hg, by rw [ho]; exact hm.record (.of_ev hncl fun h => absurd h hl), by rw [hc]; exact hf, h0, by rw [hi]; exact hadd e, add he⟩
  | @lin op r hs hc hi ho ho' hcl =>
    have : effect M s s' a m = m.record (tid a) (.ev (.lin (tid a) op r)) := by
      simp only [effect, hs, hi, List.drop_left, List.foldl_nil, List.foldl_cons, ho, ho']
    rw [this]
    have hncl : ∀ u, (.lin (tid a) op r : Ev α) ≠ .lin u .close .unit := by
      intro u hu
      cases hu
      exact hcl rfl
    exact ⟨hg, by rw [ho']; rw [ho] at hm; exact hm.record (.of_ev hncl fun _ => .inl rfl), by rw [hc]; exact hf, h0, by rw [hi]; exact hadd _, add rfl⟩
  | @fast e hs hc hi ho hr he hl hcl =>
    have : effect M s s' a m = m.record (tid a) (.ev e) := by
      simp only [effect, hs, hi, List.drop_left, List.foldl_nil, List.foldl_cons, ho]
      cases M.owner s <;> rfl
    rw [this]
    have hf' := hfast hl hcl ⟨e, by simp [hi], hr⟩
    exact ⟨hg, by rw [ho]; exact hm.record (.of_ev (fun _ => hr.notClose) fun _ => .inr ⟨hr, hf'⟩), by rw [hc]; exact hf, h0,
      by rw [hi]; exact hadd e, add he⟩
  | close hs hc hi ho ho' hl =>
    have : effect M s s' a m = (m.record (tid a) (.ev (.lin (tid a) .close .unit))).store true (tid a) := by
      simp only [effect, hs, hi, List.drop_left, List.foldl_nil, List.foldl_cons, ho, ho', L.rel]
    rw [this]
    rw [ho] at hm
    have hp := hm.nonempty
    refine ⟨hg, by rw [ho']; exact hm.close, ?_, ?_, by rw [hi]; exact hadd _, add rfl⟩
    · rw [hc]
      simp [Mem.store, Mem.record, Mem.setView]; exact hp
    · simp only [Mem.store, Mem.record, Mem.setView]
      rw [List.getElem?_append_left hp]; exact h0

theorem canRead_iff {m : Mem α} {t i : Nat} : m.canRead t i = true ↔ (m.view t).seen ≤ i ∧ i < m.writes.length := by
  simp [Mem.canRead]

theorem MInv.carried {m : Mem α} {o} (h : MInv m o) {t i : Nat} (hi : i < m.writes.length) (hpos : 0 < i) :
    ∃ p ∈ ((m.load true t i).view t).know, ∃ e', m.log[p]? = some e' ∧ IsClose e' := by
  obtain ⟨p, hp, e, he⟩ := h.carries i m.writes[i] (List.getElem?_eq_getElem hi) hpos
  refine ⟨p, ?_, e, he⟩
  simp only [Mem.load, Mem.setView, if_true]
  refine View.right_sub _ _ ?_
  simp only [List.getD_eq_getElem?_getD, List.getElem?_eq_getElem hi, Option.getD_some]
  exact hp

theorem wnext_inv {M : Machine S α} {Good : S → Prop} (L : Lawful M Good) {w w' : W S α} {x : WAct α} (hw : WInv M Good w)
    (h : wnext M w x = some w') : WInv M Good w' := by
  obtain ⟨s, m⟩ := w
  obtain ⟨hg, hm, hf, h0, hh, ht⟩ := hw
  dsimp only at hg hm hf h0 hh ht
  cases x with
  | act a i =>
    simp only [wnext] at h
    cases hr : replaced a with
    | true => simp [hr] at h
    | false =>
      cases hl : M.load s a with
      | none =>
        simp only [hr, hl, Option.map_eq_some_iff] at h
        obtain ⟨s', hn, rfl⟩ := h
        obtain ⟨hg', htr⟩ := L.good s a s' hg hr hn
        exact effect_inv L hm hf h0 hh ht (by rw [hl]; nofun) htr hg'
      | some acq =>
        simp only [hr, hl] at h
        cases hc : m.canRead (tid a) i with
        | false => simp [hc] at h
        | true =>
          simp only [hc, Option.map_eq_some_iff] at h
          obtain ⟨s', hn, rfl⟩ := h
          obtain ⟨hc1, hc2⟩ := canRead_iff.1 hc
          have hload := hm.load acq (tid a) i hc2
          by_cases heq : flagAt i = M.closed s
          · rw [heq, L.set_self] at hn
            obtain ⟨hg', htr⟩ := L.good s a s' hg hr hn
            have hk := L.keeps s a s' hg hn (by simp [hl])
            have : M.setClosed s' (M.closed s) = s' := by rw [← hk, L.set_self]
            rw [this]
            refine effect_inv L hload hf h0 hh ht ?_ htr hg'
            intro hl' hcl _
            rw [hl] at hl'; cases hl'
            refine hm.carried hc2 ?_
            rw [hcl] at heq
            simpa [flagAt] using heq
          · cases acq with
            | false =>
              exfalso
              have ho := L.relaxed s a (flagAt i) hg hl (by rw [hn]; simp)
              have hcs := hm.cur_seen
              rw [ho] at hcs
              simp only [Mem.cur] at hcs
              apply heq
              rw [hf, flagAt]
              congr 1
              apply propext
              omega
            | true =>
              have hfl : flagAt i = false ∧ M.closed s = true := by
                cases hfi : flagAt i
                · refine ⟨rfl, ?_⟩
                  rw [hfi] at heq
                  cases hcc : M.closed s
                  · exact absurd hcc.symm heq
                  · rfl
                · exfalso
                  apply heq
                  rw [hfi, hf]
                  simp [flagAt] at hfi
                  exact (decide_eq_true (by omega)).symm
              rw [hfl.1] at hn
              obtain ⟨hg', hs, hi, ho⟩ := L.stale s a s' hg hr hl hn hfl.2
              have he : effect M s s' a (m.load true (tid a) i) = m.load true (tid a) i := by
                simp only [effect, hs, hi, List.drop_length, List.foldl_nil, ho]
                cases M.owner s <;> rfl
              rw [he, hfl.2]
              exact ⟨hg', by rw [L.set_owner, ho]; exact hload, by rw [L.set_closed]; rw [hfl.2] at hf; exact hf, h0,
                by rw [L.set_hist, hi]; exact hh, ht⟩
  | closed t i =>
    simp only [wnext] at h
    cases hidle : M.idle s t with
    | false => simp [hidle] at h
    | true =>
      cases hc : m.canRead t i with
      | false => simp [hidle, hc] at h
      | true =>
        simp only [hidle, hc, Option.some.injEq, L.acq] at h
        subst h
        obtain ⟨hc1, hc2⟩ := canRead_iff.1 hc
        have hload := hm.load true t i hc2
        have hseen : i ≤ ((m.load true t i).view t).seen := by
          simp only [Mem.load, Mem.setView, if_true, View.join]; omega
        have hlog : Loggable (m.load true t i) (M.owner s) t (.closed (flagAt i)) := by
          refine ⟨?_, nofun, ?_, ?_, ?_⟩
          · rintro ⟨v, hv, -⟩; cases hv
          · rintro _ (⟨u, hu⟩ | hu)
            · cases hu
            · have : flagAt i = true := by injection hu
              simp [flagAt] at this; omega
          · intro hu
            have : flagAt i = true := by injection hu
            simp [flagAt] at this
            exact hm.carried hc2 this
          · intro hu
            have : flagAt i = false := by injection hu
            simp [flagAt] at this
            subst this
            simp only [Mem.load, Mem.setView, if_true, View.join, List.getD_eq_getElem?_getD, h0, Option.getD_some]
            omega
        refine ⟨hg, hload.record hlog, hf, h0, ?_, ?_⟩
        · simp only [Mem.record, histOf_append, Mem.load_log, hh]; simp [histOf]
        · intro e he v hv
          rcases List.mem_append.1 he with he | he
          · exact ht e he v hv
          · simp only [List.mem_singleton] at he; subst he; cases hv
  | user t =>
    simp only [wnext] at h
    cases hidle : M.idle s t with
    | false => simp [hidle] at h
    | true =>
      simp only [hidle, Option.some.injEq] at h
      subst h
      have hlog : Loggable m (M.owner s) t (.user) := by
        refine ⟨?_, nofun, ?_, nofun, nofun⟩
        · rintro ⟨v, hv, -⟩; cases hv
        · rintro _ (⟨u, hu⟩ | hu) <;> cases hu
      refine ⟨hg, hm.record hlog, hf, h0, ?_, ?_⟩
      · simp only [Mem.record, histOf_append, hh]; simp [histOf]
      · intro e he v hv
        rcases List.mem_append.1 he with he | he
        · exact ht e he v hv
        · simp only [List.mem_singleton] at he; subst he; cases hv
  | sync t t' =>
    simp only [wnext] at h
    cases hidle : M.idle s t with
    | false => simp [hidle] at h
    | true =>
      cases hidle' : M.idle s t' with
      | false => simp [hidle, hidle'] at h
      | true =>
        simp only [hidle, hidle', Option.some.injEq] at h
        subst h
        exact ⟨hg, hm.sync t t', hf, h0, hh, ht⟩

theorem wrun_inv {M : Machine S α} {Good : S → Prop} (L : Lawful M Good) : ∀ (as : List (WAct α)) {w w' : W S α}, WInv M Good w →
    wrun M w as = some w' → WInv M Good w'
  | [], w, w', hw, h => by simp only [wrun, Option.some.injEq] at h; subst h; exact hw
  | a :: as, w, w', hw, h => by
    simp only [wrun] at h
    cases hn : wnext M w a with
    | none => simp [hn] at h
    | some w1 => simp only [hn, Option.bind] at h; exact wrun_inv L as (wnext_inv L hw hn) h

theorem WReachable.inv {M : Machine S α} {Good : S → Prop} (L : Lawful M Good) {s : S} {w : W S α} (hg : Good s) (hc : M.closed s = false)
    (ho : M.owner s = none) (hh : M.hist s = []) (h : WReachable M s w) : WInv M Good w := by
  obtain ⟨as, h⟩ := h
  refine wrun_inv L as ⟨hg, by rw [ho]; exact .init, ?_, rfl, ?_, ?_⟩ h
  · simp [hc, Mem.init]
  · simp [hh, Mem.init, histOf]
  · intro e he; simp [Mem.init] at he

end Verif.HB
