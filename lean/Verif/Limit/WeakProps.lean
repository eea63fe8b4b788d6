import Verif.Limit.WeakModel
import Verif.Limit.Props

/-!
C82: what the relaxed memory orders of `limit_allocator.hpp` mean for users.
-/
namespace Verif.Limit

open Verif.Channel (lt_of_getElem? getElem?_set')

/-! ### Specification -/

/-- The action is sequenced after the earlier ones of thread `u`; synchronization follows those of both threads. -/
def Rec.after (r : Rec) (u : Nat) : Prop := match r.act with
  | .act a _ => u = a.tid
  | .sync t t' => u = t ∨ u = t'

/-- The later actions of thread `u` follow the action; of synchronization those of the second thread. -/
def Rec.before (r : Rec) (u : Nat) : Prop := match r.act with
  | .act a _ => u = a.tid
  | .sync _ t' => u = t'

/-- Edges of happens-before: nothing but the order in each thread and synchronization outside of the allocator. -/
def Edge (log : List Rec) (i j : Nat) : Prop :=
  i < j ∧ ∃ a b t, log[i]? = some a ∧ log[j]? = some b ∧ a.before t ∧ b.after t

/-- Action number `i` of the log happens before number `j`. -/
inductive Hb (log : List Rec) : Nat → Nat → Prop where
  | edge {i j : Nat} (h : Edge log i j) : Hb log i j
  | tail {i j k : Nat} (h : Hb log i j) (h' : Edge log j k) : Hb log i k

/-- Action number `q` of the log is a call of `allocate` by thread `i`. -/
def CallsAllocate (log : List Rec) (q i : Nat) : Prop := ∃ r b v k, log[q]? = some r ∧ r.act = .act (.alloc i b v) k

/-- Action number `p` of the log gives the counter its value number `m`. -/
def Writes (log : List Rec) (p m : Nat) : Prop := ∃ r, log[p]? = some r ∧ r.writes = some m

/-- Action number `p` of the log reads value number `m`. -/
def Reads (log : List Rec) (p m : Nat) : Prop := ∃ r, log[p]? = some r ∧ r.reads = some m

/-- Action number `q` belongs to thread `t`, or tells it something. -/
def Of (log : List Rec) (q t : Nat) : Prop := ∃ r, log[q]? = some r ∧ r.before t

/-! ### Lemmas -/

theorem get_snoc {β : Type} {l : List β} {x y : β} {j : Nat} : (l ++ [x])[j]? = some y ↔ (l[j]? = some y ∨ (j = l.length ∧ y = x)) := by
  rw [List.getElem?_append]
  split
  · constructor
    · exact .inl
    · rintro (h | ⟨h, _⟩)
      · exact h
      · omega
  · rw [List.getElem?_singleton]
    constructor
    · intro h
      split at h
      · injection h with h; exact .inr ⟨by omega, h.symm⟩
      · cases h
    · rintro (h | ⟨rfl, rfl⟩)
      · have := lt_of_getElem? h; omega
      · simp

theorem get_snoc_lt {β : Type} {l : List β} {x : β} {j : Nat} (h : j < l.length) : (l ++ [x])[j]? = l[j]? := List.getElem?_append_left h

theorem get_snoc_len {β : Type} {l : List β} {x : β} : (l ++ [x])[l.length]? = some x := by simp

theorem Edge.lt {log : List Rec} {i j : Nat} (h : Edge log i j) : i < j ∧ j < log.length := by
  obtain ⟨h1, a, b, t, _, h3, _⟩ := h; exact ⟨h1, lt_of_getElem? h3⟩

theorem Hb.lt {log : List Rec} {i j : Nat} (h : Hb log i j) : i < j ∧ j < log.length := by
  induction h with
  | edge h => exact h.lt
  | tail _ h ih => exact ⟨Nat.lt_trans ih.1 h.lt.1, h.lt.2⟩

theorem Edge.snoc {log : List Rec} {r : Rec} {i j : Nat} (hj : j < log.length) : Edge (log ++ [r]) i j ↔ Edge log i j := by
  constructor
  · rintro ⟨h1, a, b, t, h2, h3, h4⟩
    rw [get_snoc_lt (by omega)] at h2; rw [get_snoc_lt hj] at h3
    exact ⟨h1, a, b, t, h2, h3, h4⟩
  · rintro ⟨h1, a, b, t, h2, h3, h4⟩
    exact ⟨h1, a, b, t, by rw [get_snoc_lt (by omega)]; exact h2, by rw [get_snoc_lt hj]; exact h3, h4⟩

theorem Hb.snoc {log : List Rec} {r : Rec} {i j : Nat} (hj : j < log.length) : Hb (log ++ [r]) i j ↔ Hb log i j := by
  constructor
  · intro h
    induction h with
    | edge h => exact .edge ((Edge.snoc hj).1 h)
    | tail _ h ih => exact .tail (ih (by have := h.lt; omega)) ((Edge.snoc hj).1 h)
  · intro h
    clear hj
    induction h with
    | edge h => exact .edge ((Edge.snoc h.lt.2).2 h)
    | tail _ h ih => exact .tail ih ((Edge.snoc h.lt.2).2 h)

theorem Hb.last {log : List Rec} {r : Rec} {i : Nat} : Hb (log ++ [r]) i log.length ↔ ∃ q t, Of log q t ∧ r.after t ∧ (i = q ∨ Hb log i q) := by
  have edge : ∀ j, Edge (log ++ [r]) j log.length ↔ ∃ t, Of log j t ∧ r.after t := by
    intro j
    constructor
    · rintro ⟨h1, a, b, t, h2, h3, h4, h5⟩
      rw [get_snoc_lt h1] at h2
      rw [get_snoc_len] at h3; injection h3 with h3; subst h3
      exact ⟨t, ⟨a, h2, h4⟩, h5⟩
    · rintro ⟨t, ⟨a, h2, h4⟩, h5⟩
      have h1 := lt_of_getElem? h2
      exact ⟨h1, a, r, t, by rw [get_snoc_lt h1]; exact h2, get_snoc_len, h4, h5⟩
  constructor
  · intro h
    cases h with
    | edge h => obtain ⟨t, h1, h2⟩ := (edge i).1 h; exact ⟨i, t, h1, h2, .inl rfl⟩
    | tail h h' =>
      rename_i j
      obtain ⟨t, h1, h2⟩ := (edge j).1 h'
      exact ⟨j, t, h1, h2, .inr ((Hb.snoc h'.lt.1).1 h)⟩
  · rintro ⟨q, t, h1, h2, rfl | h3⟩
    · exact .edge ((edge i).2 ⟨t, h1, h2⟩)
    · exact .tail ((Hb.snoc h3.lt.2).2 h3) ((edge q).2 ⟨t, h1, h2⟩)

/-- What an action does to the counter and the thread. -/
theorem step_shape {M : Nat} {s : St} {a : Act} {r : St × List Ev} (h : step M s a = some r) :
    (∃ x y, s.pcs[a.tid]? = some y ∧ r.1.pcs = s.pcs.set a.tid x ∧ ∀ b v, x = .loaded b v → loaded s a = some v) ∧
    (match modifies s a with
      | true => loaded s a = none ∧ r.1.hist = s.hist ++ [r.1.left]
      | false => r.1.hist = s.hist ∧ r.1.left = s.left) := by
  cases a with
  | alloc i b v =>
    simp only [step] at h
    split at h
    · rename_i hp
      split at h
      · injection h with h; subst h
        exact ⟨⟨_, _, hp, rfl, fun b' v' he => by injection he with _ he; subst he; rfl⟩, rfl, rfl⟩
      · cases h
    · cases h
  | test i =>
    simp only [step] at h
    split at h
    · rename_i hp
      split at h <;> injection h with h <;> subst h <;> exact ⟨⟨_, _, hp, rfl, by simp⟩, rfl, rfl⟩
    · cases h
  | cas i sp v =>
    simp only [step] at h
    split at h
    · rename_i b old hp
      split at h
      · rename_i hc
        injection h with h; subst h
        refine ⟨⟨_, _, hp, rfl, by simp⟩, ?_⟩
        simp [modifies, loaded, hp, hc]
      · rename_i hc
        split at h
        · injection h with h; subst h
          refine ⟨⟨_, _, hp, rfl, fun b' v' he => ?_⟩, ?_⟩
          · injection he with _ he; subst he; simp [loaded, hp, hc]
          · simp [modifies, hp, hc]
        · cases h
    · cases h
  | upAlloc i ok =>
    simp only [step] at h
    split at h
    · rename_i hp
      split at h
      · split at h
        · injection h with h; subst h; exact ⟨⟨_, _, hp, rfl, by simp⟩, rfl, rfl⟩
        · cases h
      · injection h with h; subst h; exact ⟨⟨_, _, hp, rfl, by simp⟩, rfl, rfl⟩
    · cases h
  | refund i =>
    simp only [step] at h
    split at h
    · rename_i hp
      injection h with h; subst h; exact ⟨⟨_, _, hp, rfl, by simp⟩, rfl, rfl⟩
    · cases h
  | dealloc i k =>
    simp only [step] at h
    split at h
    · rename_i hp hk
      injection h with h; subst h; exact ⟨⟨_, _, hp, rfl, by simp⟩, rfl, rfl⟩
    · cases h
  | upFree i =>
    simp only [step] at h
    split at h
    · rename_i hp
      injection h with h; subst h; exact ⟨⟨_, _, hp, rfl, by simp⟩, rfl, rfl⟩
    · cases h
  | giveBack i =>
    simp only [step] at h
    split at h
    · rename_i hp
      injection h with h; subst h; exact ⟨⟨_, _, hp, rfl, by simp⟩, rfl, rfl⟩
    · cases h

/-- What thread `t` has read or written, or knows to have been. -/
def Known (log : List Rec) (t m : Nat) : Prop := ∃ p q, (Reads log p m ∨ Writes log p m) ∧ Of log q t ∧ (p = q ∨ Hb log p q)

structure WInv (w : WSt) (log : List Rec) : Prop where
  bound : ∀ p m, Writes log p m ∨ Reads log p m → m < w.s.hist.length
  all : ∀ m, 0 < m → m < w.s.hist.length → ∃ p, Writes log p m
  last : w.s.hist.getLast? = some w.s.left
  seen : ∀ t k, k ≤ w.seen t ↔ k = 0 ∨ ∃ m, Known log t m ∧ k ≤ m
  pcs : ∀ (i : Nat) b v, w.s.pcs[i]? = some (.loaded b v) → ∃ k, w.s.hist[k]? = some v ∧
    ∀ p q m, Writes log p m → CallsAllocate log q i → Hb log p q → m ≤ k

theorem writes_snoc {log : List Rec} {r : Rec} {p m : Nat} : Writes (log ++ [r]) p m ↔ Writes log p m ∨ (p = log.length ∧ r.writes = some m) := by
  constructor
  · rintro ⟨x, h1, h2⟩
    rcases get_snoc.1 h1 with h3 | ⟨h3, rfl⟩
    · exact .inl ⟨x, h3, h2⟩
    · exact .inr ⟨h3, h2⟩
  · rintro (⟨x, h1, h2⟩ | ⟨rfl, h2⟩)
    · exact ⟨x, get_snoc.2 (.inl h1), h2⟩
    · exact ⟨r, get_snoc_len, h2⟩

theorem reads_snoc {log : List Rec} {r : Rec} {p m : Nat} : Reads (log ++ [r]) p m ↔ Reads log p m ∨ (p = log.length ∧ r.reads = some m) := by
  constructor
  · rintro ⟨x, h1, h2⟩
    rcases get_snoc.1 h1 with h3 | ⟨h3, rfl⟩
    · exact .inl ⟨x, h3, h2⟩
    · exact .inr ⟨h3, h2⟩
  · rintro (⟨x, h1, h2⟩ | ⟨rfl, h2⟩)
    · exact ⟨x, get_snoc.2 (.inl h1), h2⟩
    · exact ⟨r, get_snoc_len, h2⟩

theorem of_snoc {log : List Rec} {r : Rec} {q t : Nat} : Of (log ++ [r]) q t ↔ Of log q t ∨ (q = log.length ∧ r.before t) := by
  constructor
  · rintro ⟨x, h1, h2⟩
    rcases get_snoc.1 h1 with h3 | ⟨h3, rfl⟩
    · exact .inl ⟨x, h3, h2⟩
    · exact .inr ⟨h3, h2⟩
  · rintro (⟨x, h1, h2⟩ | ⟨rfl, h2⟩)
    · exact ⟨x, get_snoc.2 (.inl h1), h2⟩
    · exact ⟨r, get_snoc_len, h2⟩

theorem Of.lt {log : List Rec} {q t : Nat} (h : Of log q t) : q < log.length := by obtain ⟨_, h, _⟩ := h; exact lt_of_getElem? h
theorem Writes.lt {log : List Rec} {p m : Nat} (h : Writes log p m) : p < log.length := by obtain ⟨_, h, _⟩ := h; exact lt_of_getElem? h
theorem Reads.lt {log : List Rec} {p m : Nat} (h : Reads log p m) : p < log.length := by obtain ⟨_, h, _⟩ := h; exact lt_of_getElem? h

/-- What threads know after another action: that of the others is unchanged, that of its own thread, or the one told, is what the action follows and what it did. -/
theorem known_snoc {log : List Rec} {r : Rec} {t m : Nat} : Known (log ++ [r]) t m ↔
    Known log t m ∨ (r.before t ∧ ((r.reads = some m ∨ r.writes = some m) ∨ ∃ u, r.after u ∧ Known log u m)) := by
  constructor
  · rintro ⟨p, q, h1, h2, h3⟩
    rcases of_snoc.1 h2 with h2 | ⟨rfl, h4⟩
    · left
      have hq := h2.lt
      have hp : p < log.length ∧ (p = q ∨ Hb log p q) := by
        rcases h3 with rfl | h3
        · exact ⟨hq, .inl rfl⟩
        · have h3 := (Hb.snoc hq).1 h3
          exact ⟨by have := h3.lt; omega, .inr h3⟩
      refine ⟨p, q, ?_, h2, hp.2⟩
      rw [reads_snoc, writes_snoc] at h1
      rcases h1 with (h1 | ⟨h1, _⟩) | (h1 | ⟨h1, _⟩)
      · exact .inl h1
      · omega
      · exact .inr h1
      · omega
    · right
      refine ⟨h4, ?_⟩
      rw [reads_snoc, writes_snoc] at h1
      rcases h3 with rfl | h3
      · left
        rcases h1 with (h1 | ⟨_, h1⟩) | (h1 | ⟨_, h1⟩)
        · have := h1.lt; omega
        · exact .inl h1
        · have := h1.lt; omega
        · exact .inr h1
      · right
        have hlt := h3.lt.1
        obtain ⟨q, u, h4, h5, h6⟩ := Hb.last.1 h3
        refine ⟨u, h5, p, q, ?_, h4, h6⟩
        rcases h1 with (h1 | ⟨h1, _⟩) | (h1 | ⟨h1, _⟩)
        · exact .inl h1
        · omega
        · exact .inr h1
        · omega
  · rintro (⟨p, q, h1, h2, h3⟩ | ⟨h2, h1 | ⟨u, h3, p, q, h1, h4, h5⟩⟩)
    · refine ⟨p, q, h1.imp (fun h => reads_snoc.2 (.inl h)) (fun h => writes_snoc.2 (.inl h)), of_snoc.2 (.inl h2), ?_⟩
      exact h3.imp id (Hb.snoc h2.lt).2
    · exact ⟨log.length, log.length, h1.imp (fun h => reads_snoc.2 (.inr ⟨rfl, h⟩)) (fun h => writes_snoc.2 (.inr ⟨rfl, h⟩)),
        of_snoc.2 (.inr ⟨rfl, h2⟩), .inl rfl⟩
    · exact ⟨p, log.length, h1.imp (fun h => reads_snoc.2 (.inl h)) (fun h => writes_snoc.2 (.inl h)),
        of_snoc.2 (.inr ⟨rfl, h2⟩), .inr (Hb.last.2 ⟨q, u, h4, h3, h5⟩)⟩

theorem calls_snoc {log : List Rec} {r : Rec} {q i : Nat} : CallsAllocate (log ++ [r]) q i ↔
    CallsAllocate log q i ∨ (q = log.length ∧ ∃ b v k, r.act = .act (.alloc i b v) k) := by
  constructor
  · rintro ⟨x, b, v, k, h1, h2⟩
    rcases get_snoc.1 h1 with h3 | ⟨h3, rfl⟩
    · exact .inl ⟨x, b, v, k, h3, h2⟩
    · exact .inr ⟨h3, b, v, k, h2⟩
  · rintro (⟨x, b, v, k, h1, h2⟩ | ⟨rfl, b, v, k, h2⟩)
    · exact ⟨x, b, v, k, get_snoc.2 (.inl h1), h2⟩
    · exact ⟨r, b, v, k, get_snoc_len, h2⟩

/-- Everything that happens before a call of `allocate` by `i` is known to `i`. -/
theorem known_call {log : List Rec} {p q m i : Nat} (h1 : Writes log p m) (h2 : CallsAllocate log q i) (h3 : Hb log p q) : Known log i m := by
  obtain ⟨r, b, v, k, h4, h5⟩ := h2
  exact ⟨p, q, .inr h1, ⟨r, h4, by simp [Rec.before, h5, Act.tid]⟩, .inr h3⟩

theorem winv_init {limit n : Nat} : WInv (winit limit n) [] := by
  refine ⟨?_, ?_, rfl, ?_, ?_⟩
  · rintro p m (⟨r, h, _⟩ | ⟨r, h, _⟩) <;> simp at h
  · intro m h1 h2; simp [winit, init] at h2; omega
  · intro t k
    constructor
    · intro h; left; simp [winit] at h; exact h
    · rintro (h | ⟨m, ⟨p, q, _, ⟨r, h, _⟩, _⟩, _⟩)
      · subst h; exact Nat.zero_le _
      · simp at h
  · intro i b v h; simp [winit, init, List.getElem?_replicate] at h

theorem winv_step {M : Nat} {w w' : WSt} {log : List Rec} {a : WAct} {r : Rec} (hi : WInv w log) (h : wstep M w a = some (w', r)) :
    WInv w' (log ++ [r]) := by
  cases a with
  | sync t t' =>
    simp only [wstep] at h
    split at h
    · injection h with h; injection h with h h'; subst h h'
      have hnew : ∀ p m, (Writes (log ++ [⟨.sync t t', [], none, none⟩]) p m ↔ Writes log p m) := fun p m => by rw [writes_snoc]; simp
      have hold : ∀ p m, (Reads (log ++ [⟨.sync t t', [], none, none⟩]) p m ↔ Reads log p m) := fun p m => by rw [reads_snoc]; simp
      refine ⟨fun p m h => ?_, fun m h1 h2 => ?_, hi.last, fun u k => ?_, fun i b v hp => ?_⟩
      · rw [hnew, hold] at h; exact hi.bound p m h
      · obtain ⟨p, hp⟩ := hi.all m h1 h2; exact ⟨p, (hnew _ _).2 hp⟩
      · have e : ∀ m, Known (log ++ [⟨.sync t t', [], none, none⟩]) u m ↔ Known log u m ∨ (u = t' ∧ (Known log t m ∨ Known log t' m)) := by
          intro m; rw [known_snoc]; simp [Rec.before, Rec.after]
        simp only [e]
        by_cases hu : u = t'
        · rw [if_pos hu]; subst hu
          have h1 := hi.seen t k
          have h2 := hi.seen u k
          constructor
          · intro hk
            have hk : k ≤ w.seen u ∨ k ≤ w.seen t := by omega
            rcases hk with hk | hk
            · rcases h2.1 hk with h | ⟨m, h, h'⟩
              · exact .inl h
              · exact .inr ⟨m, .inl h, h'⟩
            · rcases h1.1 hk with h | ⟨m, h, h'⟩
              · exact .inl h
              · exact .inr ⟨m, .inr ⟨rfl, .inl h⟩, h'⟩
          · rintro (h | ⟨m, h | ⟨_, h | h⟩, h'⟩)
            · omega
            · have := h2.2 (.inr ⟨m, h, h'⟩); omega
            · have := h1.2 (.inr ⟨m, h, h'⟩); omega
            · have := h2.2 (.inr ⟨m, h, h'⟩); omega
        · rw [if_neg hu]
          simp only [hu, false_and, or_false]
          exact hi.seen u k
      · obtain ⟨k, h1, h2⟩ := hi.pcs i b v hp
        refine ⟨k, h1, fun p q m h3 h4 h5 => ?_⟩
        rw [hnew] at h3
        rw [calls_snoc] at h4
        rcases h4 with h4 | ⟨_, b, v, k, h4⟩
        · have hq : q < log.length := by obtain ⟨_, _, _, _, h4, _⟩ := h4; exact lt_of_getElem? h4
          exact h2 p q m h3 h4 ((Hb.snoc hq).1 h5)
        · cases h4
    · cases h
  | act a k =>
    simp only [wstep, Option.bind_eq_some_iff] at h
    obtain ⟨r', hs, h⟩ := h
    obtain ⟨⟨x, y, hy, hx, hx2⟩, hm⟩ := step_shape hs
    -- the thread of the action knows what it knew and what the action read or wrote
    have known : ∀ rc : Rec, rc.act = .act a k → ∀ u m, Known (log ++ [rc]) u m ↔ Known log u m ∨ (u = a.tid ∧ (rc.reads = some m ∨ rc.writes = some m)) := by
      intro rc hrc u m
      rw [known_snoc]
      have h1 : rc.before u ↔ u = a.tid := by simp [Rec.before, hrc]
      have h2 : ∀ v, rc.after v ↔ v = a.tid := by simp [Rec.after, hrc]
      constructor
      · rintro (h | ⟨h, h' | ⟨v, h3, h4⟩⟩)
        · exact .inl h
        · exact .inr ⟨h1.1 h, h'⟩
        · left; rw [h1.1 h, ← (h2 v).1 h3]; exact h4
      · rintro (h | ⟨h, h'⟩)
        · exact .inl h
        · exact .inr ⟨h1.2 h, .inl h'⟩
    -- threads in `loaded`
    have loads : ∀ rc : Rec, rc.act = .act a k → (∀ l, rc.writes = some l → l = w.s.hist.length) →
        (∃ l, r'.1.hist = w.s.hist ++ l) →
        (∀ v, loaded w.s a = some v → w.seen a.tid ≤ k ∧ w.s.hist[k]? = some v ∧ rc.writes = none) →
        ∀ (i : Nat) b v, r'.1.pcs[i]? = some (.loaded b v) → ∃ k : Nat, r'.1.hist[k]? = some v ∧
          ∀ p q m, Writes (log ++ [rc]) p m → CallsAllocate (log ++ [rc]) q i → Hb (log ++ [rc]) p q → m ≤ k := by
      intro rc hrc hw ⟨l, hh⟩ hl i b v hp
      have keep : ∀ (k v : Nat), w.s.hist[k]? = some v → r'.1.hist[k]? = some v := by
        intro k v h; rw [hh, List.getElem?_append_left (lt_of_getElem? h)]; exact h
      rw [hx] at hp
      rcases getElem?_set' hy hp with ⟨rfl, he⟩ | ⟨hne, hp⟩
      · obtain ⟨h1, h2, h3⟩ := hl v (hx2 b v he.symm)
        refine ⟨k, keep _ _ h2, fun p q m h4 h5 h6 => ?_⟩
        have h7 := (known rc hrc _ m).1 (known_call h4 h5 h6)
        rcases h7 with h7 | ⟨_, h7 | h7⟩
        · have := (hi.seen a.tid m).2 (.inr ⟨m, h7, Nat.le_refl _⟩); omega
        · -- a value that the action itself reads is not written
          rw [writes_snoc] at h4
          rcases h4 with h4 | ⟨_, h4⟩
          · have hq := h6.lt.2
            have : Known log a.tid m := by
              rw [calls_snoc] at h5
              rcases h5 with h5 | ⟨h5, _⟩
              · have hq : q < log.length := by obtain ⟨_, _, _, _, h, _⟩ := h5; exact lt_of_getElem? h
                exact known_call h4 h5 ((Hb.snoc hq).1 h6)
              · subst h5
                obtain ⟨q', t, h8, h9, h10⟩ := Hb.last.1 h6
                have : t = a.tid := by simpa [Rec.after, hrc] using h9
                exact ⟨p, q', .inr h4, this ▸ h8, h10⟩
            have := (hi.seen a.tid m).2 (.inr ⟨m, this, Nat.le_refl _⟩); omega
          · rw [h3] at h4; cases h4
        · rw [h3] at h7; cases h7
      · obtain ⟨k', h1, h2⟩ := hi.pcs i b v hp
        refine ⟨k', keep _ _ h1, fun p q m h4 h5 h6 => ?_⟩
        rw [calls_snoc] at h5
        rcases h5 with h5 | ⟨_, b', v', k2, h5⟩
        · have hq : q < log.length := by obtain ⟨_, _, _, _, h, _⟩ := h5; exact lt_of_getElem? h
          have h6 := (Hb.snoc hq).1 h6
          rw [writes_snoc] at h4
          rcases h4 with h4 | ⟨h4, _⟩
          · exact h2 p q m h4 h5 h6
          · have := h6.lt; omega
        · rw [hrc] at h5; injection h5 with h5 _; subst h5; exact absurd rfl hne
    split at h
    · rename_i v hv
      split at h
      · rename_i hk
        injection h with h; injection h with h h'; subst h h'
        cases hmm : modifies w.s a with
        | true => rw [hmm] at hm; rw [hm.1] at hv; cases hv
        | false =>
          rw [hmm] at hm
          refine ⟨fun p m h => ?_, fun m h1 h2 => ?_, ?_, fun u j => ?_,
            loads ⟨.act a k, r'.2, some k, none⟩ rfl (by simp) ⟨[], by simp [hm.1]⟩ fun v' hv' => ?_⟩
          · dsimp only; rw [hm.1]
            rw [writes_snoc, reads_snoc] at h
            rcases h with (h | ⟨_, h⟩) | (h | ⟨_, h⟩)
            · exact hi.bound p m (.inl h)
            · cases h
            · exact hi.bound p m (.inr h)
            · injection h with h; subst h; exact lt_of_getElem? hk.2
          · dsimp only at h2; rw [hm.1] at h2
            obtain ⟨p, hp⟩ := hi.all m h1 h2; exact ⟨p, writes_snoc.2 (.inl hp)⟩
          · dsimp only; rw [hm.1, hm.2]; exact hi.last
          · simp only [known ⟨.act a k, r'.2, some k, none⟩ rfl]
            by_cases hu : u = a.tid
            · rw [if_pos hu]
              have h1 := hi.seen u j
              constructor
              · intro hj
                exact .inr ⟨k, .inr ⟨hu, .inl rfl⟩, hj⟩
              · rintro (h | ⟨m, h | ⟨_, h | h⟩, h'⟩)
                · omega
                · have := h1.2 (.inr ⟨m, h, h'⟩); rw [hu] at this; omega
                · injection h with h; omega
                · cases h
            · rw [if_neg hu]; simp only [hu, false_and, or_false]; exact hi.seen u j
          · rw [hv] at hv'; injection hv' with hv'; subst hv'; exact ⟨hk.1, hk.2, rfl⟩
      · cases h
    · rename_i hv
      split at h
      · rename_i hmm
        injection h with h; injection h with h h'; subst h h'
        rw [hmm] at hm
        obtain ⟨_, hm⟩ := hm
        refine ⟨fun p m h => ?_, fun m h1 h2 => ?_, ?_, fun u j => ?_,
          loads ⟨.act a k, r'.2, none, some w.s.hist.length⟩ rfl (by simp) ⟨_, hm⟩ fun v' hv' => by rw [hv] at hv'; cases hv'⟩
        · dsimp only; rw [hm, List.length_append, List.length_singleton]
          rw [writes_snoc, reads_snoc] at h
          rcases h with (h | ⟨_, h⟩) | (h | ⟨_, h⟩)
          · have := hi.bound p m (.inl h); omega
          · injection h with h; omega
          · have := hi.bound p m (.inr h); omega
          · cases h
        · dsimp only at h2; rw [hm, List.length_append, List.length_singleton] at h2
          by_cases he : m = w.s.hist.length
          · exact ⟨log.length, writes_snoc.2 (.inr ⟨rfl, by rw [he]⟩)⟩
          · obtain ⟨p, hp⟩ := hi.all m h1 (by omega); exact ⟨p, writes_snoc.2 (.inl hp)⟩
        · dsimp only; rw [hm]; simp
        · simp only [known ⟨.act a k, r'.2, none, some w.s.hist.length⟩ rfl]
          by_cases hu : u = a.tid
          · rw [if_pos hu]
            constructor
            · intro hj
              exact .inr ⟨w.s.hist.length, .inr ⟨hu, .inr rfl⟩, hj⟩
            · rintro (h | ⟨m, h | ⟨_, h | h⟩, h'⟩)
              · omega
              · obtain ⟨p, q, h, _⟩ := h
                have := hi.bound p m h.symm; omega
              · cases h
              · injection h with h; omega
          · rw [if_neg hu]; simp only [hu, false_and, or_false]; exact hi.seen u j
      · rename_i hmm
        injection h with h; injection h with h h'; subst h h'
        rw [Bool.not_eq_true] at hmm
        rw [hmm] at hm
        refine ⟨fun p m h => ?_, fun m h1 h2 => ?_, ?_, fun u j => ?_,
          loads ⟨.act a k, r'.2, none, none⟩ rfl (by simp) ⟨[], by simp [hm.1]⟩ fun v' hv' => by rw [hv] at hv'; cases hv'⟩
        · dsimp only; rw [hm.1]
          rw [writes_snoc, reads_snoc] at h
          rcases h with (h | ⟨_, h⟩) | (h | ⟨_, h⟩)
          · exact hi.bound p m (.inl h)
          · cases h
          · exact hi.bound p m (.inr h)
          · cases h
        · dsimp only at h2; rw [hm.1] at h2
          obtain ⟨p, hp⟩ := hi.all m h1 h2; exact ⟨p, writes_snoc.2 (.inl hp)⟩
        · dsimp only; rw [hm.1, hm.2]; exact hi.last
        · simp only [known ⟨.act a k, r'.2, none, none⟩ rfl]
          simp only [reduceCtorEq, or_self, and_false, or_false]; exact hi.seen u j

theorem winv {M limit n : Nat} {w : WSt} {log : List Rec} (h : WReachable M limit n w log) : WInv w log := by
  induction h with
  | init => exact winv_init
  | step _ hs ih => exact winv_step ih hs

/-! ### Properties -/

/-- **C82 (the budget).** Executions with relaxed memory orders do nothing that `Limit/Model.lean` does not do; so C12 and C13 hold in the C++ memory
model. -/
theorem limit_weak_reachable {M limit n : Nat} {w : WSt} {log : List Rec} (h : WReachable M limit n w log) :
    Reachable M limit n w.s (log.flatMap (·.evs)) := by
  induction h with
  | init => exact ⟨[], rfl⟩
  | @step w w' log a r h hs ih =>
    obtain ⟨as, ih⟩ := ih
    cases a with
    | sync t t' =>
      simp only [wstep] at hs
      split at hs
      · injection hs with hs; injection hs with hs hs'; subst hs hs'
        exact ⟨as, by simpa using ih⟩
      · cases hs
    | act a k =>
      simp only [wstep, Option.bind_eq_some_iff] at hs
      obtain ⟨r', hs, h2⟩ := hs
      have key : w'.s = r'.1 ∧ r.evs = r'.2 := by
        split at h2
        · split at h2
          · injection h2 with h2; injection h2 with h2 h3; subst h2 h3; exact ⟨rfl, rfl⟩
          · cases h2
        · split at h2 <;> injection h2 with h2 <;> injection h2 with h2 h3 <;> subst h2 h3 <;> exact ⟨rfl, rfl⟩
      refine ⟨as ++ [a], ?_⟩
      have snoc : ∀ {as : List Act} {s : St} {s1 : St} {t1 : List Ev}, run M s as = some (s1, t1) → step M s1 a = some r' →
          run M s (as ++ [a]) = some (r'.1, t1 ++ r'.2) := by
        intro as
        induction as with
        | nil => intro s s1 t1 h1 h2; simp [run] at h1; obtain ⟨rfl, rfl⟩ := h1; simp [run, h2]
        | cons b as ih =>
          intro s s1 t1 h1 h2
          simp only [run, Option.bind_eq_some_iff] at h1
          obtain ⟨r1, h3, r2, h4, h5⟩ := h1
          injection h5 with h5; injection h5 with h5 h6; subst h5 h6
          simp only [List.cons_append, run, h3, Option.bind_some, ih h4 h2, List.append_assoc]
      rw [key.1, List.flatMap_append, List.flatMap_singleton, key.2]
      exact snoc ih hs

/-- Thread 0 allocates all 100 bytes and gives them back. -/
def demoActs : List WAct :=
  [.act (.alloc 0 ⟨100, 1⟩ 100) 0, .act (.test 0) 0, .act (.cas 0 false 0) 0, .act (.upAlloc 0 true) 0, .act (.dealloc 0 0) 0, .act (.upFree 0) 0, .act (.giveBack 0) 0]

/-- Run actions. -/
def wrun (M : Nat) : WSt → List Rec → List WAct → Option (WSt × List Rec)
  | w, log, [] => some (w, log)
  | w, log, a :: as => (wstep M w a).bind fun r => wrun M r.1 (log ++ [r.2]) as

theorem wrun_reach {M limit n : Nat} : ∀ {as : List WAct} {w w' : WSt} {log log' : List Rec}, WReachable M limit n w log →
    wrun M w log as = some (w', log') → WReachable M limit n w' log'
  | [], w, w', log, log', h, h' => by simp [wrun] at h'; obtain ⟨rfl, rfl⟩ := h'; exact h
  | a :: as, w, w', log, log', h, h' => by
    simp only [wrun, Option.bind_eq_some_iff] at h'
    obtain ⟨r, h1, h2⟩ := h'
    exact wrun_reach (.step h h1) h2

/-- The end of the demonstration. -/
def demoEnd : WSt × List Rec := (wrun (2 ^ 64) (winit 100 2) [] demoActs).getD (winit 100 2, [])

theorem demo_reach : WReachable (2 ^ 64) 100 2 demoEnd.1 demoEnd.2 := wrun_reach (as := demoActs) .init rfl

example : Reachable (2 ^ 64) 100 2 demoEnd.1.s [.upstream 0 ⟨100, 1⟩ true, .ok 0 ⟨100, 1⟩, .upstreamFree 0 ⟨100, 1⟩, .freed 0 ⟨100, 1⟩] :=
  limit_weak_reachable demo_reach

/-- **C82 (coherence).** In every execution a call of `allocate` by thread `t` may start with value number `k` of the counter exactly if that exists
and no later value was read or written by an action of `t` or one that happens before an action of `t`. -/
theorem limit_load_iff {M limit n : Nat} {w : WSt} {log : List Rec} (h : WReachable M limit n w log) {t k v : Nat} {b : Block} :
    (∃ w' r, wstep M w (.act (.alloc t b v) k) = some (w', r)) ↔
      w.s.pcs[t]? = some .idle ∧ w.s.hist[k]? = some v ∧
        ∀ p q m, (Reads log p m ∨ Writes log p m) → Of log q t → (p = q ∨ Hb log p q) → m ≤ k := by
  have hi := winv h
  constructor
  · rintro ⟨w', r, hs⟩
    simp only [wstep, Option.bind_eq_some_iff] at hs
    obtain ⟨r', hs, h2⟩ := hs
    simp only [step] at hs
    split at hs
    · rename_i hp
      simp only [loaded] at h2
      split at h2
      · rename_i hk
        have hk1 : w.seen t ≤ k := hk.1
        refine ⟨hp, hk.2, fun p q m h3 h4 h5 => ?_⟩
        have := (hi.seen t m).2 (.inr ⟨m, ⟨p, q, h3, h4, h5⟩, Nat.le_refl _⟩)
        omega
      · cases h2
    · cases hs
  · rintro ⟨h1, h2, h3⟩
    have hk : w.seen t ≤ k := by
      rcases (hi.seen t (w.seen t)).1 (Nat.le_refl _) with h4 | ⟨m, ⟨p, q, h5, h6, h7⟩, h8⟩
      · omega
      · have := h3 p q m h5 h6 h7; omega
    simp [wstep, step, h1, loaded, Act.tid, h2, hk, List.mem_of_getElem? h2]

/-- In the demonstration thread 1 may read the value 0 that thread 0 left in between; thread 0 may not. -/
example : (∃ w' r, wstep (2 ^ 64) demoEnd.1 (.act (.alloc 1 ⟨1, 1⟩ 0) 1) = some (w', r)) ∧
    ¬ ∃ w' r, wstep (2 ^ 64) demoEnd.1 (.act (.alloc 0 ⟨1, 1⟩ 0) 1) = some (w', r) :=
  ⟨⟨_, _, rfl⟩, fun h => by
    have := ((limit_load_iff demo_reach).1 h).2.2 6 6 2 (.inr ⟨_, rfl, rfl⟩) ⟨_, rfl, rfl⟩ (.inl rfl)
    omega⟩

theorem refused_test {M : Nat} {s : St} {a : Act} {r : St × List Ev} {i : Nat} {b : Block} (h : step M s a = some r) (he : Ev.refused i b ∈ r.2) :
    ∃ old, s.pcs[i]? = some (.loaded b old) ∧ old < b.cost M := by
  cases a with
  | test j =>
    simp only [step] at h
    split at h
    · rename_i b' old hp
      split at h
      · rename_i hlt
        injection h with h; subst h
        simp at he
        obtain ⟨rfl, rfl⟩ := he
        exact ⟨old, hp, hlt⟩
      · injection h with h; subst h; simp at he
    · cases h
  | _ =>
    simp only [step] at h
    (repeat' split at h) <;> first | (cases h; done) | (injection h with h; subst h; simp at he)

/-- **C82 (refusals).** If a call of thread `i` is refused, then some value that the counter had was too small for it, and that value is not older than any that
was given to the counter before the call (in the sense of happens-before): memory whose release happens before the call is not missed. -/
theorem limit_refusal_known {M limit n : Nat} {w w' : WSt} {log : List Rec} {a : WAct} {r : Rec} {i : Nat} {b : Block}
    (h : WReachable M limit n w log) (hs : wstep M w a = some (w', r)) (he : Ev.refused i b ∈ r.evs) :
    ∃ k v, w.s.hist[k]? = some v ∧ v < (b.n * b.sz) % M ∧ ∀ p q m, Writes log p m → CallsAllocate log q i → Hb log p q → m ≤ k := by
  have hi := winv h
  cases a with
  | sync t t' =>
    simp only [wstep] at hs
    split at hs
    · injection hs with hs; injection hs with hs hs'; subst hs'; simp at he
    · cases hs
  | act a k =>
    simp only [wstep, Option.bind_eq_some_iff] at hs
    obtain ⟨r', hs, h2⟩ := hs
    have key : r.evs = r'.2 := by
      split at h2
      · split at h2
        · injection h2 with h2; injection h2 with h2 h3; subst h3; rfl
        · cases h2
      · split at h2 <;> injection h2 with h2 <;> injection h2 with h2 h3 <;> subst h3 <;> rfl
    rw [key] at he
    obtain ⟨old, hp, hlt⟩ := refused_test hs he
    obtain ⟨k, h3, h4⟩ := hi.pcs i b old hp
    exact ⟨k, old, h3, hlt, h4⟩

/-- **C82 (refusals).** If everything that was done with the budget happens before a call of `allocate`, the call is refused only if it does not fit into what is
left. -/
theorem limit_refusal_current {M limit n : Nat} {w w' : WSt} {log : List Rec} {a : WAct} {r : Rec} {i : Nat} {b : Block}
    (h : WReachable M limit n w log) (hs : wstep M w a = some (w', r)) (he : Ev.refused i b ∈ r.evs)
    (hk : ∀ p m, Writes log p m → ∃ q, CallsAllocate log q i ∧ Hb log p q) : w.s.left < (b.n * b.sz) % M := by
  obtain ⟨k, v, h1, h2, h3⟩ := limit_refusal_known h hs he
  have hi := winv h
  have hlt := lt_of_getElem? h1
  have hlast : k = w.s.hist.length - 1 := by
    by_cases h0 : w.s.hist.length - 1 = 0
    · omega
    · obtain ⟨p, hp⟩ := hi.all (w.s.hist.length - 1) (by omega) (by omega)
      obtain ⟨q, h4, h5⟩ := hk p _ hp
      have := h3 p q _ hp h4 h5
      omega
  have := hi.last
  rw [List.getLast?_eq_getElem?, ← hlast, h1] at this
  injection this with this
  omega

/-- Thread 0 tells thread 1, which then asks for 101 bytes: everything happens before that call. -/
def demoTold : WSt × List Rec :=
  (wrun (2 ^ 64) (winit 100 2) [] (demoActs ++ [.sync 0 1, .act (.alloc 1 ⟨101, 1⟩ 100) 2])).getD (winit 100 2, [])

example : demoTold.1.s.left < (101 * 1) % 2 ^ 64 := by
  have hr : WReachable (2 ^ 64) 100 2 demoTold.1 demoTold.2 :=
    wrun_reach (as := demoActs ++ [.sync 0 1, .act (.alloc 1 ⟨101, 1⟩ 100) 2]) .init rfl
  refine limit_refusal_current hr (a := .act (.test 1) 0) (i := 1) (b := ⟨101, 1⟩) rfl (by decide) fun p m hp => ?_
  refine ⟨8, ⟨_, _, _, _, rfl, rfl⟩, ?_⟩
  have hlt := hp.lt
  have h7 : Hb demoTold.2 7 8 := .edge ⟨by decide, _, _, 1, rfl, rfl, rfl, rfl⟩
  have : ∀ p < 7, Edge demoTold.2 p 7 := by
    intro p hp
    match p, hp with
    | 0, _ | 1, _ | 2, _ | 3, _ | 4, _ | 5, _ | 6, _ => exact ⟨by decide, _, _, 0, rfl, rfl, rfl, .inl rfl⟩
  by_cases h : p < 7
  · exact .tail (.edge (this p h)) (by cases h7 with | edge h => exact h | tail _ h' => exact ⟨by decide, _, _, 1, rfl, rfl, rfl, rfl⟩)
  · obtain ⟨x, hx, hw⟩ := hp
    have : p = 7 ∨ p = 8 := by have : demoTold.2.length = 9 := rfl; omega
    rcases this with rfl | rfl
    · exact h7
    · have : x = ⟨.act (.alloc 1 ⟨101, 1⟩ 100) 2, [], some 2, none⟩ := Option.some.inj (hx.symm.trans rfl)
      rw [this] at hw; cases hw

/-- **C82, refuted without that.** A call may be refused although it fits into what is left during all of the call, even though no other thread is doing
anything: the load may give an old value. -/
theorem limit_refusal_stale_refuted :
    ∃ w1 w2 w3 log r1 r2, WReachable (2 ^ 64) 100 2 w1 log ∧ (∀ pc ∈ w1.s.pcs, pc = .idle) ∧
      wstep (2 ^ 64) w1 (.act (.alloc 1 ⟨1, 1⟩ 0) 1) = some (w2, r1) ∧ wstep (2 ^ 64) w2 (.act (.test 1) 0) = some (w3, r2) ∧
      Ev.refused 1 ⟨1, 1⟩ ∈ r2.evs ∧ w1.s.left = 100 ∧ w2.s.left = 100 ∧ w3.s.left = 100 :=
  ⟨demoEnd.1, _, _, demoEnd.2, _, _, demo_reach, by decide, rfl, rfl, by decide, rfl, rfl, rfl⟩

end Verif.Limit
