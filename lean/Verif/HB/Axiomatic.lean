import Verif.HB.Props

/-!
Happens-before and coherence in the style of the C++ standard, for C80.

The model of the memory (`HB/Model.lean`) keeps for each thread what it knows. Here an execution is a list of events of the memory (locks and unlocks of the mutex,
loads and stores of the flag, other accesses, synchronization of threads by other means), happens-before is the transitive closure of the edges that the standard lists
([intro.races], [thread.mutex.requirements.mutex], [atomics.order]), and the theorems say that the views of the model are that relation, and that a load of
the model may read exactly the stores that coherence allows.
-/
namespace Verif.HB

open Verif.Channel (Op Res Ev Act)

variable {α : Type}

/-- An event of the memory (for channel.hpp:58-212, exchange_channel.hpp:53-149). -/
inductive MEv (α : Type) where
  | lock (t : Nat)
  | unlock (t : Nat)
  /-- a load of the flag by `t`, reading store number `i` (0: the initialization) -/
  | load (t : Nat) (acq : Bool) (i : Nat)
  /-- a read-modify-write of the flag -/
  | store (t : Nat) (rel : Bool)
  /-- anything that is logged -/
  | note (t : Nat) (x : What α)
  /-- synchronization of `t` with `t'` by other means -/
  | sync (t t' : Nat)

/-- What the event does in the model (for channel.hpp:58-212, exchange_channel.hpp:53-149). -/
def Mem.apply (m : Mem α) : MEv α → Mem α
  | .lock t => m.lock t
  | .unlock t => m.unlock t
  | .load t acq i => m.load acq t i
  | .store t rel => m.store rel t
  | .note t x => m.record t x
  | .sync t t' => m.sync t t'

/-- The memory after the events (for channel.hpp:58-212, exchange_channel.hpp:53-149). -/
def memOf (tr : List (MEv α)) : Mem α := tr.foldl Mem.apply (.init α)

/-! ### The relation of the standard -/

/-- What the event is sequenced after: the earlier events of its thread; a synchronization follows those of both threads (for channel.hpp:58-212, exchange_channel.hpp:53-149). -/
def MEv.after : MEv α → Nat → Prop
  | .lock t, u => u = t
  | .unlock t, u => u = t
  | .load t _ _, u => u = t
  | .store t _, u => u = t
  | .note t _, u => u = t
  | .sync t t', u => u = t ∨ u = t'

/-- What follows the event: the later events of its thread; of a synchronization those of the second thread (for channel.hpp:58-212, exchange_channel.hpp:53-149). -/
def MEv.before : MEv α → Nat → Prop
  | .lock t, u => u = t
  | .unlock t, u => u = t
  | .load t _ _, u => u = t
  | .store t _, u => u = t
  | .note t _, u => u = t
  | .sync _ t', u => u = t'

/-- Number of stores in a trace (for channel.hpp:58-212, exchange_channel.hpp:53-149). -/
def stores (tr : List (MEv α)) : Nat := tr.countP fun e => match e with | .store _ _ => true | _ => false

/-- Number of logged events in a trace (for channel.hpp:58-212, exchange_channel.hpp:53-149). -/
def notes (tr : List (MEv α)) : Nat := tr.countP fun e => match e with | .note _ _ => true | _ => false

/-- Event `i` is store number `k` (for channel.hpp:58-212, exchange_channel.hpp:53-149). -/
def IsStore (tr : List (MEv α)) (i k : Nat) : Prop := ∃ t r, tr[i]? = some (.store t r) ∧ k = stores (tr.take i) + 1

/-- Event `i` is a store number `k` with release order (for channel.hpp:58-212, exchange_channel.hpp:53-149). -/
def IsRel (tr : List (MEv α)) (i k : Nat) : Prop := ∃ t, tr[i]? = some (.store t true) ∧ k = stores (tr.take i) + 1

/-- Event `i` is log entry number `p` (for channel.hpp:58-212, exchange_channel.hpp:53-149). -/
def IsNote (tr : List (MEv α)) (i p : Nat) : Prop := ∃ t x, tr[i]? = some (.note t x) ∧ p = notes (tr.take i)

/-- Edges of happens-before (for channel.hpp:58-212, exchange_channel.hpp:53-149). -/
inductive Edge (tr : List (MEv α)) : Nat → Nat → Prop where
  /-- events of one thread in order -/
  | thread {i j : Nat} {a b : MEv α} {t : Nat} (hij : i < j) (hi : tr[i]? = some a) (hj : tr[j]? = some b) (ha : a.before t) (hb : b.after t) : Edge tr i j
  /-- an unlock of the mutex synchronizes with every later lock -/
  | mutex {i j : Nat} {t u : Nat} (hij : i < j) (hi : tr[i]? = some (.unlock t)) (hj : tr[j]? = some (.lock u)) : Edge tr i j
  /-- a store with release order synchronizes with a load with acquire order that reads it or a later store, because all later stores are
  read-modify-write operations and belong to its release sequence -/
  | flag {i j k k' : Nat} {t : Nat} (hij : i < j) (hi : IsRel tr i k) (hj : tr[j]? = some (.load t true k')) (hk : k ≤ k') : Edge tr i j

/-- Happens-before (for channel.hpp:58-212, exchange_channel.hpp:53-149). -/
inductive Hb (tr : List (MEv α)) : Nat → Nat → Prop where
  | edge {i j : Nat} (h : Edge tr i j) : Hb tr i j
  | tail {i j k : Nat} (h : Hb tr i j) (h' : Edge tr j k) : Hb tr i k

/-- Happens before or is (for channel.hpp:58-212, exchange_channel.hpp:53-149). -/
def HbEq (tr : List (MEv α)) (i j : Nat) : Prop := i = j ∨ Hb tr i j

/-! ### Lemmas -/

theorem get_lt {β : Type} {l : List β} {i : Nat} {x : β} (h : l[i]? = some x) : i < l.length := (List.getElem?_eq_some_iff.1 h).1

theorem snoc_get {β : Type} {l : List β} {x y : β} {j : Nat} : (l ++ [x])[j]? = some y ↔ (l[j]? = some y ∨ (j = l.length ∧ y = x)) := by
  rw [List.getElem?_append]
  split
  · constructor
    · exact .inl
    · rintro (h | ⟨h, _⟩)
      · exact h
      · omega
  · rw [List.getElem?_singleton]
    constructor
    · intro h
      split at h
      · injection h with h; exact .inr ⟨by omega, h.symm⟩
      · cases h
    · rintro (h | ⟨rfl, rfl⟩)
      · have := get_lt h; omega
      · simp

theorem snoc_get_lt {β : Type} {l : List β} {x y : β} {j : Nat} (hj : j < l.length) : (l ++ [x])[j]? = some y ↔ l[j]? = some y := by
  rw [List.getElem?_append_left hj]

theorem snoc_get_len {β : Type} {l : List β} {x y : β} : (l ++ [x])[l.length]? = some y ↔ y = x := by
  simp [eq_comm]

theorem take_snoc_le {β : Type} {l : List β} {x : β} {j : Nat} (hj : j ≤ l.length) : (l ++ [x]).take j = l.take j := by
  rw [List.take_append_of_le_length hj]

theorem IsStore.snoc {tr : List (MEv α)} {e i k} (hi : i < tr.length) : IsStore (tr ++ [e]) i k ↔ IsStore tr i k := by
  simp only [IsStore, snoc_get_lt hi, take_snoc_le (Nat.le_of_lt hi)]

theorem IsRel.snoc {tr : List (MEv α)} {e i k} (hi : i < tr.length) : IsRel (tr ++ [e]) i k ↔ IsRel tr i k := by
  simp only [IsRel, snoc_get_lt hi, take_snoc_le (Nat.le_of_lt hi)]

theorem IsNote.snoc {tr : List (MEv α)} {e i k} (hi : i < tr.length) : IsNote (tr ++ [e]) i k ↔ IsNote tr i k := by
  simp only [IsNote, snoc_get_lt hi, take_snoc_le (Nat.le_of_lt hi)]

theorem IsNote.lt {tr : List (MEv α)} {i k} (h : IsNote tr i k) : i < tr.length := by obtain ⟨_, _, h, _⟩ := h; exact get_lt h
theorem IsStore.lt {tr : List (MEv α)} {i k} (h : IsStore tr i k) : i < tr.length := by obtain ⟨_, _, h, _⟩ := h; exact get_lt h
theorem IsRel.lt {tr : List (MEv α)} {i k} (h : IsRel tr i k) : i < tr.length := by obtain ⟨_, h, _⟩ := h; exact get_lt h

theorem Edge.lt {tr : List (MEv α)} {i j} (h : Edge tr i j) : i < j ∧ j < tr.length := by
  cases h with
  | thread hij hi hj _ _ => exact ⟨hij, get_lt hj⟩
  | mutex hij hi hj => exact ⟨hij, get_lt hj⟩
  | flag hij hi hj hk => exact ⟨hij, get_lt hj⟩

theorem Edge.snoc {tr : List (MEv α)} {e i j} (hj : j < tr.length) : Edge (tr ++ [e]) i j ↔ Edge tr i j := by
  constructor
  · intro h
    have hi := Nat.lt_trans h.lt.1 hj
    cases h with
    | thread hij h1 h2 h3 h4 => exact .thread hij ((snoc_get_lt hi).1 h1) ((snoc_get_lt hj).1 h2) h3 h4
    | mutex hij h1 h2 => exact .mutex hij ((snoc_get_lt hi).1 h1) ((snoc_get_lt hj).1 h2)
    | flag hij h1 h2 h3 => exact .flag hij ((IsRel.snoc hi).1 h1) ((snoc_get_lt hj).1 h2) h3
  · intro h
    have hi := Nat.lt_trans h.lt.1 hj
    cases h with
    | thread hij h1 h2 h3 h4 => exact .thread hij ((snoc_get_lt hi).2 h1) ((snoc_get_lt hj).2 h2) h3 h4
    | mutex hij h1 h2 => exact .mutex hij ((snoc_get_lt hi).2 h1) ((snoc_get_lt hj).2 h2)
    | flag hij h1 h2 h3 => exact .flag hij ((IsRel.snoc hi).2 h1) ((snoc_get_lt hj).2 h2) h3

theorem Hb.lt {tr : List (MEv α)} {i j} (h : Hb tr i j) : i < j ∧ j < tr.length := by
  induction h with
  | edge h => exact h.lt
  | tail _ h ih => exact ⟨Nat.lt_trans ih.1 h.lt.1, h.lt.2⟩

theorem Hb.snoc {tr : List (MEv α)} {e i j} (hj : j < tr.length) : Hb (tr ++ [e]) i j ↔ Hb tr i j := by
  constructor
  · intro h
    induction h with
    | edge h => exact .edge ((Edge.snoc hj).1 h)
    | tail _ h ih => exact .tail (ih (Nat.lt_trans h.lt.1 hj)) ((Edge.snoc hj).1 h)
  · intro h
    induction h with
    | edge h => exact .edge ((Edge.snoc hj).2 h)
    | tail _ h ih => exact .tail (ih (Nat.lt_trans h.lt.1 hj)) ((Edge.snoc hj).2 h)

theorem HbEq.snoc {tr : List (MEv α)} {e i j} (hj : j < tr.length) : HbEq (tr ++ [e]) i j ↔ HbEq tr i j := by
  simp only [HbEq, Hb.snoc hj]

/-- What happens before the last event. -/
theorem Hb.last {tr : List (MEv α)} {e i} : Hb (tr ++ [e]) i tr.length ↔ ∃ j, j < tr.length ∧ HbEq tr i j ∧ Edge (tr ++ [e]) j tr.length := by
  constructor
  · intro h
    generalize hn : tr.length = n at h
    cases h with
    | edge h => exact ⟨i, by have := h.lt.1; omega, .inl rfl, h⟩
    | tail h h' =>
      rename_i j
      have hj : j < tr.length := by have := h'.lt.1; omega
      exact ⟨j, hn ▸ hj, .inr ((Hb.snoc hj).1 h), h'⟩
  · rintro ⟨j, hj, h | h, h'⟩
    · subst h; exact .edge h'
    · exact .tail ((Hb.snoc hj).2 h) h'

/-- Event `i` is a load that reads store number `k` (for channel.hpp:58-212, exchange_channel.hpp:53-149). -/
def IsLoad (tr : List (MEv α)) (i k : Nat) : Prop := ∃ t a, tr[i]? = some (.load t a k)

theorem IsLoad.snoc {tr : List (MEv α)} {e i k} (hi : i < tr.length) : IsLoad (tr ++ [e]) i k ↔ IsLoad tr i k := by
  simp only [IsLoad, snoc_get_lt hi]

/-- The view is that of a set of events: the log entries in it, and the last store written or read in it (for channel.hpp:58-212, exchange_channel.hpp:53-149). -/
structure Shows (tr : List (MEv α)) (A : Nat → Prop) (v : View) : Prop where
  know : ∀ p, p ∈ v.know ↔ ∃ i, A i ∧ IsNote tr i p
  seen : ∀ k, k ≤ v.seen ↔ k = 0 ∨ ∃ i k', A i ∧ (IsStore tr i k' ∨ IsLoad tr i k') ∧ k ≤ k'

theorem Shows.congr {tr : List (MEv α)} {A B : Nat → Prop} {v} (h : Shows tr A v) (hab : ∀ i, B i ↔ A i) : Shows tr B v := by
  have : B = A := funext fun i => propext (hab i)
  subst this; exact h

theorem Shows.join {tr : List (MEv α)} {A B : Nat → Prop} {v u} (h : Shows tr A v) (h' : Shows tr B u) : Shows tr (fun i => A i ∨ B i) (v.join u) where
  know p := by
    simp only [View.join, List.mem_append, h.know, h'.know]
    constructor
    · rintro (⟨i, h1, h2⟩ | ⟨i, h1, h2⟩)
      · exact ⟨i, .inl h1, h2⟩
      · exact ⟨i, .inr h1, h2⟩
    · rintro ⟨i, h1 | h1, h2⟩
      · exact .inl ⟨i, h1, h2⟩
      · exact .inr ⟨i, h1, h2⟩
  seen k := by
    have : k ≤ (v.join u).seen ↔ k ≤ v.seen ∨ k ≤ u.seen := by simp only [View.join]; omega
    rw [this, h.seen, h'.seen]
    constructor
    · rintro ((h | ⟨i, k', h1, h2, h3⟩) | (h | ⟨i, k', h1, h2, h3⟩))
      · exact .inl h
      · exact .inr ⟨i, k', .inl h1, h2, h3⟩
      · exact .inl h
      · exact .inr ⟨i, k', .inr h1, h2, h3⟩
    · rintro (h | ⟨i, k', h1 | h1, h2, h3⟩)
      · exact .inl (.inl h)
      · exact .inl (.inr ⟨i, k', h1, h2, h3⟩)
      · exact .inr (.inr ⟨i, k', h1, h2, h3⟩)

theorem Shows.snoc {tr : List (MEv α)} {A : Nat → Prop} {v e} (h : Shows tr A v) (hA : ∀ i, A i → i < tr.length) : Shows (tr ++ [e]) A v where
  know p := by
    rw [h.know]
    exact ⟨fun ⟨i, h1, h2⟩ => ⟨i, h1, (IsNote.snoc (hA i h1)).2 h2⟩, fun ⟨i, h1, h2⟩ => ⟨i, h1, (IsNote.snoc (hA i h1)).1 h2⟩⟩
  seen k := by
    rw [h.seen]
    constructor
    · rintro (h | ⟨i, k', h1, h2, h3⟩)
      · exact .inl h
      · exact .inr ⟨i, k', h1, h2.imp (IsStore.snoc (hA i h1)).2 (IsLoad.snoc (hA i h1)).2, h3⟩
    · rintro (h | ⟨i, k', h1, h2, h3⟩)
      · exact .inl h
      · exact .inr ⟨i, k', h1, h2.imp (IsStore.snoc (hA i h1)).1 (IsLoad.snoc (hA i h1)).1, h3⟩

/-- What the event itself adds (for channel.hpp:58-212, exchange_channel.hpp:53-149). -/
def own (tr : List (MEv α)) : MEv α → View
  | .load _ _ i => ⟨[], i⟩
  | .store _ _ => ⟨[], stores tr + 1⟩
  | .note _ _ => ⟨[notes tr], 0⟩
  | _ => ⟨[], 0⟩

theorem Shows.own (tr : List (MEv α)) (e : MEv α) : Shows (tr ++ [e]) (fun i => i = tr.length) (own tr e) := by
  have hg : (tr ++ [e])[tr.length]? = some e := by simp
  have ht : (tr ++ [e]).take tr.length = tr := by simp
  constructor
  · intro p
    constructor
    · intro hp
      cases e <;> simp [HB.own] at hp
      subst hp
      exact ⟨_, rfl, _, _, hg, by rw [ht]⟩
    · rintro ⟨i, rfl, t, x, h1, h2⟩
      rw [hg] at h1; injection h1 with h1
      subst h1
      rw [ht] at h2
      simp [HB.own, h2]
  · intro k
    constructor
    · intro hk
      cases e with
      | load t a i => exact .inr ⟨_, i, rfl, .inr ⟨t, a, hg⟩, hk⟩
      | store t r => exact .inr ⟨_, _, rfl, .inl ⟨t, r, hg, rfl⟩, by rw [ht]; exact hk⟩
      | _ => left; simp [HB.own] at hk; exact hk
    · rintro (h | ⟨i, k', rfl, ⟨t, r, h1, h2⟩ | ⟨t, a, h1⟩, h3⟩)
      · subst h; exact Nat.zero_le _
      · rw [hg] at h1; injection h1 with h1; subst h1
        rw [ht] at h2; simp only [HB.own]; omega
      · rw [hg] at h1; injection h1 with h1; subst h1
        exact h3

theorem Shows.none (tr : List (MEv α)) : Shows tr (fun _ => False) ⟨[], 0⟩ := by
  constructor
  · intro p; simp
  · intro k; simp

/-- Events that are in `P` or happen before one of those (for channel.hpp:58-212, exchange_channel.hpp:53-149). -/
def Past (tr : List (MEv α)) (P : Nat → Prop) (i : Nat) : Prop := ∃ j, P j ∧ HbEq tr i j

/-- Events that are followed by those of thread `t` (for channel.hpp:58-212, exchange_channel.hpp:53-149). -/
def Of (tr : List (MEv α)) (t : Nat) (j : Nat) : Prop := ∃ e, tr[j]? = some e ∧ e.before t

/-- Event `j` is an unlock of the mutex (channel.hpp:66, 101, 127, 191, 209, and while waiting 92, 181; exchange_channel.hpp:61, 92, 126, 136, 149). -/
def Unlocks (tr : List (MEv α)) (j : Nat) : Prop := ∃ t, tr[j]? = some (.unlock t)

/-- Event `j` is a release store that heads a release sequence containing store number `k` (for channel.hpp:65, exchange_channel.hpp:60). -/
def Heads (tr : List (MEv α)) (k : Nat) (j : Nat) : Prop := ∃ k0, IsRel tr j k0 ∧ k0 ≤ k

theorem Past.lt {tr : List (MEv α)} {P : Nat → Prop} (hP : ∀ j, P j → j < tr.length) {i} (h : Past tr P i) : i < tr.length := by
  obtain ⟨j, h1, h2 | h2⟩ := h
  · subst h2; exact hP _ h1
  · exact Nat.lt_trans h2.lt.1 h2.lt.2

theorem Of.lt {tr : List (MEv α)} {t j} (h : Of tr t j) : j < tr.length := by obtain ⟨e, h, _⟩ := h; exact get_lt h
theorem Unlocks.lt {tr : List (MEv α)} {j} (h : Unlocks tr j) : j < tr.length := by obtain ⟨e, h⟩ := h; exact get_lt h
theorem Heads.lt {tr : List (MEv α)} {k j} (h : Heads tr k j) : j < tr.length := by obtain ⟨_, h, _⟩ := h; exact h.lt

/-- The past of a set of old events and perhaps the new one. -/
theorem Past.snoc {tr : List (MEv α)} {e} {P P' : Nat → Prop} (hP : ∀ j, j < tr.length → (P' j ↔ P j)) (hlt : ∀ j, P j → j < tr.length)
    (hlt' : ∀ j, P' j → j < tr.length + 1) (i : Nat) :
    Past (tr ++ [e]) P' i ↔ Past tr P i ∨ (P' tr.length ∧ (i = tr.length ∨ ∃ j, j < tr.length ∧ HbEq tr i j ∧ Edge (tr ++ [e]) j tr.length)) := by
  constructor
  · rintro ⟨j, h1, h2⟩
    by_cases hj : j < tr.length
    · exact .inl ⟨j, (hP j hj).1 h1, (HbEq.snoc hj).1 h2⟩
    · have hj : j = tr.length := by have := hlt' j h1; omega
      subst hj
      refine .inr ⟨h1, ?_⟩
      rcases h2 with h2 | h2
      · exact .inl h2
      · exact .inr (Hb.last.1 h2)
  · rintro (⟨j, h1, h2⟩ | ⟨h1, h2⟩)
    · have hj := hlt j h1
      exact ⟨j, (hP j hj).2 h1, (HbEq.snoc hj).2 h2⟩
    · refine ⟨_, h1, ?_⟩
      rcases h2 with h2 | h2
      · exact .inl h2
      · exact .inr (Hb.last.2 h2)

/-- Edges to the new event. -/
theorem edge_last {tr : List (MEv α)} {e j} : Edge (tr ++ [e]) j tr.length ↔
    (∃ t, e.after t ∧ Of tr t j) ∨ ((∃ u, e = .lock u) ∧ Unlocks tr j) ∨ (∃ u k, e = .load u true k ∧ Heads tr k j) := by
  constructor
  · intro h
    have hj := h.lt.1
    cases h with
    | thread hij h1 h2 h3 h4 =>
      have := snoc_get_len.1 h2; subst this
      exact .inl ⟨_, h4, _, (snoc_get_lt hj).1 h1, h3⟩
    | mutex hij h1 h2 =>
      have := snoc_get_len.1 h2; subst this
      exact .inr (.inl ⟨⟨_, rfl⟩, _, (snoc_get_lt hj).1 h1⟩)
    | flag hij h1 h2 h3 =>
      have := snoc_get_len.1 h2; subst this
      exact .inr (.inr ⟨_, _, rfl, _, (IsRel.snoc hj).1 h1, h3⟩)
  · rintro (⟨t, h1, h2⟩ | ⟨⟨u, rfl⟩, h2⟩ | ⟨u, k, rfl, h2⟩)
    · have hj := h2.lt
      obtain ⟨a, h2, h3⟩ := h2
      exact .thread hj ((snoc_get_lt hj).2 h2) (snoc_get_len.2 rfl) h3 h1
    · have hj := h2.lt
      obtain ⟨a, h2⟩ := h2
      exact .mutex hj ((snoc_get_lt hj).2 h2) (snoc_get_len.2 rfl)
    · have hj := h2.lt
      obtain ⟨k0, h2, h3⟩ := h2
      exact .flag hj ((IsRel.snoc hj).2 h2) (snoc_get_len.2 rfl) h3

/-- The past of the new event (for channel.hpp:58-212, exchange_channel.hpp:53-149). -/
def PastNew (tr : List (MEv α)) (e : MEv α) (i : Nat) : Prop :=
  (∃ t, e.after t ∧ Past tr (Of tr t) i) ∨ ((∃ u, e = .lock u) ∧ Past tr (Unlocks tr) i) ∨ (∃ u k, e = .load u true k ∧ Past tr (Heads tr k) i)

theorem past_new {tr : List (MEv α)} {e i} : (∃ j, j < tr.length ∧ HbEq tr i j ∧ Edge (tr ++ [e]) j tr.length) ↔ PastNew tr e i := by
  simp only [edge_last, PastNew]
  constructor
  · rintro ⟨j, hj, h1, ⟨t, h2, h3⟩ | ⟨h2, h3⟩ | ⟨u, k, h2, h3⟩⟩
    · exact .inl ⟨t, h2, j, h3, h1⟩
    · exact .inr (.inl ⟨h2, j, h3, h1⟩)
    · exact .inr (.inr ⟨u, k, h2, j, h3, h1⟩)
  · rintro (⟨t, h2, j, h3, h1⟩ | ⟨h2, j, h3, h1⟩ | ⟨u, k, h2, j, h3, h1⟩)
    · exact ⟨j, h3.lt, h1, .inl ⟨t, h2, h3⟩⟩
    · exact ⟨j, h3.lt, h1, .inr (.inl ⟨h2, h3⟩)⟩
    · exact ⟨j, h3.lt, h1, .inr (.inr ⟨u, k, h2, h3⟩)⟩

theorem past_of {tr : List (MEv α)} {e : MEv α} {t i} :
    Past (tr ++ [e]) (Of (tr ++ [e]) t) i ↔ Past tr (Of tr t) i ∨ (e.before t ∧ (i = tr.length ∨ PastNew tr e i)) := by
  rw [Past.snoc (P := Of tr t), past_new]
  · simp only [Of]
    simp
  · intro j hj; simp only [Of, snoc_get_lt hj]
  · intro j h; exact h.lt
  · intro j h; have := h.lt; simpa using this

theorem past_unlocks {tr : List (MEv α)} {e : MEv α} {i} :
    Past (tr ++ [e]) (Unlocks (tr ++ [e])) i ↔ Past tr (Unlocks tr) i ∨ ((∃ u, e = .unlock u) ∧ (i = tr.length ∨ PastNew tr e i)) := by
  rw [Past.snoc (P := Unlocks tr), past_new]
  · simp only [Unlocks]
    simp
  · intro j hj; simp only [Unlocks, snoc_get_lt hj]
  · intro j h; exact h.lt
  · intro j h; have := h.lt; simpa using this

theorem past_heads {tr : List (MEv α)} {e : MEv α} {k i} :
    Past (tr ++ [e]) (Heads (tr ++ [e]) k) i ↔
      Past tr (Heads tr k) i ∨ ((∃ u, e = .store u true ∧ stores tr + 1 ≤ k) ∧ (i = tr.length ∨ PastNew tr e i)) := by
  rw [Past.snoc (P := Heads tr k), past_new]
  · have : Heads (tr ++ [e]) k tr.length ↔ ∃ u, e = .store u true ∧ stores tr + 1 ≤ k := by
      constructor
      · rintro ⟨k0, ⟨t, h1, h2⟩, h3⟩
        have := snoc_get_len.1 h1
        rw [List.take_left] at h2
        exact ⟨t, this.symm, by omega⟩
      · rintro ⟨u, rfl, h⟩
        exact ⟨_, ⟨u, snoc_get_len.2 rfl, rfl⟩, by rw [List.take_left]; exact h⟩
    rw [this]
  · intro j hj; simp only [Heads, IsRel.snoc hj]
  · intro j h; exact h.lt
  · intro j h; have := h.lt; simpa using this

theorem Shows.eqv {tr : List (MEv α)} {A : Nat → Prop} {v u : View} (h : Shows tr A v) (hk : ∀ p, p ∈ u.know ↔ p ∈ v.know) (hs : u.seen = v.seen) :
    Shows tr A u := ⟨fun p => by rw [hk, h.know], fun k => by rw [hs, h.seen]⟩

theorem MEv.before_after {e : MEv α} {t} (h : e.before t) : e.after t := by
  cases e <;> first | exact h | exact Or.inr h

theorem PastNew.lt {tr : List (MEv α)} {e i} (h : PastNew tr e i) : i < tr.length := by
  rcases h with ⟨t, _, h⟩ | ⟨_, h⟩ | ⟨u, k, _, h⟩
  · exact h.lt fun j hj => hj.lt
  · exact h.lt fun j hj => hj.lt
  · exact h.lt fun j hj => hj.lt

theorem Shows.new {tr : List (MEv α)} {e : MEv α} {v} (h : Shows tr (PastNew tr e) v) :
    Shows (tr ++ [e]) (fun i => i = tr.length ∨ PastNew tr e i) (v.join (HB.own tr e)) :=
  ((h.snoc fun _ hi => hi.lt).join (Shows.own tr e)).congr fun _ => or_comm

/-- The view of a thread after one of its events. -/
theorem Shows.thread {tr : List (MEv α)} {e : MEv α} {t v} (h : Shows tr (PastNew tr e) v) (hb : e.before t) :
    Shows (tr ++ [e]) (Past (tr ++ [e]) (Of (tr ++ [e]) t)) (v.join (HB.own tr e)) := by
  refine h.new.congr fun i => ?_
  rw [past_of]
  constructor
  · rintro (h | ⟨_, h⟩)
    · exact .inr (.inl ⟨t, MEv.before_after hb, h⟩)
    · exact h
  · intro h; exact .inr ⟨hb, h⟩

/-- The view of a thread after an event of another one. -/
theorem Shows.other {tr : List (MEv α)} {e : MEv α} {t v} (hb : ¬ e.before t) (h : Shows tr (Past tr (Of tr t)) v) :
    Shows (tr ++ [e]) (Past (tr ++ [e]) (Of (tr ++ [e]) t)) v := by
  refine (h.snoc fun _ hi => hi.lt fun _ hj => hj.lt).congr fun i => ?_
  rw [past_of]; simp [hb]

theorem Shows.mutex {tr : List (MEv α)} {e : MEv α} {v} (hb : ∀ u, e ≠ .unlock u) (h : Shows tr (Past tr (Unlocks tr)) v) :
    Shows (tr ++ [e]) (Past (tr ++ [e]) (Unlocks (tr ++ [e]))) v := by
  refine (h.snoc fun _ hi => hi.lt fun _ hj => hj.lt).congr fun i => ?_
  rw [past_unlocks]
  constructor
  · rintro (h | ⟨⟨u, h⟩, _⟩)
    · exact h
    · exact absurd h (hb u)
  · exact .inl

theorem Shows.heads {tr : List (MEv α)} {e : MEv α} {k v} (hb : ∀ u, e = .store u true → k < stores tr + 1) (h : Shows tr (Past tr (Heads tr k)) v) :
    Shows (tr ++ [e]) (Past (tr ++ [e]) (Heads (tr ++ [e]) k)) v := by
  refine (h.snoc fun _ hi => hi.lt fun _ hj => hj.lt).congr fun i => ?_
  rw [past_heads]
  constructor
  · rintro (h | ⟨⟨u, h, h'⟩, _⟩)
    · exact h
    · have := hb u h; omega
  · exact .inl

theorem stores_snoc (tr : List (MEv α)) (e : MEv α) : stores (tr ++ [e]) = stores tr + (match e with | .store _ _ => 1 | _ => 0) := by
  cases e <;> simp [stores]

theorem notes_snoc (tr : List (MEv α)) (e : MEv α) : notes (tr ++ [e]) = notes tr + (match e with | .note _ _ => 1 | _ => 0) := by
  cases e <;> simp [notes]

theorem stores_take_lt {tr : List (MEv α)} {j t r} (h : tr[j]? = some (.store t r)) : stores (tr.take j) < stores tr := by
  have hj := get_lt h
  have : tr = tr.take j ++ tr[j] :: tr.drop (j + 1) := by rw [← List.drop_eq_getElem_cons hj, List.take_append_drop]
  have hg : tr[j] = .store t r := by rw [List.getElem?_eq_getElem hj] at h; exact Option.some.inj h
  rw [hg] at this
  have h2 : stores tr = stores (tr.take j) + stores (MEv.store t r :: tr.drop (j + 1)) := by
    conv => lhs; rw [this]
    simp only [stores, List.countP_append]
  have h3 : 0 < stores (MEv.store t r :: tr.drop (j + 1)) := by simp [stores]
  omega

theorem heads_succ {tr : List (MEv α)} {i k} (hk : stores tr ≤ k) : Past tr (Heads tr k) i ↔ Past tr (Heads tr (stores tr)) i := by
  constructor
  · rintro ⟨j, ⟨k0, ⟨t, h1, h2⟩, _⟩, h3⟩
    have := stores_take_lt h1
    exact ⟨j, ⟨k0, ⟨t, h1, h2⟩, by omega⟩, h3⟩
  · rintro ⟨j, ⟨k0, h1, h2⟩, h3⟩
    exact ⟨j, ⟨k0, h1, by omega⟩, h3⟩

/-- The views of the model are those of the relation (for channel.hpp:58-212, exchange_channel.hpp:53-149). -/
structure AInv (tr : List (MEv α)) (m : Mem α) : Prop where
  len : m.log.length = notes tr
  wlen : m.writes.length = stores tr + 1
  view : ∀ t, Shows tr (Past tr (Of tr t)) (m.view t)
  mtx : Shows tr (Past tr (Unlocks tr)) m.mtx
  writes : ∀ (k : Nat) (v : View), m.writes[k]? = some v → Shows tr (Past tr (Heads tr k)) v
  log : ∀ (q : Nat) (e : Entry α), m.log[q]? = some e → ∃ j, IsNote tr j q ∧ tr[j]? = some (.note e.tid e.what) ∧
    ∀ p, p ∈ e.know ↔ ∃ i, IsNote tr i p ∧ HbEq tr i j

theorem AInv.log_snoc {tr : List (MEv α)} {m : Mem α} (h : AInv tr m) (e : MEv α) (q : Nat) (x : Entry α) (hx : m.log[q]? = some x) :
    ∃ j, IsNote (tr ++ [e]) j q ∧ (tr ++ [e])[j]? = some (.note x.tid x.what) ∧ ∀ p, p ∈ x.know ↔ ∃ i, IsNote (tr ++ [e]) i p ∧ HbEq (tr ++ [e]) i j := by
  obtain ⟨j, h1, h2, h3⟩ := h.log q x hx
  have hj := h1.lt
  refine ⟨j, (IsNote.snoc hj).2 h1, (snoc_get_lt hj).2 h2, fun p => ?_⟩
  rw [h3]
  constructor
  · rintro ⟨i, h4, h5⟩; exact ⟨i, (IsNote.snoc h4.lt).2 h4, (HbEq.snoc hj).2 h5⟩
  · rintro ⟨i, h4, h5⟩
    have h5 := (HbEq.snoc hj).1 h5
    have hi : i < tr.length := by
      rcases h5 with h5 | h5
      · omega
      · exact Nat.lt_trans h5.lt.1 h5.lt.2
    exact ⟨i, (IsNote.snoc hi).1 h4, h5⟩

theorem setView_view (m : Mem α) (t : Nat) (v : View) (u : Nat) : (m.setView t v).view u = if u = t then v else m.view u := rfl

/-- What comes before an event that is only sequenced. -/
theorem pastNew_thread {tr : List (MEv α)} {e : MEv α} {t : Nat} (h1 : ∀ u, e.after u ↔ u = t) (h2 : ∀ u, e ≠ .lock u) (h3 : ∀ u k, e ≠ .load u true k)
    (i : Nat) : PastNew tr e i ↔ Past tr (Of tr t) i := by
  constructor
  · rintro (⟨u, h, h'⟩ | ⟨⟨u, h⟩, _⟩ | ⟨u, k, h, _⟩)
    · rw [h1] at h; subst h; exact h'
    · exact absurd h (h2 u)
    · exact absurd h (h3 u k)
  · intro h; exact .inl ⟨t, (h1 t).2 rfl, h⟩

theorem AInv.step {tr : List (MEv α)} {m : Mem α} (h : AInv tr m) (e : MEv α) (hv : ∀ t a k, e = .load t a k → k ≤ stores tr) :
    AInv (tr ++ [e]) (m.apply e) := by
  cases e with
  | lock t =>
    have hp : Shows tr (PastNew tr (.lock t)) ((m.view t).join m.mtx) := by
      refine ((h.view t).join h.mtx).congr fun i => ?_
      constructor
      · rintro (⟨u, h1, h2⟩ | ⟨_, h2⟩ | ⟨u, k, h1, _⟩)
        · cases h1; exact .inl h2
        · exact .inr h2
        · cases h1
      · rintro (h1 | h1)
        · exact .inl ⟨t, rfl, h1⟩
        · exact .inr (.inl ⟨⟨t, rfl⟩, h1⟩)
    refine ⟨?_, ?_, fun u => ?_, h.mtx.mutex (by simp), fun k v hk => (h.writes k v hk).heads (by simp), fun q x hx => h.log_snoc _ q x hx⟩
    · rw [notes_snoc]; exact h.len
    · rw [stores_snoc]; exact h.wlen
    · show Shows _ _ ((m.lock t).view u)
      rw [Mem.lock, setView_view]
      by_cases hu : u = t
      · rw [if_pos hu]; exact (hp.thread hu).eqv (by simp [View.join, own]) (by simp [View.join, own])
      · rw [if_neg hu]; exact (h.view u).other hu
  | unlock t =>
    have hp : Shows tr (PastNew tr (.unlock t)) (m.view t) :=
      (h.view t).congr (pastNew_thread (fun u => Iff.rfl) (by simp) (by simp))
    refine ⟨?_, ?_, fun u => ?_, ?_, fun k v hk => (h.writes k v hk).heads (by simp), fun q x hx => h.log_snoc _ q x hx⟩
    · rw [notes_snoc]; exact h.len
    · rw [stores_snoc]; exact h.wlen
    · show Shows _ _ (m.view u)
      by_cases hu : u = t
      · subst hu; exact (hp.thread rfl).eqv (by simp [View.join, own]) (by simp [View.join, own])
      · exact (h.view u).other hu
    · show Shows _ _ (m.mtx.join (m.view t))
      have := ((h.mtx.snoc (e := .unlock t) fun _ hi => hi.lt fun _ hj => hj.lt).join hp.new).congr
        (B := Past (tr ++ [.unlock t]) (Unlocks (tr ++ [.unlock t]))) (fun i => by rw [past_unlocks]; simp)
      exact this.eqv (by simp [View.join, own]) (by simp [View.join, own])
  | load t a k =>
    have hk := hv t a k rfl
    clear hv
    have hlt : k < m.writes.length := by rw [h.wlen]; omega
    have hp : Shows tr (PastNew tr (.load t a k)) ((m.view t).join (match a with | true => m.writes.getD k ⟨[], 0⟩ | false => ⟨[], 0⟩)) := by
      cases a with
      | true =>
        have hw : m.writes[k]? = some m.writes[k] := List.getElem?_eq_getElem hlt
        have hd : m.writes.getD k ⟨[], 0⟩ = m.writes[k] := by rw [List.getD_eq_getElem?_getD, hw]; rfl
        dsimp only
        rw [hd]
        refine ((h.view t).join (h.writes k _ hw)).congr fun i => ?_
        constructor
        · rintro (⟨u, h1, h2⟩ | ⟨⟨u, h1⟩, _⟩ | ⟨u, k, h1, h2⟩)
          · cases h1; exact .inl h2
          · cases h1
          · cases h1; exact .inr h2
        · rintro (h1 | h1)
          · exact .inl ⟨t, rfl, h1⟩
          · exact .inr (.inr ⟨t, k, rfl, h1⟩)
      | false =>
        refine ((h.view t).join (Shows.none tr)).congr fun i => ?_
        rw [pastNew_thread (t := t) (fun u => Iff.rfl) (by simp) (by simp)]; simp
    refine ⟨?_, ?_, fun u => ?_, h.mtx.mutex (by simp), fun k v hk => (h.writes k v hk).heads (by simp), fun q x hx => h.log_snoc _ q x hx⟩
    · rw [notes_snoc]; exact h.len
    · rw [stores_snoc]; exact h.wlen
    · show Shows _ _ ((m.load a t k).view u)
      unfold Mem.load
      rw [setView_view]
      by_cases hu : u = t
      · rw [if_pos hu]
        cases a
        · exact (hp.thread hu).eqv (by simp [View.join, own]) (by simp only [View.join, own]; omega)
        · exact (hp.thread hu).eqv (by simp [View.join, own, or_assoc]) (by simp only [View.join, own]; omega)
      · rw [if_neg hu]; exact (h.view u).other hu
  | store t r =>
    have hp : Shows tr (PastNew tr (.store t r)) (m.view t) :=
      (h.view t).congr (pastNew_thread (fun u => Iff.rfl) (by simp) (by simp))
    have hlast : m.writes.getLastD ⟨[], 0⟩ = m.writes[stores tr]'(by rw [h.wlen]; omega) := by
      have hne : m.writes ≠ [] := by intro he; have := h.wlen; simp [he] at this
      rw [List.getLastD_eq_getLast?, List.getLast?_eq_some_getLast hne, Option.getD_some, List.getLast_eq_getElem]
      congr 1
      have := h.wlen; omega
    have hls : Shows tr (Past tr (Heads tr (stores tr))) (m.writes.getLastD ⟨[], 0⟩) :=
      h.writes _ _ (by rw [hlast]; exact List.getElem?_eq_getElem _)
    refine ⟨?_, ?_, fun u => ?_, h.mtx.mutex (by simp), fun k v hk => ?_, fun q x hx => h.log_snoc _ q x hx⟩
    · rw [notes_snoc]; exact h.len
    · rw [stores_snoc]; show (m.writes ++ [_]).length = _; simp [h.wlen]
    · show Shows _ _ (if u = t then (m.view t).join ⟨[], m.writes.length⟩ else m.view u)
      by_cases hu : u = t
      · rw [if_pos hu]; exact (hp.thread hu).eqv (by simp [View.join, own]) (by simp [View.join, own, h.wlen])
      · rw [if_neg hu]; exact (h.view u).other hu
    · have hold := hls.congr (B := Past tr (Heads tr (stores tr + 1))) fun i => heads_succ (by omega)
      have hold := hold.snoc (e := .store t r) fun _ hi => hi.lt fun _ hj => hj.lt
      have hk2 : ∀ x, m.writes[k]? = some x → Shows (tr ++ [.store t r]) (Past (tr ++ [.store t r]) (Heads (tr ++ [.store t r]) k)) x := by
        intro x hx
        refine (h.writes k x hx).heads fun u _ => ?_
        have := get_lt hx; rw [h.wlen] at this; exact this
      cases r with
      | true =>
        have hk' : (m.writes ++ [((m.view t).join ⟨[], m.writes.length⟩).join (m.writes.getLastD ⟨[], 0⟩)])[k]? = some v := hk
        clear hk
        rcases snoc_get.1 hk' with hk | ⟨rfl, rfl⟩
        · exact hk2 v hk
        · rw [h.wlen]
          have := (hp.new.join hold).congr (B := Past (tr ++ [.store t true]) (Heads (tr ++ [.store t true]) (stores tr + 1)))
            (fun i => by rw [past_heads]; simp [or_comm])
          exact this.eqv (by simp [View.join, own]) (by simp [View.join, own])
      | false =>
        have hk' : (m.writes ++ [(⟨[], 0⟩ : View).join (m.writes.getLastD ⟨[], 0⟩)])[k]? = some v := hk
        clear hk
        rcases snoc_get.1 hk' with hk | ⟨rfl, rfl⟩
        · exact hk2 v hk
        · rw [h.wlen]
          have := hold.congr (B := Past (tr ++ [.store t false]) (Heads (tr ++ [.store t false]) (stores tr + 1)))
            (fun i => by rw [past_heads]; simp)
          exact this.eqv (by simp [View.join]) (by simp [View.join])
  | note t x =>
    have hp : Shows tr (PastNew tr (.note t x)) (m.view t) :=
      (h.view t).congr (pastNew_thread (fun u => Iff.rfl) (by simp) (by simp))
    have hth : Shows (tr ++ [.note t x]) (Past (tr ++ [.note t x]) (Of (tr ++ [.note t x]) t)) ⟨m.log.length :: (m.view t).know, (m.view t).seen⟩ :=
      (hp.thread rfl).eqv (by simp [View.join, own, h.len, or_comm]) (by simp [View.join, own])
    have hnew : Shows (tr ++ [.note t x]) (fun i => i = tr.length ∨ PastNew tr (.note t x) i) ⟨m.log.length :: (m.view t).know, (m.view t).seen⟩ :=
      hp.new.eqv (by simp [View.join, own, h.len, or_comm]) (by simp [View.join, own])
    refine ⟨?_, ?_, fun u => ?_, h.mtx.mutex (by simp), fun k v hk => (h.writes k v hk).heads (by simp), fun q y hy => ?_⟩
    · rw [notes_snoc]; show (m.log ++ [_]).length = _; simp [h.len]
    · rw [stores_snoc]; exact h.wlen
    · show Shows _ _ (if u = t then _ else m.view u)
      by_cases hu : u = t
      · rw [if_pos hu, hu]; exact hth
      · rw [if_neg hu]; exact (h.view u).other hu
    · have hy' : (m.log ++ [⟨t, x, m.log.length :: (m.view t).know⟩])[q]? = some y := hy
      rcases snoc_get.1 hy' with hy | ⟨rfl, rfl⟩
      · exact h.log_snoc _ q y hy
      · refine ⟨tr.length, ⟨t, x, snoc_get_len.2 rfl, by rw [List.take_left]; exact h.len⟩, snoc_get_len.2 rfl, fun p => ?_⟩
        rw [hnew.know]
        constructor
        · rintro ⟨i, h1, h2⟩
          refine ⟨i, h2, ?_⟩
          rcases h1 with h1 | h1
          · exact .inl h1
          · exact .inr (Hb.last.2 (past_new.2 h1))
        · rintro ⟨i, h1, h2⟩
          refine ⟨i, ?_, h1⟩
          rcases h2 with h2 | h2
          · exact .inl h2
          · exact .inr (past_new.1 (Hb.last.1 h2))
  | sync t t' =>
    have hp : Shows tr (PastNew tr (.sync t t')) ((m.view t').join (m.view t)) := by
      refine ((h.view t').join (h.view t)).congr fun i => ?_
      constructor
      · rintro (⟨u, h1 | h1, h2⟩ | ⟨⟨u, h1⟩, _⟩ | ⟨u, k, h1, _⟩)
        · subst h1; exact .inr h2
        · subst h1; exact .inl h2
        · cases h1
        · cases h1
      · rintro (h1 | h1)
        · exact .inl ⟨t', .inr rfl, h1⟩
        · exact .inl ⟨t, .inl rfl, h1⟩
    refine ⟨?_, ?_, fun u => ?_, h.mtx.mutex (by simp), fun k v hk => (h.writes k v hk).heads (by simp), fun q x hx => h.log_snoc _ q x hx⟩
    · rw [notes_snoc]; exact h.len
    · rw [stores_snoc]; exact h.wlen
    · show Shows _ _ ((m.sync t t').view u)
      rw [Mem.sync, setView_view]
      by_cases hu : u = t'
      · rw [if_pos hu]; exact (hp.thread hu).eqv (by simp [View.join, own]) (by simp [View.join, own])
      · rw [if_neg hu]; exact (h.view u).other hu

/-- Every load reads a store that exists (for channel.hpp:58-212, exchange_channel.hpp:53-149). -/
def ValidTrace (tr : List (MEv α)) : Prop := ∀ (j t : Nat) (a : Bool) (k : Nat), tr[j]? = some (.load t a k) → k ≤ stores (tr.take j)

theorem AInv.of {tr : List (MEv α)} (hv : ValidTrace tr) : AInv tr (memOf tr) := by
  induction tr using List.reverseRecOn with
  | nil =>
    have hno : ∀ (P : Nat → Prop), (∀ j, P j → j < ([] : List (MEv α)).length) → Shows ([] : List (MEv α)) (Past ([] : List (MEv α)) P) ⟨[], 0⟩ :=
      fun P hP => (Shows.none ([] : List (MEv α))).congr fun i => ⟨fun h => absurd (h.lt hP) (Nat.not_lt_zero _), False.elim⟩
    refine ⟨rfl, rfl, fun t => hno _ fun j hj => hj.lt, hno _ fun j hj => hj.lt, fun k v hk => ?_, fun q e hq => ?_⟩
    · have hv : v = ⟨[], 0⟩ := by
        cases k with
        | zero => simp [memOf, Mem.init] at hk; exact hk.symm
        | succ k => simp [memOf, Mem.init] at hk
      rw [hv]; exact hno _ fun j hj => hj.lt
    · simp [memOf, Mem.init] at hq
  | append_singleton tr e ih =>
    have h1 : ValidTrace tr := by
      intro j t a k hj
      have hlt := get_lt hj
      have := hv j t a k ((snoc_get_lt hlt).2 hj)
      rw [take_snoc_le (Nat.le_of_lt hlt)] at this; exact this
    have h2 := (ih h1).step e fun t a k he => by
      have := hv tr.length t a k (snoc_get_len.2 he.symm)
      rw [List.take_left] at this; exact this
    have h3 : memOf (tr ++ [e]) = (memOf tr).apply e := by simp [memOf]
    rw [h3]; exact h2

/-! ### Executions of the channels -/

variable {S : Type}

/-- The events of the memory in an action of a channel, in the order they happen (channel.hpp:58-212, exchange_channel.hpp:53-149). -/
def eventsOf (M : Machine S α) (s s' : S) (a : Act α) : List (MEv α) :=
  ((M.hist s').drop (M.hist s).length).map (fun e => .note (tid a) (.ev e)) ++
  (match M.sets s a with
    | true => [.store (tid a) M.setRel]
    | false => []) ++
  (match M.owner s, M.owner s' with
    | none, some t => [.lock t]
    | some t, none => [.unlock t]
    | _, _ => [])

theorem foldl_notes (t : Nat) (l : List (Channel.Ev α)) (m : Mem α) :
    l.foldl (fun m e => m.record t (.ev e)) m = (l.map (fun e => (MEv.note t (.ev e) : MEv α))).foldl Mem.apply m := by
  rw [List.foldl_map]; rfl

theorem effect_events (M : Machine S α) (s s' : S) (a : Act α) (m : Mem α) : effect M s s' a m = (eventsOf M s s' a).foldl Mem.apply m := by
  unfold effect eventsOf
  rw [List.foldl_append, List.foldl_append, ← foldl_notes]
  generalize ((M.hist s').drop (M.hist s).length).foldl (fun m e => m.record (tid a) (.ev e)) m = m1
  cases M.sets s a <;> cases M.owner s <;> cases M.owner s' <;> rfl

theorem stores_append (a b : List (MEv α)) : stores (a ++ b) = stores a + stores b := by simp [stores]

/-- Appending events without loads, and perhaps one load that reads a store that exists. -/
theorem ValidTrace.append {tr l : List (MEv α)} (h : ValidTrace tr) (hl : ∀ e ∈ l, ∀ t a k, e ≠ .load t a k) : ValidTrace (tr ++ l) := by
  intro j t a k hj
  by_cases hlt : j < tr.length
  · rw [List.getElem?_append_left hlt] at hj
    rw [List.take_append_of_le_length (Nat.le_of_lt hlt)]; exact h j t a k hj
  · rw [List.getElem?_append_right (Nat.le_of_not_lt hlt)] at hj
    exact absurd rfl (hl _ (List.mem_of_getElem? hj) t a k)

theorem ValidTrace.load {tr : List (MEv α)} (h : ValidTrace tr) {t : Nat} {a : Bool} {k : Nat} (hk : k ≤ stores tr) : ValidTrace (tr ++ [.load t a k]) := by
  intro j t' a' k' hj
  rcases snoc_get.1 hj with hj | ⟨rfl, he⟩
  · rw [take_snoc_le (Nat.le_of_lt (get_lt hj))]; exact h j t' a' k' hj
  · cases he; rw [List.take_left]; exact hk

theorem events_noload (M : Machine S α) (s s' : S) (a : Act α) : ∀ e ∈ eventsOf M s s' a, ∀ t b k, e ≠ .load t b k := by
  intro e he t b k h
  subst h
  simp only [eventsOf, List.mem_append, List.mem_map] at he
  rcases he with (⟨_, _, h⟩ | h) | h
  · cases h
  · split at h <;> simp at h
  · split at h <;> simp at h

/-- The events of the memory in an action of the program (channel.hpp:58-212, exchange_channel.hpp:53-149). -/
def wevents (M : Machine S α) (w : W S α) : WAct α → List (MEv α)
  | .act a i => match M.load w.s a with
    | none => match M.next w.s a with
      | some s' => eventsOf M w.s s' a
      | none => []
    | some acq => match M.next (M.setClosed w.s (flagAt i)) a with
      | some s' => .load (tid a) acq i :: eventsOf M w.s s' a
      | none => []
  | .closed t i => [.load t M.closedAcq i, .note t (.closed (flagAt i))]
  | .user t => [.note t .user]
  | .sync t t' => [.sync t t']

/-- The trace of an execution (for channel.hpp:58-212, exchange_channel.hpp:53-149). -/
def traceOf (M : Machine S α) : W S α → List (WAct α) → List (MEv α)
  | _, [] => []
  | w, a :: as => wevents M w a ++ match wnext M w a with
    | some w' => traceOf M w' as
    | none => []

theorem wnext_trace {M : Machine S α} {w w' : W S α} {a : WAct α} (h : wnext M w a = some w') {tr : List (MEv α)} (hv : ValidTrace tr)
    (hm : w.m = memOf tr) : ValidTrace (tr ++ wevents M w a) ∧ w'.m = memOf (tr ++ wevents M w a) := by
  have hfold : ∀ l, memOf (tr ++ l) = l.foldl Mem.apply w.m := fun l => by rw [hm]; simp [memOf]
  have hread : ∀ t i, w.m.canRead t i = true → i ≤ stores tr := by
    intro t i h
    have := (AInv.of hv).wlen
    rw [← hm] at this
    simp only [Mem.canRead, Bool.and_eq_true, decide_eq_true_eq] at h
    omega
  cases a with
  | act a i =>
    simp only [wnext] at h
    split at h
    · cases h
    · rename_i hl
      simp only [Option.map_eq_some_iff] at h
      obtain ⟨s', hn, rfl⟩ := h
      have he : wevents M w (.act a i) = eventsOf M w.s s' a := by simp only [wevents, hl, hn]
      rw [he]
      exact ⟨hv.append (events_noload M _ _ _), by rw [hfold]; exact effect_events M _ _ _ _⟩
    · rename_i acq _ hl
      split at h
      · cases h
      · rename_i hc
        simp only [Option.map_eq_some_iff] at h
        obtain ⟨s', hn, rfl⟩ := h
        have he : wevents M w (.act a i) = .load (tid a) acq i :: eventsOf M w.s s' a := by simp only [wevents, hl, hn]
        rw [he]
        refine ⟨?_, ?_⟩
        · have := (hv.load (t := tid a) (a := acq) (hread _ _ hc)).append (events_noload M w.s s' a)
          simpa using this
        · rw [hfold]; exact effect_events M _ _ _ _
  | closed t i =>
    simp only [wnext] at h
    split at h
    · rename_i _ hc
      injection h with h; subst h
      refine ⟨?_, by rw [hfold]; rfl⟩
      have := (hv.load (t := t) (a := M.closedAcq) (hread _ _ hc)).append (l := [.note t (.closed (flagAt i))]) (by simp)
      simpa [wevents] using this
    · cases h
  | user t =>
    simp only [wnext] at h
    split at h
    · injection h with h; subst h
      exact ⟨hv.append (by simp [wevents]), by rw [hfold]; rfl⟩
    · cases h
  | sync t t' =>
    simp only [wnext] at h
    split at h
    · injection h with h; subst h
      exact ⟨hv.append (by simp [wevents]), by rw [hfold]; rfl⟩
    · cases h

theorem wrun_trace {M : Machine S α} {as : List (WAct α)} : ∀ {w w' : W S α} (_ : wrun M w as = some w') {tr : List (MEv α)} (_ : ValidTrace tr)
    (_ : w.m = memOf tr), ValidTrace (tr ++ traceOf M w as) ∧ w'.m = memOf (tr ++ traceOf M w as) := by
  induction as with
  | nil => intro w w' h tr hv hm; simp [wrun] at h; subst h; simp only [traceOf, List.append_nil]; exact ⟨hv, hm⟩
  | cons a as ih =>
    intro w w' h tr hv hm
    simp only [wrun, Option.bind_eq_some_iff] at h
    obtain ⟨w1, h1, h2⟩ := h
    obtain ⟨h3, h4⟩ := wnext_trace h1 hv hm
    have := ih h2 h3 h4
    simpa only [traceOf, h1, List.append_assoc] using this

/-! ### The property -/

/-- **C80 (happens-before).** The order in which the other theorems of C80 are stated is the one of the standard. Take the locks, unlocks, loads, stores and
logged events of an execution of a channel (`traceOf`). Its log consists of the logged events in that order, and entry `p` is before entry `q` in the sense of C80 exactly
if the event of `p` happens before the event of `q`: by the transitive closure of the order in each thread, unlocks and later locks, and stores with release order and
loads with acquire order that read them or a later store. -/
theorem before_iff_hb {M : Machine S α} {s : S} {w : W S α} {as : List (WAct α)} (h : wrun M ⟨s, .init α⟩ as = some w) {tr : List (MEv α)}
    (htr : tr = traceOf M ⟨s, .init α⟩ as) :
    w.m.log.length = notes tr ∧
      (∀ q e, w.m.log[q]? = some e → ∃ j, IsNote tr j q ∧ tr[j]? = some (.note e.tid e.what)) ∧
      ∀ p q i j, IsNote tr i p → IsNote tr j q → (Before w.m.log p q ↔ Hb tr i j) := by
  obtain ⟨hv, hm⟩ := wrun_trace h (tr := []) (fun j t a k h => by simp at h) rfl
  rw [List.nil_append, ← htr] at hv hm
  have hi := AInv.of hv
  rw [← hm] at hi
  have same : ∀ {i i' p}, IsNote tr i p → IsNote tr i' p → i = i' := by
    have aux : ∀ {i i' p}, IsNote tr i p → IsNote tr i' p → ¬ i < i' := by
      rintro i i' p ⟨t, x, h1, h2⟩ ⟨t', x', h3, h4⟩ hlt
      have hi1 := get_lt h1
      have : tr.take i' = tr.take i ++ (tr.take i').drop i := by
        have : tr.take i = (tr.take i').take i := by rw [List.take_take, Nat.min_eq_left (Nat.le_of_lt hlt)]
        rw [this, List.take_append_drop]
      have hc : notes (tr.take i') = notes (tr.take i) + notes ((tr.take i').drop i) := by
        conv => lhs; rw [this]
        simp only [notes, List.countP_append]
      have hm : MEv.note t x ∈ (tr.take i').drop i := by
        refine List.mem_of_getElem? (i := 0) ?_
        rw [List.getElem?_drop, List.getElem?_take]
        simp [hlt, h1]
      have : 0 < notes ((tr.take i').drop i) := List.countP_pos_iff.2 ⟨_, hm, rfl⟩
      omega
    intro i i' p h1 h2
    have := aux h1 h2
    have := aux h2 h1
    omega
  refine ⟨hi.len, fun q e hq => ?_, fun p q i j hp hq => ?_⟩
  · obtain ⟨j, h1, h2, _⟩ := hi.log q e hq; exact ⟨j, h1, h2⟩
  · constructor
    · rintro ⟨hne, e, he, hpe⟩
      obtain ⟨j', h1, _, h2⟩ := hi.log q e he
      obtain ⟨i', h3, h4⟩ := (h2 p).1 hpe
      have := same h1 hq; subst this
      have := same h3 hp; subst this
      rcases h4 with h4 | h4
      · subst h4
        obtain ⟨_, _, _, e1⟩ := hp
        obtain ⟨_, _, _, e2⟩ := hq
        exact absurd (e1.trans e2.symm) hne
      · exact h4
    · intro hb
      have hlt : q < w.m.log.length := by
        rw [hi.len]
        obtain ⟨t, x, h1, h2⟩ := hq
        have hj := get_lt h1
        have : tr = tr.take j ++ tr[j] :: tr.drop (j + 1) := by rw [← List.drop_eq_getElem_cons hj, List.take_append_drop]
        have hg : tr[j] = .note t x := by rw [List.getElem?_eq_getElem hj] at h1; exact Option.some.inj h1
        rw [hg] at this
        have h3 : notes tr = notes (tr.take j) + notes (MEv.note t x :: tr.drop (j + 1)) := by
          conv => lhs; rw [this]
          simp only [notes, List.countP_append]
        have h4 : 0 < notes (MEv.note t x :: tr.drop (j + 1)) := by simp [notes]
        omega
      have he : w.m.log[q]? = some w.m.log[q] := List.getElem?_eq_getElem hlt
      obtain ⟨j', h1, _, h2⟩ := hi.log q _ he
      have := same h1 hq; subst this
      refine ⟨?_, _, he, (h2 p).2 ⟨i, hp, .inr hb⟩⟩
      rintro rfl
      have := same hp hq
      have := hb.lt.1
      omega

/-- In the demonstration: the access of thread 0 before its push (event 0) happens before that of thread 1 after its pop (event 19); the return of the
rejected push of thread 0 (event 13) does not happen before the call of pop by thread 1 (event 14). -/
example : Hb (traceOf (chan Nat ⟨1, false, false⟩) ⟨Channel.init Nat 2, .init Nat⟩ demo) 0 19 ∧
    ¬ Hb (traceOf (chan Nat ⟨1, false, false⟩) ⟨Channel.init Nat 2, .init Nat⟩ demo) 13 14 := by
  have h := (before_iff_hb (M := chan Nat ⟨1, false, false⟩) (s := Channel.init Nat 2) (w := demoW) (as := demo) rfl rfl).2.2
  refine ⟨(h 0 10 0 19 ⟨_, _, rfl, rfl⟩ ⟨_, _, rfl, rfl⟩).1 ⟨by decide, _, rfl, by decide⟩, fun hb => ?_⟩
  obtain ⟨_, e, he, hm⟩ := (h 6 7 13 14 ⟨_, _, rfl, rfl⟩ ⟨_, _, rfl, rfl⟩).2 hb
  have : e = ⟨1, .ev (.call 1 .pop), [7]⟩ := Option.some.inj (he.symm.trans rfl)
  rw [this] at hm
  revert hm; decide

/-- **C80 (coherence).** In every execution, each load of the flag reads a store that exists, and thread `t` may now read store number `k` exactly if that exists and no
later store was written or read by an event that happens before (`Of tr t`: the events of `t` so far). -/
theorem coherence_iff {M : Machine S α} {s : S} {w : W S α} {as : List (WAct α)} (h : wrun M ⟨s, .init α⟩ as = some w) {tr : List (MEv α)}
    (htr : tr = traceOf M ⟨s, .init α⟩ as) :
    ValidTrace tr ∧ ∀ t k, w.m.canRead t k = true ↔
      k ≤ stores tr ∧ ∀ i j k', Of tr t j → HbEq tr i j → (IsStore tr i k' ∨ IsLoad tr i k') → k' ≤ k := by
  obtain ⟨hv, hm⟩ := wrun_trace h (tr := []) (fun j t a k h => by simp at h) rfl
  rw [List.nil_append, ← htr] at hv hm
  have hi := AInv.of hv
  rw [← hm] at hi
  refine ⟨hv, fun t k => ?_⟩
  have hw := hi.wlen
  simp only [Mem.canRead, Bool.and_eq_true, decide_eq_true_eq]
  constructor
  · rintro ⟨h1, h2⟩
    refine ⟨by omega, fun i j k' h3 h4 h5 => ?_⟩
    have := ((hi.view t).seen k').2 (.inr ⟨i, k', ⟨j, h3, h4⟩, h5, Nat.le_refl _⟩)
    omega
  · rintro ⟨h1, h2⟩
    refine ⟨?_, by omega⟩
    rcases ((hi.view t).seen (w.m.view t).seen).1 (Nat.le_refl _) with h3 | ⟨i, k', ⟨j, h3, h4⟩, h5, h6⟩
    · omega
    · have := h2 i j k' h3 h4 h5; omega

/-- In the demonstration, after it, thread 1 may read the store but not the initialization of the flag. -/
example : let tr := traceOf (chan Nat ⟨1, false, false⟩) ⟨Channel.init Nat 2, .init Nat⟩ demo
    (1 ≤ stores tr ∧ ∀ i j k', Of tr 1 j → HbEq tr i j → (IsStore tr i k' ∨ IsLoad tr i k') → k' ≤ 1) ∧ demoW.m.canRead 1 0 = false :=
  ⟨((coherence_iff (M := chan Nat ⟨1, false, false⟩) (s := Channel.init Nat 2) (w := demoW) (as := demo) rfl rfl).2 1 1).1 (by decide), by decide⟩

end Verif.HB
