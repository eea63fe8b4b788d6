import Verif.Pipeline.Lemmas

/-! The invariant of the pipelines: what holds between two neighbouring threads and their channel. -/
namespace Verif.Pipeline

open Verif.Channel

variable {α : Type}

/-- The producer's position in its stage agrees with its position in the channel (channel.hpp:58-105). -/
def ProdOk (st : Stage α) (k : Cls α) (closed : Bool) : Prop :=
  match st.pos with
  | .inPush => ∃ y ys, st.todo = y :: ys ∧ (k = .pushing y ∨ k = .pushed y ∨ (k = .refused y ∧ closed = true))
  | .inCloseOut => k = .closing ∨ (k = .shut ∧ closed = true)
  | .over => k = .idle ∧ closed = true
  | _ => k = .idle

/-- The consumer's position in its stage agrees with its position in the channel (channel.hpp:58-69, 179-194). -/
def ConsOk (st : Stage α) (k : Cls α) (q : List α) (closed : Bool) : Prop :=
  match st.pos with
  | .inPop => k = .popping ∨ (∃ x, k = .took x) ∨ (k = .ended ∧ closed = true ∧ q = [])
  | .inCloseIn => k = .closing ∨ (k = .shut ∧ closed = true)
  | .shutOut | .inCloseOut | .over => k = .idle ∧ closed = true ∧ (st.left = true ∨ q = [])
  | _ => k = .idle

/-- An element that has left the queue but was not yet returned (channel.hpp:188-193). -/
def taken : Cls α → List α
  | .took x => [x]
  | _ => []

/-- What is still to be pushed, without the element that was just inserted (channel.hpp:100-104). -/
def rest (todo : List α) : Cls α → List α
  | .pushed _ => todo.tail
  | _ => todo

/-- What the stage has produced so far (loops over channel.hpp:214-291). -/
def made (p : Plan α) (i : Nat) (st : Stage α) : List α :=
  if i = 0 then p.source else st.got.flatMap (p.body i)

/-- Two neighbours and the channel between them (channel.hpp:31-37). -/
structure Link (p : Plan α) (P C : Stage α) (k : Nat) (c : St α) : Prop where
  reach : Reachable (p.cfg k) 2 c
  pcs : ∃ pc0 pc1, c.pcs = [pc0, pc1] ∧ ProdOk P (cls pc0) c.closed ∧ ConsOk C (cls pc1) c.q c.closed ∧
    made p k P = C.got ++ taken (cls pc1) ++ c.q ++ rest P.todo (cls pc0)
  closed : c.closed = true → P.pos = .inCloseOut ∨ P.pos = .over ∨ C.left = true
  rejected : P.rej = true → C.left = true

/-- Calls not accounted for by elements (of channel.hpp:58,85,179). -/
def flag : Pos → Nat
  | .loop => 0
  | .inPop => 1
  | .inPush => 1
  | .shutIn => 1
  | .inCloseIn => 2
  | .shutOut => 2
  | .inCloseOut => 3
  | .over => 3

/-- What holds of one stage (a loop over channel.hpp:214-291). -/
structure StInv (p : Plan α) (i : Nat) (st : Stage α) : Prop where
  todo : st.rej = false → st.pos ≠ .loop → st.pos ≠ .inPush → st.todo = []
  why : st.left = true → st.rej = true ∨ (i ≠ 0 ∧ p.enough i st.got = true)
  rejLeft : st.rej = true → st.left = true
  shutIn : st.pos = .shutIn → st.rej = true
  closeIn : st.pos = .inCloseIn → st.left = true
  stay : st.pos = .loop ∨ st.pos = .inPop ∨ st.pos = .inPush → st.left = false
  pop : st.pos = .inPop → p.enough i st.got = false
  quota : ∀ n, p.quota i = some n → st.got.length ≤ n
  first : i = 0 → st.got = [] ∧ st.pos ≠ .inPop ∧ st.pos ≠ .inCloseIn
  last : i = p.inner + 1 → st.todo = [] ∧ st.pos ≠ .inPush ∧ st.pos ≠ .inCloseOut ∧ st.rej = false
  calls : st.calls + st.todo.length ≤
    st.got.length + (if i ≤ p.inner then (made p i st).length else 0) + flag st.pos

/-- The invariant (of threads that use channel.hpp:58-194). -/
structure Inv (p : Plan α) (s : Sys α) : Prop where
  stages : ∀ i, i ≤ p.inner + 1 → StInv p i (s.stage i)
  links : ∀ k, k ≤ p.inner → Link p (s.stage k) (s.stage (k + 1)) k (s.chan k)

theorem inv_start (p : Plan α) : Inv p (start p) where
  stages i hi := by
    refine ⟨?_, ?_, ?_, ?_, ?_, ?_, ?_, ?_, ?_, ?_, ?_⟩ <;> simp [start, flag, made]
    · intro h; simp [h]
    · by_cases h : i = 0 <;> simp [h]
  links k hk := by
    refine ⟨⟨[], rfl⟩, ⟨.idle, .idle, rfl, by simp [ProdOk, start, cls], by simp [ConsOk, start, cls], ?_⟩,
      by simp [start, init], by simp [start]⟩
    simp only [made, start, init, taken, rest, cls]
    split <;> simp

theorem inv_of {p : Plan α} {s : Sys α} {i : Nat} {st' : Stage α} {chan' : Nat → St α} (h : Inv p s)
    (hch : ∀ k, k ≠ i → k + 1 ≠ i → chan' k = s.chan k) (hst : StInv p i st')
    (hout : i ≤ p.inner → Link p st' (s.stage (i + 1)) i (chan' i))
    (hin : ∀ j, i = j + 1 → j ≤ p.inner → Link p (s.stage j) st' j (chan' j)) :
    Inv p ⟨chan', upd s.stage i st'⟩ where
  stages j hj := by
    simp only [upd]
    split
    · rename_i e; subst e; exact hst
    · exact h.stages j hj
  links k hk := by
    simp only [upd]
    by_cases h1 : k = i
    · subst h1
      simp only [if_true, Nat.succ_ne_self, if_false]
      exact hout hk
    · by_cases h2 : k + 1 = i
      · simp only [h1, if_false, h2, if_true]
        exact hin k h2.symm hk
      · simp only [h1, h2, if_false]
        rw [hch k h1 h2]
        exact h.links k hk

theorem reach_next {cfg : Cfg} {n : Nat} {s s' : St α} {a : Act α} (h : Reachable cfg n s)
    (hn : next cfg s a = some s') : Reachable cfg n s' := by
  obtain ⟨acts, ha⟩ := h
  refine ⟨acts ++ [a], ?_⟩
  have : ∀ (l : List (Act α)) (s0 : St α), run cfg s0 l = some s → run cfg s0 (l ++ [a]) = some s' := by
    intro l
    induction l with
    | nil => intro s0 h0; simp [run] at h0; subst h0; simp [run, hn]
    | cons b l ih =>
      intro s0 h0
      simp only [run, Option.bind_eq_some_iff, List.cons_append] at h0 ⊢
      obtain ⟨s1, h1, h2⟩ := h0
      exact ⟨s1, h1, ih s1 h2⟩
  exact this _ _ ha

/-- The producer calls. -/
theorem Link.callP {p : Plan α} {P C P' : Stage α} {k : Nat} {c c' : St α} {op : Op α} (h : Link p P C k c)
    (hc : next (p.cfg k) c (.call 0 op) = some c') (hg : P'.got = P.got) (ht : P'.todo = P.todo)
    (hr : P'.rej = P.rej) (hp : P.pos ≠ .inCloseOut ∧ P.pos ≠ .over)
    (ho : ∀ b, ProdOk P' (cls (entry op : PC α)) b) (hn : ∀ y, cls (entry op : PC α) ≠ .pushed y) : Link p P' C k c' := by
  have hre := reach_next h.reach hc
  obtain ⟨pc0, pc1, e, h1, h2, h3⟩ := h.pcs
  simp only [next, e, List.getElem?_cons_zero] at hc
  split at hc
  · rename_i e0
    injection e0 with e0; subst e0
    injection hc with hc
    have hq : c'.q = c.q := by rw [← hc]; rfl
    have hcl : c'.closed = c.closed := by rw [← hc]; rfl
    have hpcs : c'.pcs = [entry op, pc1] := by rw [← hc]; simp [St.goto, St.log, e]
    refine ⟨hre, ⟨_, pc1, hpcs, ho _, by rw [hq, hcl]; exact h2, ?_⟩, ?_, ?_⟩
    · rw [hq, ht]
      have : made p k P' = made p k P := by simp only [made, hg]
      rw [this, h3]
      congr 1
      simp only [rest, cls]
      split
      · rename_i y e; exact absurd e (hn y)
      · rfl
    · rw [hcl]; intro hx
      rcases h.closed hx with h | h | h
      · exact absurd h hp.1
      · exact absurd h hp.2
      · exact .inr (.inr h)
    · rw [hr]; exact h.rejected
  · simp at hc

/-- The consumer calls. -/
theorem Link.callC {p : Plan α} {P C C' : Stage α} {k : Nat} {c c' : St α} {op : Op α} (h : Link p P C k c)
    (hc : next (p.cfg k) c (.call 1 op) = some c') (hg : C'.got = C.got)
    (hl : C.left = true → C'.left = true)
    (ho : ∀ q b, ConsOk C' (cls (entry op : PC α)) q b) (hn : ∀ y, cls (entry op : PC α) ≠ .took y) :
    Link p P C' k c' := by
  have hre := reach_next h.reach hc
  obtain ⟨pc0, pc1, e, h1, h2, h3⟩ := h.pcs
  simp only [next, e, List.getElem?_cons_zero, List.getElem?_cons_succ] at hc
  split at hc
  · rename_i e0
    injection e0 with e0; subst e0
    injection hc with hc
    have hq : c'.q = c.q := by rw [← hc]; rfl
    have hcl : c'.closed = c.closed := by rw [← hc]; rfl
    have hpcs : c'.pcs = [pc0, entry op] := by rw [← hc]; simp [St.goto, St.log, e]
    refine ⟨hre, ⟨pc0, _, hpcs, by rw [hcl]; exact h1, ho _ _, ?_⟩, ?_, fun hx => hl (h.rejected hx)⟩
    · rw [hq, hg, h3]
      congr 3
      simp only [taken, cls]
      split
      · rename_i y e; exact absurd e (hn y)
      · rfl
    · rw [hcl]; intro hx
      rcases h.closed hx with h | h | h
      · exact .inl h
      · exact .inr (.inl h)
      · exact .inr (.inr (hl h))
  · simp at hc

/-- The stage of the producer changes, but nothing about this channel. -/
theorem Link.frameP {p : Plan α} {P C P' : Stage α} {k : Nat} {c : St α} (h : Link p P C k c)
    (hr : P'.rej = P.rej)
    (hp : ∀ pc0 pc1 : PC α, ProdOk P (cls pc0) c.closed → ConsOk C (cls pc1) c.q c.closed →
      ProdOk P' (cls pc0) c.closed ∧
      ∃ l, made p k P' = made p k P ++ l ∧ rest P'.todo (cls pc0) = rest P.todo (cls pc0) ++ l)
    (hl : P.pos = .inCloseOut ∨ P.pos = .over → P'.pos = .inCloseOut ∨ P'.pos = .over) : Link p P' C k c := by
  obtain ⟨pc0, pc1, e, h1, h2, h3⟩ := h.pcs
  obtain ⟨h4, l, h5, h6⟩ := hp pc0 pc1 h1 h2
  refine ⟨h.reach, ⟨pc0, pc1, e, h4, h2, by rw [h5, h3, h6]; simp⟩, ?_, by rw [hr]; exact h.rejected⟩
  intro hx
  rcases h.closed hx with h | h | h
  · rcases hl (.inl h) with h | h
    · exact .inl h
    · exact .inr (.inl h)
  · rcases hl (.inr h) with h | h
    · exact .inl h
    · exact .inr (.inl h)
  · exact .inr (.inr h)

/-- The stage of the consumer changes, but nothing about this channel. -/
theorem Link.frameC {p : Plan α} {P C C' : Stage α} {k : Nat} {c : St α} (h : Link p P C k c)
    (hg : C'.got = C.got) (hl : C.left = true → C'.left = true)
    (hp : ∀ pc1 : PC α, ConsOk C (cls pc1) c.q c.closed → ConsOk C' (cls pc1) c.q c.closed) : Link p P C' k c := by
  obtain ⟨pc0, pc1, e, h1, h2, h3⟩ := h.pcs
  refine ⟨h.reach, ⟨pc0, pc1, e, h1, hp _ h2, by rw [hg]; exact h3⟩, ?_, fun hx => hl (h.rejected hx)⟩
  intro hx
  rcases h.closed hx with h | h | h
  · exact .inl h
  · exact .inr (.inl h)
  · exact .inr (.inr (hl h))

end Verif.Pipeline
