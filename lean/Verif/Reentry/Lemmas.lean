import Verif.Reentry.Model

/-!
Specification of well-behaved element code, and the invariant of executions (C116).
-/
namespace Verif.Reentry

/-! ### Specification -/

/-- Which channels are exchange channels, and with which mutex at most (`none`: with none) elements are taken out of a channel, so that code
of the move to the result runs with that mutex. -/
structure Plan where
  n : Nat
  exch : Nat → Bool
  lev : Nat → Option Nat

/-- `c` comes after the mutex that is held (if any) in the order of channels. -/
def above : Option Nat → Nat → Bool
  | none, _ => true
  | some h, c => decide (h < c)

/-- What may run with `l` may run with `h`. -/
def le : Option Nat → Option Nat → Bool
  | none, _ => true
  | some h, some l => decide (h ≤ l)
  | some _, none => false

/-- The highest mutex with which the code of the result of a `pop` runs. -/
def Plan.after (P : Plan) (c : Nat) : Option Nat := if P.exch c then some c else P.lev c

mutual
/-- The call may be made with mutex `h` (the highest one held by the thread): it is of a channel after `h`, does not wait if there is such a
mutex, and the code it leads to may run where it will. -/
def Call.ok (P : Plan) : Option Nat → Call → Bool
  | _, .closed c => decide (c < P.n)
  | h, .close c => decide (c < P.n) && above h c
  | h, .emplace wait c make m1 d1 m2 d2 => decide (c < P.n) && above h c && (h.isNone || !wait || P.exch c) &&
      okAll P (some c) make && okAll P (some c) m1 && okAll P (some c) d1 && okAll P (P.after c) m2 && okAll P (P.after c) d2
  | h, .pop wait c => decide (c < P.n) && above h c && (h.isNone || !wait) && (P.exch c || le h (P.lev c))
  | h, .guard _ c body => decide (c < P.n) && above h c && okAll P (some c) body
/-- All of these may be made. -/
def okAll (P : Plan) : Option Nat → List Call → Bool
  | _, [] => true
  | h, x :: xs => Call.ok P h x && okAll P h xs
end

mutual
/-- Number of steps a call and all it leads to can take. -/
def Call.size : Call → Nat
  | .closed _ => 1
  | .close _ => 1
  | .emplace _ _ make m1 d1 m2 d2 => 5 + (sizeAll make + (2 + (sizeAll m1 + sizeAll d1 + sizeAll m2 + sizeAll d2)))
  | .pop _ _ => 1
  | .guard _ _ body => 2 + sizeAll body
/-- All together. -/
def sizeAll : List Call → Nat
  | [] => 0
  | x :: xs => x.size + sizeAll xs
end

/-! ### Lemmas -/

theorem okAll_iff (P : Plan) (h : Option Nat) : ∀ l : List Call, okAll P h l = true ↔ ∀ x ∈ l, x.ok P h = true
  | [] => by simp [okAll]
  | x :: xs => by simp [okAll, okAll_iff P h xs]

theorem sizeAll_append : ∀ a b : List Call, sizeAll (a ++ b) = sizeAll a + sizeAll b
  | [], b => by simp [sizeAll]
  | x :: xs, b => by simp only [List.cons_append, sizeAll, sizeAll_append xs b]; omega

/-- What may run with more mutexes may run with fewer. -/
theorem ok_mono (P : Plan) {h l : Option Nat} (hl : le h l = true) : ∀ {x : Call}, x.ok P l = true → x.ok P h = true
  | .closed c, hx => by simpa [Call.ok] using hx
  | .close c, hx => by
    simp only [Call.ok, Bool.and_eq_true] at hx ⊢
    refine ⟨hx.1, ?_⟩
    cases h <;> cases l <;> simp_all [above, le] <;> omega
  | .emplace wait c make m1 d1 m2 d2, hx => by
    simp only [Call.ok, Bool.and_eq_true] at hx ⊢
    obtain ⟨⟨⟨⟨⟨⟨⟨a, b⟩, c⟩, d⟩, e⟩, f⟩, g⟩, i⟩ := hx
    refine ⟨⟨⟨⟨⟨⟨⟨a, ?_⟩, ?_⟩, d⟩, e⟩, f⟩, g⟩, i⟩
    · cases h <;> cases l <;> simp_all [above, le] <;> omega
    · cases h <;> cases l <;> simp_all [le]
  | .pop wait c, hx => by
    simp only [Call.ok, Bool.and_eq_true] at hx ⊢
    obtain ⟨⟨⟨a, b⟩, d⟩, e⟩ := hx
    refine ⟨⟨⟨a, ?_⟩, ?_⟩, ?_⟩
    · cases h <;> cases l <;> simp_all [above, le] <;> omega
    · cases h <;> cases l <;> simp_all [le]
    · rw [Bool.or_eq_true] at e ⊢
      rcases e with e | e
      · exact .inl e
      · right
        cases hq : P.lev c <;> cases h <;> cases l <;> simp_all [le] <;> omega
  | .guard wait c body, hx => by
    simp only [Call.ok, Bool.and_eq_true] at hx ⊢
    refine ⟨⟨hx.1.1, ?_⟩, hx.2⟩
    cases h <;> cases l <;> simp_all [above, le] <;> omega

/-- The innermost mutex of the thread that will do this. -/
def top : List Instr → Option Nat
  | [] => none
  | .unlock c :: _ => some c
  | _ :: is => top is

/-- The mutexes that are held by the thread that will do this. -/
def held : List Instr → List Nat
  | [] => []
  | .unlock c :: is => c :: held is
  | _ :: is => held is

/-- The code of an element may run where it will. -/
def Elem.ok (P : Plan) (c : Nat) (e : Elem) : Prop :=
  okAll P (some c) e.m1 = true ∧ okAll P (some c) e.d1 = true ∧ okAll P (P.after c) e.m2 = true ∧ okAll P (P.after c) e.d2 = true

/-- A thread is well behaved. -/
def Good (P : Plan) : List Instr → Prop
  | [] => True
  | .call x :: is => x.ok P (top is) = true ∧ Good P is
  | .inside x :: is => x.ok P (top is) = true ∧ Good P is
  | .add c e :: is => top is = some c ∧ e.ok P c ∧ Good P is
  | .unlock c :: is => c < P.n ∧ above (top is) c = true ∧ Good P is

/-- Steps an instruction can take. -/
def Instr.size : Instr → Nat
  | .call x => x.size
  | .inside (.emplace w c mk m1 d1 m2 d2) => (Call.emplace w c mk m1 d1 m2 d2).size - 1
  | .inside x => x.size
  | .add _ e => 3 + (sizeAll e.m1 + sizeAll e.d1 + sizeAll e.m2 + sizeAll e.d2)
  | .unlock _ => 1

/-- Steps a thread can take. -/
def sizeI : List Instr → Nat
  | [] => 0
  | i :: is => i.size + sizeI is

/-- Steps the elements of a buffer will take. -/
def sizeE : List Elem → Nat
  | [] => 0
  | e :: es => (2 + (sizeAll e.m1 + sizeAll e.d1 + sizeAll e.m2 + sizeAll e.d2)) + sizeE es

/-- Steps that can be taken. -/
def State.size (s : State) : Nat := (s.thr.map sizeI).sum + (s.chans.map fun c => sizeE c.buf).sum

theorem top_calls (l : List Call) (is : List Instr) : top (calls l ++ is) = top is := by
  induction l with
  | nil => rfl
  | cons x xs ih => simpa [calls, top] using ih

theorem held_calls (l : List Call) (is : List Instr) : held (calls l ++ is) = held is := by
  induction l with
  | nil => rfl
  | cons x xs ih => simpa [calls, held] using ih

theorem good_calls {P : Plan} {l : List Call} {is : List Instr} (h : okAll P (top is) l = true) (hg : Good P is) :
    Good P (calls l ++ is) := by
  induction l with
  | nil => exact hg
  | cons x xs ih =>
    simp only [okAll, Bool.and_eq_true] at h
    refine ⟨?_, ih h.2⟩
    show x.ok P (top (calls xs ++ is)) = true
    rw [top_calls]
    exact h.1

theorem sizeI_append (a b : List Instr) : sizeI (a ++ b) = sizeI a + sizeI b := by
  induction a with
  | nil => simp [sizeI]
  | cons x xs ih => simp only [List.cons_append, sizeI, ih]; omega

theorem sizeI_calls (l : List Call) : sizeI (calls l) = sizeAll l := by
  induction l with
  | nil => rfl
  | cons x xs ih =>
    simp only [calls, List.map_cons, sizeI, sizeAll, Instr.size] at *
    rw [← ih]

theorem okAll_append {P : Plan} {h : Option Nat} {a b : List Call} (ha : okAll P h a = true) (hb : okAll P h b = true) :
    okAll P h (a ++ b) = true := by
  rw [okAll_iff] at *
  intro x hx
  rcases List.mem_append.1 hx with hx | hx
  · exact ha x hx
  · exact hb x hx

theorem okAll_mono {P : Plan} {h l : Option Nat} (hl : le h l = true) {a : List Call} (ha : okAll P l a = true) : okAll P h a = true := by
  rw [okAll_iff] at *
  exact fun x hx => ok_mono P hl (ha x hx)

/-- Mutexes of a well-behaved thread are in order, the innermost is the highest. -/
theorem held_le {P : Plan} : ∀ {is : List Instr}, Good P is → ∀ c ∈ held is, ∃ t, top is = some t ∧ c ≤ t
  | [], _, c, hc => by simp [held] at hc
  | .call x :: is, h, c, hc => held_le (is := is) h.2 c hc
  | .inside x :: is, h, c, hc => held_le (is := is) h.2 c hc
  | .add d e :: is, h, c, hc => held_le (is := is) h.2.2 c hc
  | .unlock d :: is, h, c, hc => by
    rcases List.mem_cons.1 hc with rfl | hc
    · exact ⟨c, rfl, Nat.le_refl c⟩
    · obtain ⟨t, ht, hle⟩ := held_le (is := is) h.2.2 c hc
      have := h.2.1
      rw [ht] at this
      simp [above] at this
      exact ⟨d, rfl, by omega⟩

theorem top_mem : ∀ {is : List Instr} {t : Nat}, top is = some t → t ∈ held is
  | [], t, h => by simp [top] at h
  | .call x :: is, t, h => top_mem (is := is) h
  | .inside x :: is, t, h => top_mem (is := is) h
  | .add d e :: is, t, h => top_mem (is := is) h
  | .unlock d :: is, t, h => by simp [top] at h; simp [held, h]

theorem held_lt {P : Plan} {is : List Instr} {c : Nat} (hg : Good P is) (h : above (top is) c = true) : ∀ d ∈ held is, d < c := by
  intro d hd
  obtain ⟨t, ht, hle⟩ := held_le hg d hd
  rw [ht] at h
  simp [above] at h
  omega

/-- The invariant: threads are well behaved, so are elements in buffers, a mutex is owned by the thread that has to release it. -/
structure Inv (P : Plan) (s : State) : Prop where
  len : s.chans.length = P.n
  exch : ∀ (c : Nat) (ch : Chan), s.chans[c]? = some ch → ch.exch = P.exch c
  elem : ∀ (c : Nat) (ch : Chan), s.chans[c]? = some ch → ∀ e ∈ ch.buf, Elem.ok P c e
  good : ∀ (i : Nat) (is : List Instr), s.thr[i]? = some is → Good P is
  own : ∀ (c : Nat) (ch : Chan) (i : Nat), s.chans[c]? = some ch → ch.owner = some i → ∃ is, s.thr[i]? = some is ∧ c ∈ held is
  hold : ∀ (i : Nat) (is : List Instr) (c : Nat), s.thr[i]? = some is → c ∈ held is → ∃ ch, s.chans[c]? = some ch ∧ ch.owner = some i
/-- Has the call to wait for an element or for space? -/
def Blocked (ch : Chan) : Call → Prop
  | .pop wait _ => wait = true ∧ ch.buf = [] ∧ ch.closed = false
  | .emplace wait .. => wait = true ∧ ch.exch = false ∧ ch.closed = false ∧ ch.cap ≤ ch.buf.length
  | _ => False

theorem enter_none {i rest ch x} (h : enter i rest ch x = none) : ch.owner ≠ none ∨ Blocked ch x := by
  cases x with
  | closed c => simp [enter] at h
  | close c =>
    simp only [enter] at h
    split at h
    · cases h
    · left; assumption
  | emplace wait c make m1 d1 m2 d2 =>
    simp only [enter] at h
    split at h
    · left; assumption
    split at h
    · cases h
    split at h
    · cases h
    split at h
    · cases h
    split at h
    · right
      refine ⟨by assumption, by simp_all, by simp_all, by omega⟩
    · cases h
  | pop wait c =>
    simp only [enter] at h
    split at h
    · left; assumption
    split at h
    · split at h <;> cases h
    · split at h
      · cases h
      · right
        refine ⟨by simp_all, by assumption, by simp_all⟩
  | guard wait c body =>
    simp only [enter] at h
    split at h
    · left; assumption
    · cases h

theorem enter_free {P : Plan} {i rest ch x} {t : Nat} (ho : ch.owner = none) (hx : ch.exch = P.exch x.chan)
    (hok : x.ok P (some t) = true) : enter i rest ch x ≠ none := by
  intro h
  rcases enter_none h with h | h
  · exact h ho
  · cases x with
    | closed c => exact h
    | close c => exact h
    | emplace wait c make m1 d1 m2 d2 =>
      obtain ⟨h1, h2, _⟩ := h
      subst h1
      simp only [Call.chan] at hx
      rw [h2] at hx
      simp [Call.ok, ← hx] at hok
    | pop wait c =>
      obtain ⟨h1, _⟩ := h
      subst h1
      simp [Call.ok] at hok
    | guard wait c body => exact h

/-- What `enter` does with the thread and the channel. -/
theorem enter_some {P : Plan} {i rest ch x ch' is'} (h : enter i rest ch x = some (ch', is')) (hx : ch.exch = P.exch x.chan)
    (he : ∀ e ∈ ch.buf, Elem.ok P x.chan e) (hok : x.ok P (top rest) = true) (hg : Good P rest) :
    Good P is' ∧ ch'.exch = ch.exch ∧ (∀ e ∈ ch'.buf, Elem.ok P x.chan e) ∧
    ((ch'.owner = ch.owner ∧ held is' = held rest) ∨
      (ch.owner = none ∧ ch'.owner = some i ∧ held is' = x.chan :: held rest)) := by
  have lt_of : ∀ {c}, Call.ok P (top rest) (.close c) = true → Good P (.unlock c :: rest) := by
    intro c h
    simp only [Call.ok, Bool.and_eq_true, decide_eq_true_eq] at h
    exact ⟨h.1, h.2, hg⟩
  cases x with
  | closed c =>
    simp only [enter, Option.some.injEq, Prod.mk.injEq] at h
    obtain ⟨rfl, rfl⟩ := h
    exact ⟨hg, rfl, he, .inl ⟨rfl, rfl⟩⟩
  | close c =>
    simp only [enter] at h
    split at h
    · simp only [Option.some.injEq, Prod.mk.injEq] at h
      obtain ⟨rfl, rfl⟩ := h
      exact ⟨hg, rfl, he, .inl ⟨rfl, rfl⟩⟩
    · cases h
  | emplace wait c make m1 d1 m2 d2 =>
    simp only [Call.ok, Bool.and_eq_true] at hok
    obtain ⟨⟨⟨⟨⟨⟨⟨o1, o2⟩, o3⟩, o4⟩, o5⟩, o6⟩, o7⟩, o8⟩ := hok
    have hu : Good P (.unlock c :: rest) := lt_of (by simp only [Call.ok, Bool.and_eq_true]; exact ⟨o1, o2⟩)
    have ha : Good P (.add c ⟨m1, d1, m2, d2⟩ :: .unlock c :: rest) := ⟨rfl, ⟨o5, o6, o7, o8⟩, hu⟩
    have ht : top (.add c ⟨m1, d1, m2, d2⟩ :: .unlock c :: rest) = some c := rfl
    simp only [enter] at h
    split at h
    · cases h
    rename_i hown
    have hown : ch.owner = none := by simpa using hown
    split at h
    · simp only [Option.some.injEq, Prod.mk.injEq] at h
      obtain ⟨rfl, rfl⟩ := h
      exact ⟨hg, rfl, he, .inl ⟨rfl, rfl⟩⟩
    split at h
    · simp only [Option.some.injEq, Prod.mk.injEq] at h
      obtain ⟨rfl, rfl⟩ := h
      refine ⟨good_calls (okAll_append ?_ (ht ▸ o4)) ha, rfl, by simp, .inr ⟨hown, rfl, by rw [held_calls]; rfl⟩⟩
      rw [okAll_iff, ht]
      intro y hy
      simp only [List.mem_flatten, List.mem_map] at hy
      obtain ⟨_, ⟨e, hm, rfl⟩, hy⟩ := hy
      exact (okAll_iff _ _ _).1 (he e hm).2.1 y hy
    split at h
    · simp only [Option.some.injEq, Prod.mk.injEq] at h
      obtain ⟨rfl, rfl⟩ := h
      exact ⟨good_calls (ht ▸ o4) ha, rfl, he, .inr ⟨hown, rfl, by rw [held_calls]; rfl⟩⟩
    split at h
    · cases h
    · simp only [Option.some.injEq, Prod.mk.injEq] at h
      obtain ⟨rfl, rfl⟩ := h
      exact ⟨hg, rfl, he, .inl ⟨rfl, rfl⟩⟩
  | pop wait c =>
    simp only [Call.ok, Bool.and_eq_true] at hok
    obtain ⟨⟨⟨o1, o2⟩, o3⟩, o4⟩ := hok
    have hu : Good P (.unlock c :: rest) := lt_of (by simp only [Call.ok, Bool.and_eq_true]; exact ⟨o1, o2⟩)
    simp only [enter] at h
    split at h
    · cases h
    rename_i hown
    have hown : ch.owner = none := by simpa using hown
    split at h
    · rename_i e es hb
      have hee := he e (by rw [hb]; exact List.mem_cons_self)
      have hes : ∀ e ∈ es, Elem.ok P c e := fun f hf => he f (by rw [hb]; exact List.mem_cons_of_mem _ hf)
      split at h
      · rename_i hex
        simp only [Option.some.injEq, Prod.mk.injEq] at h
        obtain ⟨rfl, rfl⟩ := h
        have haft : P.after c = some c := by
          simp only [Call.chan] at hx
          simp [Plan.after, ← hx, hex]
        refine ⟨good_calls ?_ hu, rfl, hes, .inr ⟨hown, rfl, by rw [held_calls]; rfl⟩⟩
        obtain ⟨e1, e2, e3, e4⟩ := hee
        simp only [Call.chan, haft] at e1 e2 e3 e4
        exact okAll_append (okAll_append (okAll_append e1 e2) e3) e4
      · rename_i hex
        simp only [Option.some.injEq, Prod.mk.injEq] at h
        obtain ⟨rfl, rfl⟩ := h
        have hex' : P.exch c = false := by
          simp only [Call.chan] at hx
          rw [← hx]; simpa using hex
        have haft : P.after c = P.lev c := by simp [Plan.after, hex']
        obtain ⟨e1, e2, e3, e4⟩ := hee
        simp only [Call.chan, haft] at e1 e2 e3 e4
        rw [hex'] at o4
        simp at o4
        have hu' : Good P (.unlock c :: (calls (e.m2 ++ e.d2) ++ rest)) :=
          ⟨hu.1, by rw [top_calls]; exact hu.2.1, good_calls (okAll_mono o4 (okAll_append e3 e4)) hg⟩
        refine ⟨good_calls (okAll_append e1 e2) hu', rfl, hes, .inr ⟨hown, rfl, ?_⟩⟩
        rw [held_calls]
        simp [held, held_calls, Call.chan]
    · split at h
      · simp only [Option.some.injEq, Prod.mk.injEq] at h
        obtain ⟨rfl, rfl⟩ := h
        exact ⟨hg, rfl, he, .inl ⟨rfl, rfl⟩⟩
      · cases h
  | guard wait c body =>
    simp only [Call.ok, Bool.and_eq_true] at hok
    have hu : Good P (.unlock c :: rest) := lt_of (by simp only [Call.ok, Bool.and_eq_true]; exact hok.1)
    simp only [enter] at h
    split at h
    · split at h
      · cases h
      · simp only [Option.some.injEq, Prod.mk.injEq] at h
        obtain ⟨rfl, rfl⟩ := h
        exact ⟨hg, rfl, he, .inl ⟨rfl, rfl⟩⟩
    · rename_i hown
      have hown : ch.owner = none := by simpa using hown
      simp only [Option.some.injEq, Prod.mk.injEq] at h
      obtain ⟨rfl, rfl⟩ := h
      exact ⟨good_calls hok.2 hu, rfl, he, .inr ⟨hown, rfl, by rw [held_calls]; rfl⟩⟩

theorem sizeE_append (a b : List Elem) : sizeE (a ++ b) = sizeE a + sizeE b := by
  induction a with
  | nil => simp [sizeE]
  | cons x xs ih => simp only [List.cons_append, sizeE, ih]; omega

theorem d1s_le (l : List Elem) : sizeAll (l.map (·.d1)).flatten ≤ sizeE l := by
  induction l with
  | nil => simp [sizeAll]
  | cons x xs ih => simp only [List.map_cons, List.flatten_cons, sizeAll_append, sizeE]; omega

/-- Every call makes progress. -/
theorem enter_size {i rest ch x ch' is'} (h : enter i rest ch x = some (ch', is')) :
    sizeI is' + sizeE ch'.buf < (Instr.inside x).size + sizeI rest + sizeE ch.buf := by
  cases x with
  | closed c =>
    simp only [enter, Option.some.injEq, Prod.mk.injEq] at h
    obtain ⟨rfl, rfl⟩ := h
    simp only [Instr.size, Call.size]; omega
  | close c =>
    simp only [enter] at h
    split at h
    · simp only [Option.some.injEq, Prod.mk.injEq] at h
      obtain ⟨rfl, rfl⟩ := h
      simp only [Instr.size, Call.size]; omega
    · cases h
  | emplace wait c make m1 d1 m2 d2 =>
    simp only [enter] at h
    have hd := d1s_le ch.buf
    split at h
    · cases h
    split at h
    · simp only [Option.some.injEq, Prod.mk.injEq] at h
      obtain ⟨rfl, rfl⟩ := h
      simp only [Instr.size, Call.size]; omega
    split at h
    · simp only [Option.some.injEq, Prod.mk.injEq] at h
      obtain ⟨rfl, rfl⟩ := h
      simp only [sizeI_append, sizeI_calls, sizeAll_append, sizeI, Instr.size, Call.size, sizeE]; omega
    split at h
    · simp only [Option.some.injEq, Prod.mk.injEq] at h
      obtain ⟨rfl, rfl⟩ := h
      simp only [sizeI_append, sizeI_calls, sizeI, Instr.size, Call.size]; omega
    split at h
    · cases h
    · simp only [Option.some.injEq, Prod.mk.injEq] at h
      obtain ⟨rfl, rfl⟩ := h
      simp only [Instr.size, Call.size]; omega
  | pop wait c =>
    simp only [enter] at h
    split at h
    · cases h
    split at h
    · rename_i e es hb
      rw [hb]
      split at h
      all_goals
        simp only [Option.some.injEq, Prod.mk.injEq] at h
        obtain ⟨rfl, rfl⟩ := h
        simp only [sizeI_append, sizeI_calls, sizeAll_append, sizeI, Instr.size, Call.size, sizeE]; omega
    · rename_i hb
      split at h
      · simp only [Option.some.injEq, Prod.mk.injEq] at h
        obtain ⟨rfl, rfl⟩ := h
        simp only [Instr.size, Call.size]; omega
      · cases h
  | guard wait c body =>
    simp only [enter] at h
    split at h
    · split at h
      · cases h
      · simp only [Option.some.injEq, Prod.mk.injEq] at h
        obtain ⟨rfl, rfl⟩ := h
        simp only [Instr.size, Call.size]; omega
    · simp only [Option.some.injEq, Prod.mk.injEq] at h
      obtain ⟨rfl, rfl⟩ := h
      simp only [sizeI_append, sizeI_calls, sizeI, Instr.size, Call.size]; omega

theorem sum_set {α : Type} (f : α → Nat) : ∀ (l : List α) (i : Nat) (a b : α), l[i]? = some a →
    ((l.set i b).map f).sum + f a = (l.map f).sum + f b
  | [], i, a, b, h => by simp at h
  | x :: xs, 0, a, b, h => by simp at h; subst h; simp; omega
  | x :: xs, i + 1, a, b, h => by
    have := sum_set f xs i a b (by simpa using h)
    simp only [List.set_cons_succ, List.map_cons, List.sum_cons]; omega

/-- What a step is: thread `i` is replaced, and one channel or none. -/
theorem step_cases {s t : State} {i : Nat} (h : step s i = some t) :
    ∃ is is', s.thr[i]? = some is ∧ t.thr = s.thr.set i is' ∧
      ((∃ c ch ch', s.chans[c]? = some ch ∧ t.chans = s.chans.set c ch' ∧
        ((∃ x rest, (is = .call x :: rest ∨ is = .inside x :: rest) ∧ c = x.chan ∧ enter i rest ch x = some (ch', is') ∧
            (is = .call x :: rest → ∀ w c mk a b d e, x ≠ .emplace w c mk a b d e)) ∨
         (∃ e, is = .add c e :: is' ∧ ch' = { ch with buf := ch.buf ++ [e] }) ∨
         (is = .unlock c :: is' ∧ ch' = { ch with owner := none }))) ∨
       (t.chans = s.chans ∧ ((∃ c e, is = .add c e :: is' ∧ s.chans[c]? = none) ∨ (∃ c, is = .unlock c :: is' ∧ s.chans[c]? = none) ∨
        ∃ x rest, is = .call x :: rest ∧ (is' = rest ∨ (is' = .inside x :: rest ∧ ∃ w c mk a b d e, x = .emplace w c mk a b d e))))) := by
  have modset : ∀ (c : Nat) (f : Chan → Chan), s.chans.modify c f = match s.chans[c]? with | some ch => s.chans.set c (f ch) | none => s.chans := by
    intro c f
    apply List.ext_getElem?
    intro j
    cases hc : s.chans[c]? with
    | none =>
      simp only [List.getElem?_modify]
      by_cases hj : c = j
      · subst hj; simp [hc]
      · simp [hj]
    | some ch =>
      simp only [List.getElem?_modify, List.getElem?_set]
      by_cases hj : c = j
      · subst hj
        have := (List.getElem?_eq_some_iff.1 hc).1
        have hg := (List.getElem?_eq_some_iff.1 hc).2
        simp [this, hg]
      · simp [hj]
  unfold step at h
  split at h
  · rename_i x rest hi
    split at h
    · rename_i ch hc
      split at h
      · injection h with h; subst h
        refine ⟨_, _, hi, rfl, .inr ⟨rfl, .inr (.inr ⟨_, rest, rfl, ?_⟩)⟩⟩
        split
        · exact .inl rfl
        · exact .inr ⟨rfl, _, _, _, _, _, _, _, rfl⟩
      · rename_i hne
        cases he : enter i rest ch x with
        | none => simp [he] at h
        | some r =>
          simp only [he, Option.map_some, Option.some.injEq] at h
          subst h
          refine ⟨_, _, hi, rfl, .inl ⟨_, ch, r.1, hc, rfl, .inl ⟨x, rest, .inl rfl, rfl, he, fun _ w c mk a b d e hx => ?_⟩⟩⟩
          exact hne w c mk a b d e hx
    · cases h
  · rename_i x rest hi
    split at h
    · rename_i ch hc
      cases he : enter i rest ch x with
      | none => simp [he] at h
      | some r =>
        simp only [he, Option.map_some, Option.some.injEq] at h
        subst h
        refine ⟨_, _, hi, rfl, .inl ⟨_, ch, r.1, hc, rfl, .inl ⟨x, rest, .inr rfl, rfl, he, fun e => by simp at e⟩⟩⟩
    · cases h
  · rename_i c e rest hi
    injection h with h; subst h
    simp only [modset]
    cases hc : s.chans[c]? with
    | none => exact ⟨_, _, hi, rfl, .inr ⟨rfl, .inl ⟨c, e, rfl, hc⟩⟩⟩
    | some ch => exact ⟨_, _, hi, rfl, .inl ⟨c, ch, _, hc, rfl, .inr (.inl ⟨e, rfl, rfl⟩)⟩⟩
  · rename_i c rest hi
    injection h with h; subst h
    simp only [modset]
    cases hc : s.chans[c]? with
    | none => exact ⟨_, _, hi, rfl, .inr ⟨rfl, .inr (.inl ⟨c, rfl, hc⟩)⟩⟩
    | some ch => exact ⟨_, _, hi, rfl, .inl ⟨c, ch, _, hc, rfl, .inr (.inr ⟨rfl, rfl⟩)⟩⟩
  · cases h

/-- Every step uses up some of the finite work. -/
theorem step_size {s t : State} {i : Nat} (h : step s i = some t) : t.size < s.size := by
  obtain ⟨is, is', hi, ht, hc⟩ := step_cases h
  have h1 := sum_set sizeI s.thr i is is' hi
  rw [← ht] at h1
  simp only [State.size]
  rcases hc with ⟨c, ch, ch', hc, htc, hk⟩ | ⟨htc, hk⟩
  · have h2 := sum_set (fun c => sizeE c.buf) s.chans c ch ch' hc
    rw [← htc] at h2
    have h3 : sizeI is' + sizeE ch'.buf < sizeI is + sizeE ch.buf := by
      rcases hk with ⟨x, rest, hx, rfl, he, hne⟩ | ⟨e, rfl, rfl⟩ | ⟨rfl, rfl⟩
      · have := enter_size he
        rcases hx with rfl | rfl
        · cases x with
          | emplace w c mk a b d e => exact absurd rfl (hne rfl w c mk a b d e)
          | closed c => simp only [sizeI, Instr.size, Call.size] at this ⊢; omega
          | close c => simp only [sizeI, Instr.size, Call.size] at this ⊢; omega
          | pop w c => simp only [sizeI, Instr.size, Call.size] at this ⊢; omega
          | guard w c b => simp only [sizeI, Instr.size, Call.size] at this ⊢; omega
        · simpa only [sizeI] using this
      · simp only [sizeI, Instr.size, sizeE_append, sizeE]; omega
      · simp only [sizeI, Instr.size]; omega
    omega
  · rw [htc]
    have h3 : sizeI is' < sizeI is := by
      rcases hk with ⟨c, e, rfl, _⟩ | ⟨c, rfl, _⟩ | ⟨x, rest, rfl, rfl | ⟨rfl, w, c, mk, a, b, d, e, rfl⟩⟩
      · simp only [sizeI, Instr.size]; omega
      · simp only [sizeI, Instr.size]; omega
      · cases x <;> simp only [sizeI, Instr.size, Call.size] <;> omega
      · simp only [sizeI, Instr.size, Call.size]; omega
    omega

theorem getElem?_set' {α : Type} {l : List α} {i : Nat} {a : α} (h : l[i]? = some a) (b : α) (j : Nat) :
    (l.set i b)[j]? = if j = i then some b else l[j]? := by
  have := (List.getElem?_eq_some_iff.1 h).1
  rw [List.getElem?_set]
  by_cases hj : i = j
  · subst hj; simp [this]
  · simp [hj, Ne.symm hj]

/-- The thread and one channel are replaced, the mutex of which may be taken or released. -/
theorem inv_set {P : Plan} {s : State} (hI : Inv P s) {i : Nat} {is is' : List Instr} (hi : s.thr[i]? = some is) (hg : Good P is')
    {c : Nat} {ch ch' : Chan} (hc : s.chans[c]? = some ch) (hx : ch'.exch = ch.exch) (he : ∀ e ∈ ch'.buf, Elem.ok P c e)
    (ho : (ch'.owner = ch.owner ∧ held is' = held is) ∨ (ch.owner = none ∧ ch'.owner = some i ∧ held is' = c :: held is) ∨
      (ch'.owner = none ∧ held is = c :: held is' ∧ c ∉ held is')) :
    Inv P ⟨s.chans.set c ch', s.thr.set i is'⟩ where
  len := by simp [hI.len]
  exch d dh hd := by
    simp only [getElem?_set' hc] at hd
    split at hd
    · rename_i e; subst e
      injection hd with hd; subst hd
      rw [hx]; exact hI.exch _ _ hc
    · exact hI.exch _ _ hd
  elem d dh hd := by
    simp only [getElem?_set' hc] at hd
    split at hd
    · rename_i e; subst e
      injection hd with hd; subst hd
      exact he
    · exact hI.elem _ _ hd
  good j js hj := by
    simp only [getElem?_set' hi] at hj
    split at hj
    · injection hj with hj; subst hj; exact hg
    · exact hI.good _ _ hj
  own d dh j hd hj := by
    simp only [getElem?_set' hc] at hd
    simp only [getElem?_set' hi]
    have key : ∀ {dh'}, s.chans[d]? = some dh' → dh'.owner = some j → (∀ e, j = i → d ∈ held e → e = is → d ∈ held is') →
        ∃ js, (if j = i then some is' else s.thr[j]?) = some js ∧ d ∈ held js := by
      intro dh' hd' hj' hh
      obtain ⟨js, hjs, hm⟩ := hI.own d dh' j hd' hj'
      by_cases hji : j = i
      · subst hji
        rw [hi] at hjs
        injection hjs with hjs
        exact ⟨is', by simp, hh js rfl hm hjs.symm⟩
      · exact ⟨js, by simp [hji, hjs], hm⟩
    split at hd
    · rename_i e; subst e
      injection hd with hd; subst hd
      rcases ho with ⟨o1, o2⟩ | ⟨o1, o2, o3⟩ | ⟨o1, _⟩
      · exact key hc (o1 ▸ hj) fun e _ hm he => by subst he; rw [o2]; exact hm
      · rw [o2] at hj
        injection hj with hj
        exact ⟨is', by simp [hj], by rw [o3]; exact List.mem_cons_self⟩
      · rw [o1] at hj; cases hj
    · rename_i hne
      refine key hd hj fun e _ hm he => ?_
      subst he
      rcases ho with ⟨_, o2⟩ | ⟨_, _, o3⟩ | ⟨_, o2, _⟩
      · rw [o2]; exact hm
      · rw [o3]; exact List.mem_cons_of_mem _ hm
      · rw [o2] at hm
        exact (List.mem_cons.1 hm).resolve_left hne
  hold j js d hj hm := by
    simp only [getElem?_set' hi] at hj
    simp only [getElem?_set' hc]
    split at hj
    · rename_i e; subst e
      injection hj with hj; subst hj
      rcases ho with ⟨o1, o2⟩ | ⟨o1, o2, o3⟩ | ⟨o1, o2, o3⟩
      · rw [o2] at hm
        obtain ⟨dh, hd, ho'⟩ := hI.hold _ _ d hi hm
        by_cases hdc : d = c
        · subst hdc
          rw [hc] at hd; injection hd with hd
          exact ⟨ch', by simp, by rw [o1, hd]; exact ho'⟩
        · exact ⟨dh, by simp [hdc, hd], ho'⟩
      · rw [o3] at hm
        by_cases hdc : d = c
        · subst hdc
          exact ⟨ch', by simp, o2⟩
        · obtain ⟨dh, hd, ho'⟩ := hI.hold _ _ d hi ((List.mem_cons.1 hm).resolve_left hdc)
          exact ⟨dh, by simp [hdc, hd], ho'⟩
      · obtain ⟨dh, hd, ho'⟩ := hI.hold _ _ d hi (by rw [o2]; exact List.mem_cons_of_mem _ hm)
        have hdc : d ≠ c := fun e => o3 (e ▸ hm)
        exact ⟨dh, by simp [hdc, hd], ho'⟩
    · rename_i hji
      obtain ⟨dh, hd, ho'⟩ := hI.hold _ _ d hj hm
      by_cases hdc : d = c
      · subst hdc
        rw [hc] at hd; injection hd with hd
        subst hd
        rcases ho with ⟨o1, _⟩ | ⟨o1, _⟩ | ⟨_, o2, _⟩
        · exact ⟨ch', by simp, o1 ▸ ho'⟩
        · rw [o1] at ho'; cases ho'
        · obtain ⟨dh, hd', ho''⟩ := hI.hold _ _ d hi (by rw [o2]; exact List.mem_cons_self)
          rw [hc] at hd'; injection hd' with hd'
          subst hd'
          rw [ho'] at ho''
          injection ho'' with ho''
          exact absurd ho'' hji
      · exact ⟨dh, by simp [hdc, hd], ho'⟩

theorem set_self {α : Type} {l : List α} {i : Nat} {a : α} (h : l[i]? = some a) : l.set i a = l := by
  apply List.ext_getElem?
  intro j
  rw [getElem?_set' h]
  split
  · rename_i e; rw [e, h]
  · rfl

theorem inv_step {P : Plan} {s t : State} {i : Nat} (hI : Inv P s) (h : step s i = some t) : Inv P t := by
  obtain ⟨is, is', hi, ht, hk⟩ := step_cases h
  have hgood := hI.good _ _ hi
  obtain ⟨tc, tt⟩ := t
  subst ht
  rcases hk with ⟨c, ch, ch', hc, htc, hk⟩ | ⟨htc, hk⟩
  · simp only at htc
    subst htc
    rcases hk with ⟨x, rest, hx, rfl, he, hne⟩ | ⟨e, rfl, rfl⟩ | ⟨rfl, rfl⟩
    · have hr : x.ok P (top rest) = true ∧ Good P rest ∧ held is = held rest := by
        rcases hx with rfl | rfl <;> exact ⟨hgood.1, hgood.2, rfl⟩
      obtain ⟨g1, g2, g3, g4⟩ := enter_some he (hI.exch _ _ hc) (hI.elem _ _ hc) hr.1 hr.2.1
      refine inv_set hI hi g1 hc g2 g3 ?_
      rcases g4 with ⟨a, b⟩ | ⟨a, b, c⟩
      · exact .inl ⟨a, by rw [b, hr.2.2]⟩
      · exact .inr (.inl ⟨a, b, by rw [c, hr.2.2]⟩)
    · refine inv_set hI hi hgood.2.2 hc rfl ?_ (.inl ⟨rfl, rfl⟩)
      intro f hf
      rcases List.mem_append.1 hf with hf | hf
      · exact hI.elem _ _ hc f hf
      · simp at hf; subst hf; exact hgood.2.1
    · refine inv_set hI hi hgood.2.2 hc rfl (fun e he => hI.elem _ _ hc e he) (.inr (.inr ⟨rfl, rfl, fun hm => ?_⟩))
      exact Nat.lt_irrefl _ (held_lt hgood.2.2 hgood.2.1 c hm)
  · simp only at htc
    subst htc
    have out : ∀ c, c < P.n → s.chans[c]? ≠ none := fun c hc h => by
      rw [List.getElem?_eq_none_iff, hI.len] at h; omega
    rcases hk with ⟨c, e, rfl, hn⟩ | ⟨c, rfl, hn⟩ | ⟨x, rest, rfl, hx⟩
    · obtain ⟨ch, hc, _⟩ := hI.hold _ _ c hi (top_mem hgood.1)
      rw [hn] at hc; cases hc
    · exact absurd hn (out c hgood.1)
    · have hxn : x.chan < P.n := by
        have := hgood.1
        cases x <;> simp [Call.ok, Call.chan] at this ⊢ <;> omega
      cases hc : s.chans[x.chan]? with
      | none => exact absurd hc (out _ hxn)
      | some ch =>
        have hg' : Good P is' ∧ held is' = held (.call x :: rest) := by
          rcases hx with rfl | ⟨rfl, _⟩
          · exact ⟨hgood.2, rfl⟩
          · exact ⟨hgood, rfl⟩
        have := inv_set hI hi hg'.1 hc rfl (hI.elem _ _ hc) (.inl ⟨rfl, hg'.2⟩)
        rwa [set_self hc] at this

theorem inv_exec {P : Plan} : ∀ {is : List Nat} {s t : State}, Inv P s → exec s is = some t → Inv P t
  | [], s, t, hI, h => by simp [exec] at h; exact h ▸ hI
  | i :: is, s, t, hI, h => by
    simp only [exec] at h
    cases hs : step s i with
    | none => simp [hs] at h
    | some u =>
      simp only [hs, Option.bind_some] at h
      exact inv_exec (inv_step hI hs) h

theorem inv_start {P : Plan} {cs : List (Bool × Nat)} {progs : List (List Call)} (hn : cs.length = P.n)
    (hx : ∀ c k, cs[c]? = some k → k.1 = P.exch c) (hp : ∀ p ∈ progs, okAll P none p = true) : Inv P (start cs progs) where
  len := by simp [start, hn]
  exch c ch h := by
    simp only [start, List.getElem?_map, Option.map_eq_some_iff] at h
    obtain ⟨k, hk, rfl⟩ := h
    exact hx c k hk
  elem c ch h := by
    simp only [start, List.getElem?_map, Option.map_eq_some_iff] at h
    obtain ⟨k, hk, rfl⟩ := h
    simp
  good i is h := by
    simp only [start, List.getElem?_map, Option.map_eq_some_iff] at h
    obtain ⟨k, hk, rfl⟩ := h
    have := good_calls (P := P) (l := k) (is := []) (hp k (List.mem_of_getElem? hk)) trivial
    simpa using this
  own c ch i h ho := by
    simp only [start, List.getElem?_map, Option.map_eq_some_iff] at h
    obtain ⟨k, hk, rfl⟩ := h
    cases ho
  hold i is c h hm := by
    simp only [start, List.getElem?_map, Option.map_eq_some_iff] at h
    obtain ⟨k, hk, rfl⟩ := h
    have := held_calls k []
    simp only [List.append_nil] at this
    rw [this] at hm
    simp [held] at hm

end Verif.Reentry
