import Verif.Dangling.Model

/-! Invariants of programs with views (`Verif/Dangling/Model.lean`): every block has one owner and lives as long as it does. -/
namespace Verif.Dangling

variable {α : Type} [DecidableEq α]

omit [DecidableEq α] in
theorem bind_ok {β γ : Type} {o : Out β} {f : β → Out γ} {c : γ} (h : o.bind f = .ok c) : ∃ b, o = .ok b ∧ f b = .ok c := by
  cases o <;> simp [Out.bind] at h
  exact ⟨_, rfl, h⟩

/-- The block that an object owns: containers `(true, c)`, views of rvalues `(false, v)` (ranges.hpp:223,306). -/
def owns (s : St α) : Bool × Nat → Option (Nat × Kind)
  | (true, c) => match s.cont c with
    | .live p => some p
    | _ => none
  | (false, v) => match s.view v with
    | .live w => match w.src with
      | .own b k => some (b, k)
      | .ref _ => none
    | _ => none

/-- Every block has one owner at most, and what an object owns is there (containers of ranges.hpp:306). -/
structure WF (mem : Nat → Data α) (fresh : Nat) (ow : Bool × Nat → Option (Nat × Kind)) : Prop where
  good : ∀ o b k, ow o = some (b, k) → b < fresh ∧ mem b ≠ .freed ∧ (k = .heap → mem b ≠ .husk)
  inj : ∀ o o' b k k', ow o = some (b, k) → ow o' = some (b, k') → o = o'

/-- Replace the owner of a block (owners of ranges.hpp:223,306). -/
def setOwn (ow : Bool × Nat → Option (Nat × Kind)) (o : Bool × Nat) (x : Option (Nat × Kind)) : Bool × Nat → Option (Nat × Kind) :=
  fun p => if p = o then x else ow p

variable {mem : Nat → Data α} {fr : Nat} {ow : Bool × Nat → Option (Nat × Kind)}

omit [DecidableEq α] in
theorem WF.new (h : WF mem fr ow) (o : Bool × Nat) (k : Kind) (xs : List α) :
    WF (upd mem fr (.elems xs 0)) (fr + 1) (setOwn ow o (some (fr, k))) := by
  constructor
  · intro p b k' hp
    unfold setOwn at hp
    split at hp
    · simp only [Option.some.injEq, Prod.mk.injEq] at hp
      obtain ⟨rfl, rfl⟩ := hp
      simp [upd]
    · obtain ⟨h1, h2, h3⟩ := h.good p b k' hp
      have : b ≠ fr := by omega
      refine ⟨by omega, ?_, ?_⟩ <;> simp only [upd, if_neg this]
      · exact h2
      · exact h3
  · intro p p' b k1 k2 hp hp'
    unfold setOwn at hp hp'
    split at hp <;> split at hp'
    · simp [*]
    · simp only [Option.some.injEq, Prod.mk.injEq] at hp
      have := (h.good _ _ _ hp').1
      omega
    · simp only [Option.some.injEq, Prod.mk.injEq] at hp'
      have := (h.good _ _ _ hp).1
      omega
    · exact h.inj _ _ _ _ _ hp hp'

omit [DecidableEq α] in
theorem WF.put (h : WF mem fr ow) (b : Nat) (xs : List α) (ver : Nat) : WF (upd mem b (.elems xs ver)) fr ow := by
  constructor
  · intro p b' k' hp
    obtain ⟨h1, h2, h3⟩ := h.good p b' k' hp
    refine ⟨h1, ?_, ?_⟩ <;> simp only [upd] <;> split
    · simp
    · exact h2
    · simp
    · exact h3
  · exact h.inj

omit [DecidableEq α] in
theorem WF.free (h : WF mem fr ow) (o : Bool × Nat) (b : Nat) (k : Kind) (ho : ow o = some (b, k)) :
    WF (upd mem b .freed) fr (setOwn ow o none) := by
  constructor
  · intro p b' k' hp
    unfold setOwn at hp
    split at hp
    · simp at hp
    · rename_i hne
      have hb : b' ≠ b := fun e => hne (h.inj _ _ _ _ _ (e ▸ hp) ho)
      obtain ⟨h1, h2, h3⟩ := h.good p b' k' hp
      refine ⟨h1, ?_, ?_⟩ <;> simp only [upd, if_neg hb]
      · exact h2
      · exact h3
  · intro p p' b' k1 k2 hp hp'
    unfold setOwn at hp hp'
    split at hp
    · cases hp
    · split at hp'
      · cases hp'
      · exact h.inj _ _ _ _ _ hp hp'

omit [DecidableEq α] in
theorem WF.move (s : St α) (h : WF s.mem s.fresh ow) (o o' : Bool × Nat) (b : Nat) (k : Kind) (ho : ow o = some (b, k))
    (ho' : ow o' = none) :
    WF (moveBlock s b k).1.mem (moveBlock s b k).1.fresh
      (setOwn (setOwn ow o (some ((moveBlock s b k).2.2, k))) o' (some ((moveBlock s b k).2.1, k))) := by
  obtain ⟨g1, g2, g3⟩ := h.good o b k ho
  have hoo : o ≠ o' := by rintro rfl; rw [ho] at ho'; cases ho'
  have hbf : b ≠ s.fresh := by omega
  have hbf' : s.fresh ≠ b := by omega
  cases k
  · simp only [moveBlock]
    constructor
    · intro p b' k' hp
      unfold setOwn at hp
      split at hp
      · simp only [Option.some.injEq, Prod.mk.injEq] at hp
        obtain ⟨rfl, rfl⟩ := hp
        exact ⟨by omega, by simpa [upd, hbf] using g2, by simpa [upd, hbf] using g3⟩
      · split at hp
        · simp only [Option.some.injEq, Prod.mk.injEq] at hp
          obtain ⟨rfl, rfl⟩ := hp
          simp [upd]
        · obtain ⟨h1, h2, h3⟩ := h.good p b' k' hp
          have : b' ≠ s.fresh := by omega
          exact ⟨by omega, by simpa [upd, this] using h2, by simpa [upd, this] using h3⟩
    · intro p p' b' k1 k2 hp hp'
      unfold setOwn at hp hp'
      have lt : ∀ q c l, ow q = some (c, l) → c < s.fresh := fun q c l hq => (h.good q c l hq).1
      split at hp <;> split at hp'
      · simp [*]
      · split at hp'
        · simp only [Option.some.injEq, Prod.mk.injEq] at hp hp'; omega
        · rename_i e1 _ e2
          simp only [Option.some.injEq, Prod.mk.injEq] at hp
          obtain ⟨rfl, rfl⟩ := hp
          exact absurd (h.inj _ _ _ _ _ hp' ho) e2
      · split at hp
        · simp only [Option.some.injEq, Prod.mk.injEq] at hp hp'; omega
        · rename_i e2
          simp only [Option.some.injEq, Prod.mk.injEq] at hp'
          obtain ⟨rfl, rfl⟩ := hp'
          exact absurd (h.inj _ _ _ _ _ hp ho) e2
      · split at hp <;> split at hp'
        · simp [*]
        · simp only [Option.some.injEq, Prod.mk.injEq] at hp
          have := lt _ _ _ hp'; omega
        · simp only [Option.some.injEq, Prod.mk.injEq] at hp'
          have := lt _ _ _ hp; omega
        · exact h.inj _ _ _ _ _ hp hp'
  · simp only [moveBlock]
    constructor
    · intro p b' k' hp
      unfold setOwn at hp
      split at hp
      · simp only [Option.some.injEq, Prod.mk.injEq] at hp
        obtain ⟨rfl, rfl⟩ := hp
        exact ⟨by omega, by simpa [upd, hbf'] using g2, by simp⟩
      · split at hp
        · simp only [Option.some.injEq, Prod.mk.injEq] at hp
          obtain ⟨rfl, rfl⟩ := hp
          exact ⟨by omega, by simp [upd], by simp⟩
        · rename_i e1 e2
          obtain ⟨h1, h2, h3⟩ := h.good p b' k' hp
          have n1 : b' ≠ s.fresh := by omega
          have n2 : b' ≠ b := fun e => e2 (h.inj _ _ _ _ _ (e ▸ hp) ho)
          exact ⟨by omega, by simpa [upd, n1, n2] using h2, by simpa [upd, n1, n2] using h3⟩
    · intro p p' b' k1 k2 hp hp'
      unfold setOwn at hp hp'
      have lt : ∀ q c l, ow q = some (c, l) → c < s.fresh := fun q c l hq => (h.good q c l hq).1
      split at hp <;> split at hp'
      · simp [*]
      · split at hp'
        · simp only [Option.some.injEq, Prod.mk.injEq] at hp hp'; omega
        · simp only [Option.some.injEq, Prod.mk.injEq] at hp
          have := lt _ _ _ hp'; omega
      · split at hp
        · simp only [Option.some.injEq, Prod.mk.injEq] at hp hp'; omega
        · simp only [Option.some.injEq, Prod.mk.injEq] at hp'
          have := lt _ _ _ hp; omega
      · split at hp <;> split at hp'
        · simp [*]
        · rename_i e2
          simp only [Option.some.injEq, Prod.mk.injEq] at hp
          obtain ⟨rfl, rfl⟩ := hp
          exact absurd (h.inj _ _ _ _ _ hp' ho) e2
        · rename_i e2 _
          simp only [Option.some.injEq, Prod.mk.injEq] at hp'
          obtain ⟨rfl, rfl⟩ := hp'
          exact absurd (h.inj _ _ _ _ _ hp ho) e2
        · exact h.inj _ _ _ _ _ hp hp'

/-- The invariant of a state (ranges.hpp:223,306). -/
def Ok (s : St α) : Prop := WF s.mem s.fresh (owns s)

omit [DecidableEq α] in
theorem ok_start : Ok (start : St α) := by
  constructor
  · rintro ⟨_ | _, n⟩ b k h <;> simp [owns, start] at h
  · rintro ⟨_ | _, n⟩ o b k k' h <;> simp [owns, start] at h

omit [DecidableEq α] in
theorem owns_cont (s : St α) (mem : Nat → Data α) (fr c : Nat) (p : Nat × Kind) :
    owns { s with mem := mem, fresh := fr, cont := upd s.cont c (.live p) } = setOwn (owns s) (true, c) (some p) := by
  funext ⟨t, n⟩
  cases t
  · simp [owns, setOwn]
  · by_cases h : n = c
    · subst h; simp [owns, setOwn, upd]
    · simp [owns, setOwn, upd, h]

omit [DecidableEq α] in
theorem owns_view (s : St α) (mem : Nat → Data α) (fr v : Nat) (w : View α) (b : Nat) (k : Kind) (hw : w.src = .own b k) :
    owns { s with mem := mem, fresh := fr, view := upd s.view v (.live w) } = setOwn (owns s) (false, v) (some (b, k)) := by
  funext ⟨t, n⟩
  cases t
  · by_cases h : n = v
    · subst h; simp [owns, setOwn, upd, hw]
    · simp [owns, setOwn, upd, h]
  · simp [owns, setOwn]

omit [DecidableEq α] in
/-- A view that owns nothing, or as much as before. -/
theorem owns_ref (s : St α) (v : Nat) (x : Obj (View α))
    (h : owns { s with view := upd s.view v x } (false, v) = owns s (false, v)) :
    owns { s with view := upd s.view v x } = owns s := by
  funext ⟨t, n⟩
  cases t
  · by_cases e : n = v
    · subst e; exact h
    · simp [owns, upd, e]
  · simp [owns]

/-- `begin` changes at most the cached position of the view. -/
theorem begin_shape {s s' : St α} {v : Nat} {i : It α} (h : begin s v = .ok (s', i)) :
    ∃ w x, s.view v = .live w ∧ s' = { s with view := upd s.view v (.live { w with cache := x }) } := by
  have self : ∀ w : View α, s.view v = .live w → s = { s with view := upd s.view v (.live { w with cache := w.cache }) } := by
    intro w hw
    have : upd s.view v (.live { w with cache := w.cache }) = s.view := by
      funext n; unfold upd; split
      · rename_i e; subst e; rw [hw]
      · rfl
    rw [this]
  unfold begin at h
  split at h
  · rename_i w hw
    refine ⟨w, ?_⟩
    obtain ⟨b, -, h⟩ := bind_ok h
    split at h
    · obtain ⟨r, -, h⟩ := bind_ok h
      simp only [Out.ok.injEq, Prod.mk.injEq] at h
      exact ⟨w.cache, hw, h.1 ▸ self w hw⟩
    · obtain ⟨r, -, h⟩ := bind_ok h
      simp only [Out.ok.injEq, Prod.mk.injEq] at h
      exact ⟨w.cache, hw, h.1 ▸ self w hw⟩
    · split at h
      · cases h
      · obtain ⟨⟨xs, ver⟩, -, h⟩ := bind_ok h
        dsimp only at h
        split at h
        · split at h
          · simp only [Out.ok.injEq, Prod.mk.injEq] at h
            exact ⟨w.cache, hw, h.1 ▸ self w hw⟩
          · cases h
        · simp only [Out.ok.injEq, Prod.mk.injEq] at h
          exact ⟨_, hw, h.1.symm⟩
  · cases h

theorem loop_shape {s s' : St α} {v : Nat} {l : List α} (h : loop s v = .ok (s', l)) :
    ∃ w x, s.view v = .live w ∧ s' = { s with view := upd s.view v (.live { w with cache := x }) } := by
  unfold loop at h
  obtain ⟨⟨s1, i⟩, h1, h⟩ := bind_ok h
  obtain ⟨xs, -, h⟩ := bind_ok h
  obtain ⟨l', -, h⟩ := bind_ok h
  simp only [Out.ok.injEq, Prod.mk.injEq] at h
  rw [← h.1]
  exact begin_shape h1

omit [DecidableEq α] in
theorem moveBlock_rest (s : St α) (b : Nat) (k : Kind) :
    (moveBlock s b k).1.cont = s.cont ∧ (moveBlock s b k).1.view = s.view := by
  cases k <;> exact ⟨rfl, rfl⟩

/-- Every action keeps the invariant. -/
theorem ok_step {s s' : St α} {a : Cmd α} (hs : Ok s) (h : step s a = .ok s') : Ok s' := by
  cases a with
  | mk c k xs =>
    simp only [step] at h
    split at h
    · simp only [Out.ok.injEq] at h; subst h
      unfold Ok; rw [owns_cont]
      exact WF.new hs _ _ _
    · cases h
  | assign c xs =>
    simp only [step] at h
    split at h
    · rename_i b k hc
      split at h
      · split at h <;> (simp only [Out.ok.injEq] at h; subst h; exact WF.put hs _ _ _)
      · simp only [Out.ok.injEq] at h; subst h; exact WF.put hs _ _ _
      · cases h
    · cases h
  | drop c =>
    simp only [step] at h
    split at h
    · rename_i b k hc
      simp only [Out.ok.injEq] at h; subst h
      have ho : owns s (true, c) = some (b, k) := by simp [owns, hc]
      have := WF.free hs _ _ _ ho
      unfold Ok
      have e : owns { s with mem := upd s.mem b .freed, cont := upd s.cont c .dead } = setOwn (owns s) (true, c) none := by
        funext ⟨t, n⟩
        cases t
        · simp [owns, setOwn]
        · by_cases h : n = c
          · subst h; simp [owns, setOwn, upd]
          · simp [owns, setOwn, upd, h]
      rw [e]; exact this
    · cases h
  | moveTo d c =>
    simp only [step] at h
    split at h
    · rename_i b k hd hc
      simp only [Out.ok.injEq] at h; subst h
      have ho : owns s (true, c) = some (b, k) := by simp [owns, hc]
      have hn : owns s (true, d) = none := by simp [owns, hd]
      have := WF.move s hs (true, c) (true, d) b k ho hn
      obtain ⟨e1, e2⟩ := moveBlock_rest s b k
      unfold Ok
      refine cast (congrArg _ ?_) this
      funext ⟨t, n⟩
      cases t
      · simp [owns, setOwn, e2]
      · by_cases h1 : n = d
        · subst h1; simp [owns, setOwn, upd]
        · by_cases h2 : n = c
          · subst h2; simp [owns, setOwn, upd, h1]
          · simp [owns, setOwn, upd, h1, h2, e1]
    · cases h
  | refView v how c =>
    simp only [step] at h
    split at h
    · rename_i p hv hc
      simp only [Out.ok.injEq] at h; subst h
      unfold Ok
      rw [owns_ref _ _ _ (by simp [owns, upd, hv])]
      exact hs
    · cases h
  | ownView v how c =>
    simp only [step] at h
    split at h
    · rename_i b k hv hc
      simp only [Out.ok.injEq] at h; subst h
      have ho : owns s (true, c) = some (b, k) := by simp [owns, hc]
      have hn : owns s (false, v) = none := by simp [owns, hv]
      have := WF.move s hs (true, c) (false, v) b k ho hn
      obtain ⟨e1, e2⟩ := moveBlock_rest s b k
      unfold Ok
      refine cast (congrArg _ ?_) this
      funext ⟨t, n⟩
      cases t
      · by_cases h1 : n = v
        · subst h1; simp [owns, setOwn, upd]
        · simp [owns, setOwn, upd, h1, e2]
      · by_cases h2 : n = c
        · subst h2; simp [owns, setOwn, upd]
        · simp [owns, setOwn, upd, h2, e1]
    · cases h
  | temp v how k xs =>
    simp only [step] at h
    split at h
    · simp only [Out.ok.injEq] at h; subst h
      unfold Ok
      rw [owns_view _ _ _ _ _ s.fresh k rfl]
      exact WF.new hs _ _ _
    · cases h
  | copyView w v =>
    simp only [step] at h
    split at h
    · rename_i x hw hv
      split at h
      · rename_i c hx
        split at h
        · cases h
        · simp only [Out.ok.injEq] at h; subst h
          unfold Ok
          rw [owns_ref _ _ _ (by simp [owns, upd, hw, hx])]
          exact hs
      · cases h
    · cases h
  | moveView w v =>
    simp only [step] at h
    split at h
    · rename_i x hw hv
      have hne : v ≠ w := by rintro rfl; rw [hw] at hv; cases hv
      split at h
      · cases h
      · split at h
        · rename_i c hx
          simp only [Out.ok.injEq] at h; subst h
          unfold Ok
          refine cast (congrArg _ ?_) hs
          funext ⟨t, n⟩
          cases t
          · by_cases h1 : n = w
            · subst h1; simp [owns, upd, hw]
            · by_cases h2 : n = v
              · subst h2; simp [owns, upd, h1, hv, hx]
              · simp [owns, upd, h1, h2]
          · simp [owns]
        · rename_i b k hx
          simp only [Out.ok.injEq] at h; subst h
          have ho : owns s (false, v) = some (b, k) := by simp [owns, hv, hx]
          have hn : owns s (false, w) = none := by simp [owns, hw]
          have := WF.move s hs (false, v) (false, w) b k ho hn
          obtain ⟨e1, e2⟩ := moveBlock_rest s b k
          unfold Ok
          refine cast (congrArg _ ?_) this
          funext ⟨t, n⟩
          cases t
          · by_cases h1 : n = w
            · subst h1; simp [owns, setOwn, upd]
            · by_cases h2 : n = v
              · subst h2; simp [owns, setOwn, upd, h1]
              · simp [owns, setOwn, upd, h1, h2, e2]
          · simp [owns, setOwn, e1]
    · cases h
  | dropView v =>
    simp only [step] at h
    split at h
    · rename_i x hv
      split at h
      · rename_i c hx
        simp only [Out.ok.injEq] at h; subst h
        unfold Ok
        rw [owns_ref _ _ _ (by simp [owns, upd, hv, hx])]
        exact hs
      · rename_i b k hx
        simp only [Out.ok.injEq] at h; subst h
        have ho : owns s (false, v) = some (b, k) := by simp [owns, hv, hx]
        have := WF.free hs _ _ _ ho
        unfold Ok
        refine cast (congrArg _ ?_) this
        funext ⟨t, n⟩
        cases t
        · by_cases h : n = v
          · subst h; simp [owns, setOwn, upd]
          · simp [owns, setOwn, upd, h]
        · simp [owns, setOwn]
    · cases h
  | each v =>
    simp only [step] at h
    obtain ⟨⟨s1, l⟩, h1, h⟩ := bind_ok h
    simp only [Out.ok.injEq] at h; subst h
    obtain ⟨w, x, hv, e⟩ := loop_shape h1
    subst e
    unfold Ok
    rw [owns_ref _ _ _ (by simp [owns, upd, hv])]
    exact hs

theorem ok_run {s s' : St α} {l : List (Cmd α)} (hs : Ok s) (h : run s l = .ok s') : Ok s' := by
  induction l generalizing s with
  | nil => simp only [run, Out.ok.injEq] at h; exact h ▸ hs
  | cons a l ih =>
    simp only [run] at h
    obtain ⟨s1, h1, h⟩ := bind_ok h
    exact ih (ok_step hs h1) h

theorem run_append {s : St α} (a b : List (Cmd α)) : run s (a ++ b) = (run s a).bind fun s' => run s' b := by
  induction a generalizing s with
  | nil => rfl
  | cons c l ih =>
    simp only [List.cons_append, run]
    cases step s c <;> simp [Out.bind, ih]

end Verif.Dangling
