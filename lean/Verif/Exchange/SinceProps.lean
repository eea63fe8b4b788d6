import Verif.Exchange.ThrowProps
import Verif.Exchange.LiveProps

/-! C09 and C88 for element types whose operations may throw, call by call: a waiting `pop` is affected only by an
exception of another `pop` that happens while it waits. -/
namespace Verif.Exchange

open Verif.Channel (Op Res Ev Act Phase ThreadRun eventually_const getElem?_set' countP_set' le_ind lt_of_getElem?)

variable {α : Type} {cfg : Cfg} {n : Nat}

/-- What an event does to the answer of `lostB` (about exchange_channel.hpp:91, 135). -/
def lostStep (t : Nat) (b : Bool) : Ev α → Bool
  | .call u _ => if u = t then false else b
  | .lin u .pop .threw => if u = t then b else true
  | .lin _ (.push _) (.bool true) => false
  | _ => b

/-- Has a `pop` of a thread other than `t` been left by an exception of moving the value out of the slot
(exchange_channel.hpp:135) since the latest call made by `t`, and no value been pushed since? -/
def lostB (t : Nat) (h : List (Ev α)) : Bool := h.foldl (lostStep t) false

theorem lostB_append (t : Nat) (a b : List (Ev α)) : lostB t (a ++ b) = b.foldl (lostStep t) (lostB t a) :=
  List.foldl_append

theorem lostB_spec (t : Nat) : ∀ (h : List (Ev α)), lostB t h = true →
    ∃ h1 u h2, h = h1 ++ .lin u .pop .threw :: h2 ∧ u ≠ t ∧ (∀ t' v, .lin t' (.push v) (.bool true) ∉ h2) ∧
      ∀ op, .call t op ∉ h2 := by
  intro h
  induction hn : h.length generalizing h with
  | zero => rw [List.length_eq_zero_iff.1 hn]; intro hh; simp [lostB] at hh
  | succ n ih =>
    rcases List.eq_nil_or_concat h with rfl | ⟨l, e, rfl⟩
    · simp at hn
    · intro hh
      rw [List.concat_eq_append] at hh hn ⊢
      rw [lostB_append] at hh
      by_cases h1 : ∃ u, e = .lin u .pop .threw ∧ u ≠ t
      · obtain ⟨u, rfl, hu⟩ := h1
        exact ⟨l, u, [], rfl, hu, by simp, by simp⟩
      · by_cases h2 : ∃ u v, e = .lin u (.push v) (.bool true)
        · obtain ⟨u, v, rfl⟩ := h2
          simp [lostStep] at hh
        · by_cases h3 : ∃ op, e = .call t op
          · obtain ⟨op, rfl⟩ := h3
            simp [lostStep] at hh
          · have hl : lostB t l = true := by
              simp only [List.foldl_cons, List.foldl_nil] at hh
              unfold lostStep at hh
              split at hh
              · rename_i u op
                split at hh
                · rename_i hu; subst hu; exact absurd ⟨op, rfl⟩ h3
                · exact hh
              · rename_i u
                split at hh
                · exact hh
                · rename_i hu; exact absurd ⟨u, rfl, hu⟩ h1
              · rename_i u v; exact absurd ⟨u, v, rfl⟩ h2
              · exact hh
            obtain ⟨a, u, b, rfl, hu, hb, hc⟩ := ih l (by simpa using hn) hl
            refine ⟨a, u, b ++ [e], by simp, hu, fun t' v hm => ?_, fun op hm => ?_⟩
            · rcases List.mem_append.1 hm with hm | hm
              · exact hb t' v hm
              · exact h2 ⟨t', v, (List.mem_singleton.1 hm).symm⟩
            · rcases List.mem_append.1 hm with hm | hm
              · exact hc op hm
              · exact h3 ⟨op, (List.mem_singleton.1 hm).symm⟩

/-- A `pop` asleep although there is a value: a wakeup is on its way, or was lost by an exception during this `pop`
(exchange_channel.hpp:94, 126, 135). -/
def SinceInv (s : St α) : Prop := ∀ t : Nat, s.closed = false → s.pcs[t]? = some .pSleep → s.slot ≠ none →
  0 < s.pcs.countP isTok ∨ lostB t s.hist = true

theorem since_loc {u : Nat} {q c o} {pc : PC α} {q' c' o' pc' es}
    {pcs : List (PC α)} {h} (hl : Loc cfg u q c o pc q' c' o' pc' es) (hp : pcs[u]? = some pc)
    (hb : pc = .pBody → q ≠ none ∨ c = true)
    (hi : SinceInv ⟨q, c, o, pcs, h⟩) : SinceInv ⟨q', c', o', pcs.set u pc', h ++ es⟩ := by
  intro t hc ht hq
  dsimp only at hc ht hq ⊢
  have b := countP_set' (p := isTok) (x := pc') hp
  rcases getElem?_set' hp ht with ⟨rfl, e⟩ | ⟨hut, ht⟩
  · exfalso
    cases hl
    case pCheckSl hx => exact hx (.inl hq)
    case call op he => subst e; cases op <;> simp [entry] at he
    all_goals simp at e
  · have h1 := fun hcl => hi t hcl ht
    dsimp only at h1
    rw [lostB_append]
    generalize lostB t h = K at *
    generalize (pcs.set u pc').countP isTok = B at *
    generalize pcs.countP isTok = B' at *
    clear hp ht
    have hut : u ≠ t := fun h => hut h.symm
    cases hl
    case call op he =>
      cases op <;> simp [entry] at he <;> subst he <;> simp [isTok, lostStep, hut] at b ⊢ <;> grind
    all_goals simp [isTok, lostStep, hut] at b hb ⊢
    all_goals grind

theorem since_step {s s' : St α} (hb : BodyInv s) (hi : SinceInv s) (h : Step cfg s s') : SinceInv s' := by
  cases h with
  | loc hp hl => exact since_loc hl hp (fun h => hb _ (h ▸ hp)) hi
  | @one0 u op hp hn =>
    intro t hc ht hq
    dsimp only at hc ht hq ⊢
    rcases getElem?_set' hp ht with ⟨rfl, e⟩ | ⟨_, ht⟩
    · cases e
    · exact absurd rfl (hn _ (List.mem_of_getElem? ht))
  | @one1 u op i hp hs =>
    intro t hc ht hq
    have hne : i ≠ u := by rintro rfl; rw [hp] at hs; cases hs
    left
    refine countP_pos_of (i := i) (pc := .pLock) ?_ rfl
    dsimp only
    rw [List.getElem?_set_ne (Ne.symm hne), List.getElem?_set_self (lt_of_getElem? hs)]
  | @all u hp =>
    intro t hc ht hq
    dsimp only at hc ht hq ⊢
    have hp' : (s.pcs.map wake)[u]? = some .cNotify := by rw [List.getElem?_map, hp]; rfl
    rcases getElem?_set' hp' ht with ⟨rfl, e⟩ | ⟨_, ht⟩
    · cases e
    rw [List.getElem?_map, Option.map_eq_some_iff] at ht
    obtain ⟨a, _, h⟩ := ht
    cases a <;> simp [wake] at h

theorem since_reach {s : St α} (h : Reachable cfg n s) : SinceInv s :=
  (reach_ind (P := fun s => (LockInv s ∧ BodyInv s) ∧ SinceInv s)
    ⟨lockBody_reach ⟨[], rfl⟩ (cfg := cfg), by
      intro t _ ht; exact absurd (List.eq_of_mem_replicate (List.mem_of_getElem? ht)) (by simp)⟩
    (fun _ _ hp hs => ⟨⟨lockInv_step hp.1.1 hs, bodyInv_step hp.1.1 hp.1.2 hs⟩, since_step hp.1.2 hp.2 hs⟩) h).2

/-- C09, for any element type. When no thread can take a step, every call that has not returned is a `pop` on a channel
that is not closed. Either the channel is empty, or since this `pop` was called and since the last successful push a
`pop` of another thread was left by an exception. In particular exceptions before a call cannot block it. -/
theorem exchange_blocked_since {s : St α} (h : Reachable cfg n s) (hq : Quiescent cfg s) {t : Nat} (ht : t < n) :
    ThreadRun cfg.moveThrow t s.hist .idle ∨
    (ThreadRun cfg.moveThrow t s.hist (.called .pop) ∧ (∀ t' r, .lin t' .close r ∉ s.hist) ∧
      (Explains s.hist (none, false) ∨
        ∃ h1 u h2, s.hist = h1 ++ .lin u .pop .threw :: h2 ∧ u ≠ t ∧ (∀ t' v, .lin t' (.push v) (.bool true) ∉ h2) ∧
          ∀ op, .call t op ∉ h2)) := by
  have hlt : t < s.pcs.length := by rw [reachable_length h]; exact ht
  have hp : s.pcs[t]? = some s.pcs[t] := List.getElem?_eq_getElem hlt
  obtain ⟨p, hph, hrun⟩ := runInv_reach h t _ hp
  have he := explains_reach h
  have hl := lockInv_reach h
  generalize s.pcs[t] = pc at hp hph
  rcases quiescent_pc hl hq hp with rfl | rfl
  · cases hph; exact .inl hrun
  · cases hph
    have hz : ∀ p : PC α → Bool, p .idle = false → p .pSleep = false → s.pcs.countP p = 0 := by
      intro p h1 h2
      rw [List.countP_eq_zero]
      intro pc hpc
      obtain ⟨i, hi⟩ := List.mem_iff_getElem?.mp hpc
      rcases quiescent_pc hl hq hi with rfl | rfl <;> simp [*]
    cases hc : s.closed with
    | true =>
      have := (lost_reach h).2 hc (countP_pos_of hp rfl)
      rw [hz isCl rfl rfl] at this; omega
    | false =>
      refine .inr ⟨hrun, ?_, ?_⟩
      · intro t' r hmem
        have := he.closed_of_mem hmem
        rw [hc] at this; cases this
      · cases hsl : s.slot with
        | none => rw [hsl, hc] at he; exact .inl he
        | some v =>
          have := since_reach h t hc hp (by simp [hsl])
          rw [hz isTok rfl rfl] at this
          exact .inr (lostB_spec _ _ (this.resolve_left (by omega)))

/-- Thread 1 asleep although 7 is in the slot: the pop of thread 0 threw while thread 1 was asleep. -/
example : ∃ s : St Nat, Reachable { moveThrow := true } 3 s ∧ s.slot = some 7 ∧
    (ThreadRun true 1 s.hist .idle ∨ (ThreadRun true 1 s.hist (.called .pop) ∧ (∀ t' r, .lin t' .close r ∉ s.hist) ∧
      (Explains s.hist (none, false) ∨
        ∃ h1 u h2, s.hist = h1 ++ .lin u .pop .threw :: h2 ∧ u ≠ 1 ∧ (∀ t' v, .lin t' (.push v) (.bool true) ∉ h2) ∧
          ∀ op, .call 1 op ∉ h2))) := by
  obtain ⟨s, h, hq, h7, _⟩ := exchange_no_lost_wakeup_refuted
  exact ⟨s, h, h7, exchange_blocked_since h hq (by decide)⟩

/-! ### Executions without end -/

/-- Thread 1 pushes a value, thread 0 calls `pop` (schedule of exchange_channel.hpp:79-96, 124). -/
def failPre : List (Act Nat) :=
  [.call 1 (.push 7), .step 1 none, .step 1 none, .step 1 none, .step 1 none, .step 1 none, .step 1 none, .call 0 .pop]
/-- The `pop` of thread 0 is left by an exception, thread 1 pushes again, thread 0 calls `pop` again (schedule of
exchange_channel.hpp:79-96, 124-136). -/
def failLoop : List (Act Nat) :=
  [.step 0 none, .step 0 none, .throw 0, .step 0 none, .step 0 none,
   .call 1 (.push 7), .step 1 none, .step 1 none, .step 1 none, .step 1 none, .step 1 none, .step 1 none, .call 0 .pop]
/-- The state after the prefix (about exchange_channel.hpp:79-96). -/
def fail0 : St Nat := (run { moveThrow := true } (init Nat 2) failPre).get (by decide)
/-- The state after one round (about exchange_channel.hpp:79-136). -/
def fail1 : St Nat := (run { moveThrow := true } fail0 failLoop).get (by decide)

theorem fail_pre : run { moveThrow := true } (init Nat 2) failPre = some fail0 := by decide
theorem fail_loop : run { moveThrow := true } fail0 failLoop = some fail1 := by decide
theorem fail_core : core fail1 = core fail0 := by decide

/-- A producer and a consumer that run for ever, the consumer's calls being left by exceptions
(about exchange_channel.hpp:79-136). -/
def failing : Exec { moveThrow := true } Nat 2 := lasso fail_pre fail_loop fail_core (by decide)

theorem failing_fair : failing.Fair := by
  refine lasso_fair _ _ _ _ ?_
  intro t ht
  match t, ht with
  | 0, _ => exact ⟨0, _, rfl, rfl⟩
  | 1, _ => exact ⟨6, _, rfl, rfl⟩

theorem failing_slot {j : Nat} (hj : 8 ≤ j) : (failing.st j).slot ≠ none := by
  have := lasso_always fail_pre fail_loop fail_core (by decide)
    (Q := fun x => (x.slot != none) = true) (by
      have : ∀ r < failLoop.length, ((run { moveThrow := true } fail0 (failLoop.take r)).map
        (fun x => (x.slot != none))) = some true := by decide
      intro r hr x hx
      have h := this r hr
      rw [hx] at h
      exact Option.some.inj h) (i := j) hj
  exact bne_iff_ne.mp this

theorem failing_consumer : failing.SoleConsumer 0 := fun i u h => by
  rcases h with h | h
  · have := lasso_calls_mem _ _ _ _ h; simpa [failPre, failLoop] using this
  · have := lasso_calls_mem _ _ _ _ h; simp [failPre, failLoop] at this

/-- Nothing is thrown by `push` if constructing elements does not throw. -/
theorem Exec.push_threw (e : Exec cfg α n) (hct : cfg.ctorThrow = false) (j u : Nat) (v : α) :
    (e.st (j + 1)).hist ≠ (e.st j).hist ++ [.lin u (.push v) .threw] := by
  intro hh
  rcases e.cases j with h | h
  · rw [h] at hh; simp at hh
  · generalize e.st (j + 1) = s' at *
    generalize e.st j = s at *
    cases h with
    | loc hp hl =>
      dsimp only at hh
      have hes := List.append_cancel_left hh
      generalize s.slot = q0, s.closed = c0, s.owner = o0 at hl
      cases hl <;> simp at hes
      case eBodyT hx => rw [hct] at hx; cases hx
    | _ => simp at hh

/-- A consumer that goes on empties the slot or leaves by an exception. -/
theorem step_isPop_or {s s' : St α} (h : Step cfg s s') {t u : Nat} {pc pc' : PC α} (hut : u ≠ t)
    (hp : s.pcs[u]? = some pc) (hi : isPop pc = true) (hp' : s'.pcs[u]? = some pc') (hi' : isPop pc' = false)
    (hq : s.slot ≠ none) : s'.slot = none ∨ lostB t s'.hist = true := by
  rcases step_thread h hp with h1 | ⟨rfl, h1⟩ | ⟨q', c', o', pc', es, hl, rfl, h1⟩ | ⟨op, rfl, h1, _⟩ | ⟨rfl, h1, _⟩
  · rw [hp'] at h1; injection h1 with h1; subst h1; rw [hi] at hi'; cases hi'
  · simp [isPop] at hi
  · rw [hp'] at h1; injection h1 with h1; subst h1
    dsimp only
    rw [lostB_append]
    generalize s.slot = q at *
    generalize s.closed = c at *
    generalize s.owner = o0 at hl
    cases hl <;> first | (simp [isPop] at hi; done) | (simp [isPop] at hi'; done) | skip
    case pCheckSl hx => exact absurd (.inl hq) hx
    case pBodyN => exact .inl rfl
    case pBodyS => exact .inl rfl
    case pBodyT hx => right; simp [lostStep, hut]
  all_goals simp [isPop] at hi

/-- A pop does not sleep for ever while there always is a value and no other pop is left by an exception. -/
theorem Exec.avail_wakes_since (e : Exec cfg α n) (hf : e.Fair) {M t : Nat} (ht : t < n)
    (hs : ∀ j, M ≤ j → e.pc j t = .pSleep)
    (hq : ∀ j, M ≤ j → (e.st j).slot ≠ none ∧ lostB t (e.st j).hist = false) : False := by
  have hopen : ∀ j, M ≤ j → (e.st j).closed = false := by
    intro j hj
    cases hc : (e.st j).closed with
    | false => rfl
    | true => exact (e.closed_wakes hf ht (fun k hk => hs k (by omega)) hc).elim
  obtain ⟨M1, hM1, hconst⟩ := eventually_const (f := fun j => (e.st j).pcs.countP PC.asleep) (N := M) (by
    intro j hj
    rcases e.cases j with h | h
    · rw [h]; exact Nat.le_refl _
    · exact step_asleep h (.inl (hq j hj).1))
  have hnt : ∀ j, M1 ≤ j → ∀ u, u < n → isNt (e.pc j u) = false := by
    intro j hj u hu
    cases hx : isNt (e.pc j u) with
    | false => rfl
    | true =>
      obtain ⟨k, hk, hst, h1, h2⟩ := e.passes hf Exec.nt_active hu hx
      rcases step_nt hst (e.pc_eq hu) h1 (e.pc_eq hu) h2 with h3 | h3
      · exact absurd (hs k (by omega)) (h3 _ (List.mem_of_getElem? (e.pc_eq ht)))
      · have a := hconst k (by omega)
        have b := hconst (k + 1) (by omega)
        omega
  have hw := since_reach (e.reach M1) t (hopen M1 hM1) (by rw [e.pc_eq ht, hs M1 hM1]) (hq M1 hM1).1
  obtain ⟨u, hu, htok⟩ := e.find_pc (hw.resolve_right (by rw [(hq M1 hM1).2]; simp))
  have hpop : isPop (e.pc M1 u) = true := by
    have := hnt M1 (Nat.le_refl _) u hu
    revert this htok
    generalize e.pc M1 u = p
    cases p <;> simp [isTok, isNt, isPop]
  obtain ⟨k, hk, hst, h1, h2⟩ := e.passes hf Exec.pop_active hu hpop
  have hut : u ≠ t := by rintro rfl; rw [hs k (by omega)] at h1; simp [isPop] at h1
  have h3 := hq (k + 1) (by omega)
  rcases step_isPop_or hst hut (e.pc_eq hu) h1 (e.pc_eq hu) h2 (hq k (by omega)).1 with h4 | h4
  · exact h3.1 h4
  · rw [h3.2] at h4; cases h4

/-- C88, for any element type. A `pop` returns if from some instant on there always is a value in the channel that was
pushed after the last exception that left a `pop` of another thread during this call. For element types that do not throw
this is `exchange_pop_returns_partial`. What is missing: `exchange_pop_starves_refuted`; and
`exchange_no_lost_wakeup_refuted` shows that the exceptions matter. -/
theorem exchange_pop_returns_since_partial (e : Exec cfg α n) (hf : e.Fair) {i t : Nat} (hc : e.Calls i t .pop) {M : Nat}
    (ha : ∀ j, M ≤ j → e.Avail j ∧ lostB t (e.st j).hist = false) : ∃ j r, i < j ∧ e.Returns j t r := by
  apply Classical.byContradiction
  intro hno
  obtain ⟨ht, hp⟩ := e.of_calls hc
  have hno' : ¬ ∃ k r, i + 1 ≤ k ∧ e.Returns k t r := fun ⟨k, r, h1, h2⟩ => hno ⟨k, r, by omega, h2⟩
  have hq : ∀ j, max M (i + 1) ≤ j → (e.st j).slot ≠ none ∧ lostB t (e.st j).hist = false := fun j hj =>
    ⟨(e.avail_iff j).mp (ha j (by omega)).1, (ha j (by omega)).2⟩
  have hw := e.waits_stays hf ht (by rw [← Option.some.inj hp]; rfl) hno'
  have hs := e.waits_asleep hf (M := max M (i + 1)) ht (fun j hj => hw j (by omega)) (fun j hj => .inl (hq j hj).1)
  exact e.avail_wakes_since hf ht hs hq

theorem step_removes_or {s s' : St α} (h : Step cfg s s') (h0 : s.slot ≠ none) (h1 : s'.slot = none) :
    (∃ u : Nat, s.pcs[u]? = some .pBody ∨ s.pcs[u]? = some .qBody) ∨
    ∃ (u : Nat) (v : α), s'.hist = s.hist ++ [.lin u (.push v) .threw] := by
  cases h with
  | loc hp hl =>
    rename_i t pc q' c' o' pc' es
    dsimp only at h1 ⊢
    generalize s.slot = q0, s.closed = c0, s.owner = o0 at hl h0
    cases hl <;> first
      | exact .inl ⟨t, .inl hp⟩
      | exact .inl ⟨t, .inr hp⟩
      | exact absurd h1 h0
      | (simp at h1; done)
      | exact .inr ⟨t, _, rfl⟩
  | _ => exact absurd h1 h0

theorem Exec.sole_avail_since (e : Exec cfg α n) {t M : Nat} (hs : e.SoleConsumer t)
    (hn : ∀ j, M ≤ j → ∀ u v, (e.st (j + 1)).hist ≠ (e.st j).hist ++ [.lin u (.push v) .threw])
    (hw : ∀ j, M ≤ j → (e.pc j t).waits = true) (hq : (e.st M).slot ≠ none) : ∀ j, M ≤ j → (e.st j).slot ≠ none := by
  intro j hj
  induction j, hj using le_ind with
  | base => exact hq
  | succ j hj ih =>
    rcases e.cases j with h | h
    · rw [h]; exact ih
    · intro h0
      rcases step_removes_or h ih h0 with ⟨u, hu⟩ | ⟨u, v, hu⟩
      · have hc : u = t := by
          rcases hu with hu | hu
          · exact e.sole_cons hs j u (e.lt_of_pc hu) (by rw [e.pc_some hu]; rfl)
          · exact e.sole_cons hs j u (e.lt_of_pc hu) (by rw [e.pc_some hu]; rfl)
        subst hc
        have := hw j hj
        rcases hu with hu | hu <;> rw [e.pc_some hu] at this <;> simp [PC.waits] at this
      · exact hn j hj u v hu

theorem Exec.sole_lostB (e : Exec cfg α n) {t : Nat} (hs : e.SoleConsumer t) : ∀ i, lostB t (e.st i).hist = false
  | 0 => by rw [e.start]; rfl
  | i + 1 => by
    have ih := sole_lostB e hs i
    rcases e.cases i with h | h
    · rw [h]; exact ih
    · have hcons : ∀ u, (e.st i).pcs[u]? = some .pBody → u = t := fun u hu =>
        e.sole_cons hs i u (e.lt_of_pc hu) (by rw [e.pc_some hu]; rfl)
      generalize e.st (i + 1) = s' at *
      generalize e.st i = s at *
      cases h with
      | @loc u pc q' c' o' pc' es hp hl =>
        dsimp only
        rw [lostB_append, ih]
        generalize s.slot = q0, s.closed = c0, s.owner = o0 at hl
        cases hl <;> simp [lostStep]
        case pBodyT => exact hcons u hp
      | _ => exact ih

/-- C88, for any element type. The only consumer is never starved: its `pop` returns if at some instant after the call
there is a value in the channel and no later push is left by an exception, which would take the value out of the channel
again (`exchange_drop_refuted`). Exceptions of the consumer's own calls do no harm. -/
theorem exchange_sole_consumer_returns (e : Exec cfg α n) (hf : e.Fair) {i t : Nat} (hs : e.SoleConsumer t)
    (hc : e.Calls i t .pop) {M : Nat} (hM : i < M) (ha : e.Avail M)
    (hn : ∀ j, M ≤ j → ∀ u v, (e.st (j + 1)).hist ≠ (e.st j).hist ++ [.lin u (.push v) .threw]) :
    ∃ j r, i < j ∧ e.Returns j t r := by
  apply Classical.byContradiction
  intro hno
  obtain ⟨ht, hp⟩ := e.of_calls hc
  have hno' : ¬ ∃ k r, i + 1 ≤ k ∧ e.Returns k t r := fun ⟨k, r, h1, h2⟩ => hno ⟨k, r, by omega, h2⟩
  have hw := e.waits_stays hf ht (by rw [← Option.some.inj hp]; rfl) hno'
  have hq := e.sole_avail_since hs (M := M) hn (fun j hj => hw j (by omega)) ((e.avail_iff M).mp ha)
  exact hno (exchange_pop_returns_since_partial e hf hc (M := M) (fun j hj =>
    ⟨(e.avail_iff j).mpr (hq j hj), e.sole_lostB hs j⟩))

example : ∃ j r, 7 < j ∧ failing.Returns j 0 r :=
  exchange_sole_consumer_returns failing failing_fair failing_consumer (M := 8) (lasso_calls _ _ _ _ rfl) (by decide)
    ((Exec.avail_iff _ _).mpr (failing_slot (by decide))) (fun j _ => failing.push_threw rfl j)

example : ∃ j r, 7 < j ∧ failing.Returns j 0 r :=
  exchange_pop_returns_since_partial failing failing_fair (M := 8) (lasso_calls _ _ _ _ rfl) (fun j hj =>
    ⟨(Exec.avail_iff _ _).mpr (failing_slot hj), failing.sole_lostB failing_consumer j⟩)

end Verif.Exchange
