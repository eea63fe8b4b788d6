import Verif.MultiX.Sim

/-! Every execution with calls that take effect at once is an execution on the detailed channels: the calls one after the other. -/
namespace Verif.MultiX

open Verif.Exchange
open Verif.Channel (Op Res Ev Act)
open Verif.Multi (Thr set MAct set_self set_other set_same)

variable {α : Type}

/-- All threads of a channel outside, except thread `i` (states of exchange_channel.hpp:53-149). -/
def alone (n i : Nat) (pc : PC α) : List (PC α) := (List.replicate n .idle).set i pc

theorem alone_get {n i : Nat} (h : i < n) (pc : PC α) : (alone n i pc)[i]? = some pc := by simp [alone, h]
theorem alone_set {n i : Nat} (pc pc' : PC α) : (alone n i pc).set i pc' = alone n i pc' := by simp [alone]
theorem alone_idle (n i : Nat) : alone n i (.idle : PC α) = List.replicate n .idle := by
  apply List.ext_getElem? ; intro j
  simp only [alone, List.getElem?_set, List.length_replicate, List.getElem?_replicate]
  split
  · rename_i e; subst e; rfl
  · rfl
theorem alone_any {n i : Nat} {pc : PC α} (h1 : pc.asleep = false) : (alone n i pc).any PC.asleep = false := by
  rw [List.any_eq_false]
  intro x hx
  rcases List.mem_or_eq_of_mem_set hx with h | rfl
  · obtain ⟨-, rfl⟩ := List.mem_replicate.1 h; simp [PC.asleep]
  · simp [h1]
theorem alone_map {n i : Nat} {pc : PC α} {f : PC α → PC α} (h0 : f .idle = .idle) :
    (alone n i pc).map f = alone n i (f pc) := by
  simp [alone, List.map_set, List.map_replicate, h0]

/-- Thread `i` is alone in its call on channel `k`, and everything else is as in `s0` (states of exchange_channel.hpp:53-149). -/
structure At (p : Prog α) (s0 s : Sys α) (i k : Nat) (q : Option α) (c : Bool) (o : Option Nat) (pc : PC α) : Prop where
  reach : Reach p s
  me : s.thr i = ⟨(s0.thr i).res, true⟩
  chan : ∃ h, s.chan k = ⟨q, c, o, alone p.n i pc, h⟩
  chans : ∀ k', k' ≠ k → s.chan k' = s0.chan k'
  thrs : ∀ j, j ≠ i → s.thr j = s0.thr j

theorem reach_step {p : Prog α} {s s' : Sys α} {a : MAct} (h : Reach p s) (hs : step p s a = some s') : Reach p s' := by
  obtain ⟨acts, h⟩ := h
  exact ⟨acts ++ [a], by rw [exec_append, h]; simp [exec, hs]⟩

/-- There is an execution to such a state (of exchange_channel.hpp:53-149). -/
def Can (p : Prog α) (s0 : Sys α) (i k : Nat) (q : Option α) (c : Bool) (o : Option Nat) (pc : PC α) : Prop :=
  ∃ s, At p s0 s i k q c o pc

variable {p : Prog α} {s0 : Sys α} {i k : Nat} {op : Op α}

/-- One step of the thread that is alone. -/
theorem can_go (hcode : p.code i (s0.thr i).res = some (k, op)) {q q' : Option α} {c c' : Bool} {o o' : Option Nat} {pc pc' : PC α}
    (hnd : ∀ op r, pc ≠ .done op r) (a : MAct) (b : Act α) (hab : ∀ s, step p s a = s.run p i b)
    (hn : ∀ h, ∃ h', next (p.cfg k) ⟨q, c, o, alone p.n i pc, h⟩ b = some ⟨q', c', o', alone p.n i pc', h'⟩)
    (hi : i < p.n) (hc : Can p s0 i k q c o pc) : Can p s0 i k q' c' o' pc' := by
  obtain ⟨s, hr, hme, ⟨h, hch⟩, hchs, hths⟩ := hc
  obtain ⟨h', hn⟩ := hn h
  have hst : step p s a = some { s with chan := set s.chan k ⟨q', c', o', alone p.n i pc', h'⟩ } := by
    rw [hab]
    simp only [Sys.run, hme, hcode, hch, hn, Option.map_some, alone_get hi]
    split
    · rename_i op r e; injection e with e; exact absurd e (hnd op r)
    · rfl
  refine ⟨_, reach_step hr hst, hme, ⟨h', set_self ..⟩, fun k' hk => ?_, hths⟩
  simp only [set_other _ _ hk]; exact hchs k' hk

theorem can_step (hcode : p.code i (s0.thr i).res = some (k, op)) {q q' : Option α} {c c' : Bool} {o o' : Option Nat} {pc pc' : PC α}
    (hnd : ∀ op r, pc ≠ .done op r) (hi : i < p.n) (hc : Can p s0 i k q c o pc)
    (hn : ∀ h, ∃ h', stepAt ⟨q, c, o, alone p.n i pc, h⟩ i none pc = some ⟨q', c', o', alone p.n i pc', h'⟩) :
    Can p s0 i k q' c' o' pc' :=
  can_go hcode hnd (.run i none) (.step i none) (fun _ => rfl) (fun h => by simp only [next, alone_get hi]; exact hn h) hi hc

theorem can_throw (hcode : p.code i (s0.thr i).res = some (k, op)) {q q' : Option α} {c c' : Bool} {o o' : Option Nat} {pc pc' : PC α}
    (hnd : ∀ op r, pc ≠ .done op r) (hi : i < p.n) (hc : Can p s0 i k q c o pc)
    (hn : ∀ h, ∃ h', throwAt (p.cfg k) ⟨q, c, o, alone p.n i pc, h⟩ i pc = some ⟨q', c', o', alone p.n i pc', h'⟩) :
    Can p s0 i k q' c' o' pc' :=
  can_go hcode hnd (.throw i) (.throw i) (fun _ => rfl) (fun h => by simp only [next, alone_get hi]; exact hn h) hi hc

/-- The end of an insertion. -/
theorem can_send (hcode : p.code i (s0.thr i).res = some (k, op)) (hi : i < p.n) {q : Option α} {c : Bool} {o : Option Nat}
    (h : Can p s0 i k q c o (.sUnlock op)) : Can p s0 i k q c none (.done op (.bool true)) := by
  have h1 := can_step (pc' := .sNotify op) (q' := q) (c' := c) (o' := none) hcode (by simp) hi h
    (fun h => ⟨h, by simp [stepAt, release, St.goto, alone_set]⟩)
  exact can_step hcode (by simp) hi h1 (fun h => ⟨h, by
    simp only [stepAt, notifyOne, alone_any (pc := .sNotify op) rfl]; simp [St.goto, alone_set]⟩)

/-- Leaving with the mutex held. -/
theorem can_rel (hcode : p.code i (s0.thr i).res = some (k, op)) (hi : i < p.n) {q : Option α} {c : Bool} {o : Option Nat} {r : Res α}
    (h : Can p s0 i k q c o (.relRet op r)) : Can p s0 i k q c none (.done op r) :=
  can_step hcode (by simp) hi h (fun h => ⟨h, by simp [stepAt, release, St.goto, alone_set]⟩)

/-- The end of a removal. -/
theorem can_take (hcode : p.code i (s0.thr i).res = some (k, op)) (hi : i < p.n) {q : Option α} {c : Bool} {o : Option Nat} {x : α}
    (h : Can p s0 i k q c o (.rMove op x)) : Can p s0 i k q c none (.done op (.val (some x))) :=
  can_rel hcode hi (o := o) (can_step hcode (by simp) hi h (fun h => ⟨h, by simp [stepAt, St.goto, alone_set]⟩))

/-- The end of a removal whose result is lost. -/
theorem can_lose (hcode : p.code i (s0.thr i).res = some (k, op)) (hi : i < p.n) (hm : (p.cfg k).moveThrow = true) {q : Option α}
    {c : Bool} {o : Option Nat} {x : α} (h : Can p s0 i k q c o (.rMove op x)) : Can p s0 i k q c none (.done op .threw) :=
  can_rel hcode hi (o := o) (can_throw hcode (by simp) hi h (fun h => ⟨h, by simp [throwAt, hm, St.goto, alone_set]⟩))

/-- A call that is alone does what it would do at once. -/
theorem can_call (hcode : p.code i (s0.thr i).res = some (k, op)) (hi : i < p.n) {q q' : Option α} {c c' : Bool} {r : Res α}
    (he : Effect (p.cfg k) q c op r q' c') {pc : PC α} (hen : entry op = some pc) (h : Can p s0 i k q c none pc) :
    Can p s0 i k q' c' none (.done op r) := by
  cases op with
  | push v =>
    simp [entry] at hen; subst hen
    have hopen : c = false → Can p s0 i k q false (some i) (.eBody v) := by
      rintro rfl
      have h1 := can_step (pc' := .eLock v) (q' := q) (c' := false) (o' := none) hcode (by simp) hi h
        (fun h => ⟨h, by simp [stepAt, St.goto, alone_set]⟩)
      exact can_step hcode (by simp) hi h1 (fun h => ⟨h, by simp [stepAt, acquire, St.goto, alone_set]⟩)
    rcases he with he | ⟨ht, rfl, rfl, rfl, rfl, v', hv⟩ | ⟨ht, rfl, rfl, hop, x, rfl, hq⟩
    · simp only [would] at he
      split at he
      · rename_i hc; subst hc
        simp at he; obtain ⟨rfl, rfl, rfl⟩ := he
        exact can_step hcode (by simp) hi h (fun h => ⟨_, by simp [stepAt, St.goto, St.log, alone_set]; rfl⟩)
      · rename_i hc
        simp at he
        obtain ⟨rfl, rfl, rfl⟩ := he
        have hc : c = false := by simpa using hc
        subst hc
        exact can_send hcode hi (o := some i) (can_step hcode (by simp) hi (hopen rfl)
          (fun h => ⟨_, by simp [stepAt, St.goto, St.log, alone_set]; rfl⟩))
    · exact can_rel hcode hi (o := some i) (can_throw hcode (by simp) hi (hopen rfl)
        (fun h => ⟨_, by simp [throwAt, ht, St.goto, St.log, alone_set]; rfl⟩))
    · simp at hop
  | tryPush v => simp [entry] at hen
  | pop =>
    simp [entry] at hen; subst hen
    have hopen : (q ≠ none ∨ c = true) → Can p s0 i k q c (some i) .pBody := by
      intro hw
      have h2 := can_step (pc' := .pCheck) (q' := q) (c' := c) (o' := some i) hcode (by simp) hi h
        (fun h => ⟨h, by simp [stepAt, acquire, St.goto, alone_set]⟩)
      exact can_step hcode (by simp) hi h2 (fun h => ⟨h, by simp only [stepAt, if_pos hw, St.goto, alone_set]⟩)
    rcases he with he | ⟨ht, rfl, rfl, rfl, rfl, v', hv⟩ | ⟨ht, rfl, rfl, hop, x, rfl, hq⟩
    · cases q with
      | none =>
        simp only [would] at he
        split at he <;> simp at he
        rename_i hc; subst hc
        obtain ⟨rfl, rfl, rfl⟩ := he
        exact can_rel hcode hi (o := some i) (can_step hcode (by simp) hi (hopen (.inr rfl))
          (fun h => ⟨_, by simp [stepAt, St.goto, St.log, alone_set]; rfl⟩))
      | some x =>
        simp [would] at he
        obtain ⟨rfl, rfl, rfl⟩ := he
        exact can_take hcode hi (o := some i) (can_step hcode (by simp) hi (hopen (.inl (by simp)))
          (fun h => ⟨_, by simp [stepAt, St.goto, St.log, alone_set]; rfl⟩))
    · simp at hv
    · rcases hq with rfl | rfl
      · exact can_rel hcode hi (o := some i) (can_throw hcode (by simp) hi (hopen (.inl (by simp)))
          (fun h => ⟨_, by simp [throwAt, ht, St.goto, St.log, alone_set]; rfl⟩))
      · exact can_lose hcode hi ht (o := some i) (x := x) (can_step hcode (by simp) hi (hopen (.inl (by simp)))
          (fun h => ⟨_, by simp [stepAt, St.goto, St.log, alone_set]; rfl⟩))
  | tryPop =>
    simp [entry] at hen; subst hen
    have hb : Can p s0 i k q c (some i) .qBody := can_step hcode (by simp) hi h
        (fun h => ⟨h, by simp [stepAt, acquire, St.goto, alone_set]⟩)
    rcases he with he | ⟨ht, rfl, rfl, rfl, rfl, v', hv⟩ | ⟨ht, rfl, rfl, hop, x, rfl, hq⟩
    · simp [would] at he
      obtain ⟨rfl, rfl, rfl⟩ := he
      cases q with
      | none =>
        exact can_rel hcode hi (o := some i) (can_step hcode (by simp) hi hb
          (fun h => ⟨_, by simp [stepAt, St.goto, St.log, alone_set]; rfl⟩))
      | some x =>
        exact can_take hcode hi (o := some i) (can_step hcode (by simp) hi hb
          (fun h => ⟨_, by simp [stepAt, St.goto, St.log, alone_set]; rfl⟩))
    · simp at hv
    · rcases hq with rfl | rfl
      · exact can_rel hcode hi (o := some i) (can_throw hcode (by simp) hi hb
          (fun h => ⟨_, by simp [throwAt, ht, St.goto, St.log, alone_set]; rfl⟩))
      · exact can_lose hcode hi ht (o := some i) (x := x) (can_step hcode (by simp) hi hb
          (fun h => ⟨_, by simp [stepAt, St.goto, St.log, alone_set]; rfl⟩))
  | close =>
    simp [entry] at hen; subst hen
    rcases he with he | ⟨ht, rfl, rfl, rfl, rfl, v', hv⟩ | ⟨ht, rfl, rfl, hop, x, rfl, hq⟩
    · simp [would] at he
      obtain ⟨rfl, rfl, rfl⟩ := he
      have h1 := can_step (pc' := .cSet) (q' := q) (c' := c) (o' := some i) hcode (by simp) hi h
        (fun h => ⟨h, by simp [stepAt, acquire, St.goto, alone_set]⟩)
      have h2 := can_step (pc' := .cUnlock) (q' := q) (c' := true) (o' := some i) hcode (by simp) hi h1
        (fun h => ⟨_, by simp [stepAt, St.goto, St.log, alone_set]; rfl⟩)
      have h3 := can_step (pc' := .cNotify) (q' := q) (c' := true) (o' := none) hcode (by simp) hi h2
        (fun h => ⟨h, by simp [stepAt, release, St.goto, alone_set]⟩)
      exact can_step hcode (by simp) hi h3
        (fun h => ⟨h, by simp [stepAt, St.goto, alone_map (f := wake) rfl, alone_set]⟩)
    · simp at hv
    · simp at hop
  | isClosed =>
    simp [entry] at hen; subst hen
    rcases he with he | ⟨ht, rfl, rfl, rfl, rfl, v', hv⟩ | ⟨ht, rfl, rfl, hop, x, rfl, hq⟩
    · simp [would] at he
      obtain ⟨rfl, rfl, rfl⟩ := he
      exact can_step hcode (by simp) hi h (fun h => ⟨_, by simp [stepAt, St.goto, St.log, alone_set]; rfl⟩)
    · simp at hv
    · simp at hop

/-- What can take effect, can be called. -/
theorem effect_entry {cfg : Cfg} {q q' : Option α} {c c' : Bool} {op : Op α} {r : Res α} (he : Effect cfg q c op r q' c') :
    ∃ pc, entry op = some pc := by
  cases op <;> simp [entry]
  rename_i v
  simp [Effect, would] at he

/-- Nobody is in a call (of exchange_channel.hpp:53-149), and the queues and results are those of `A`. -/
structure Calm (p : Prog α) (s : Sys α) (A : ASys α) : Prop where
  reach : Reach p s
  chan : ∀ k, ∃ h, s.chan k = ⟨A.slot k, A.closed k, none, List.replicate p.n .idle, h⟩
  thr : ∀ i, s.thr i = ⟨A.res i, false⟩

theorem calm_step {A B : ASys α} {s : Sys α} (hc : Calm p s A) (h : AStep p A B) : ∃ s', Calm p s' B := by
  cases h with
  | @call i k op r q' c' hi hcode he =>
    obtain ⟨h, hch⟩ := hc.chan k
    have hthr := hc.thr i
    have hcode' : p.code i (s.thr i).res = some (k, op) := by rw [hthr]; exact hcode
    obtain ⟨pc0, hen⟩ := effect_entry he
    have hb : step p s (.begin i) = some ⟨set s.chan k ⟨A.slot k, A.closed k, none, alone p.n i pc0, h ++ [.call i op]⟩,
        set s.thr i ⟨(s.thr i).res, true⟩⟩ := by
      have hn : next (p.cfg k) (s.chan k) (.call i op) =
          some ⟨A.slot k, A.closed k, none, alone p.n i pc0, h ++ [.call i op]⟩ := by
        rw [hch]; simp [next, hi, hen, St.goto, St.log, alone, List.getElem?_replicate]
      simp only [step, Sys.begin, hthr, hcode, hn, Option.map_some]
    have h0 : Can p s i k (A.slot k) (A.closed k) none pc0 :=
      ⟨_, reach_step hc.reach hb, set_self .., ⟨_, set_self ..⟩, fun k' hk => set_other _ _ hk, fun j hj => set_other _ _ hj⟩
    obtain ⟨s1, hr, hme, ⟨h1, hch1⟩, hchs, hths⟩ := can_call hcode' hi he hen h0
    have hst : step p s1 (.run i none) = some ⟨set s1.chan k ⟨q', c', none, List.replicate p.n .idle, h1 ++ [.ret i r]⟩,
        set s1.thr i ⟨A.res i ++ [r], false⟩⟩ := by
      rw [hthr] at hme
      simp only [step, Sys.run, hme, hcode, hch1, alone_get hi, next, stepAt, Option.map_some, St.goto, St.log, alone_set,
        alone_idle]
    refine ⟨_, reach_step hr hst, fun k' => ?_, fun j => ?_⟩
    · by_cases e : k' = k
      · subst e; exact ⟨h1 ++ [.ret i r], by simp only [set_self]⟩
      · obtain ⟨h2, hch2⟩ := hc.chan k'
        exact ⟨h2, by simp only [set_other _ _ e]; rw [hchs k' e, hch2]⟩
    · by_cases e : j = i
      · subst e; simp only [set_self]
      · simp only [set_other _ _ e]; rw [hths j e, hc.thr j]

theorem calm_reach {A : ASys α} (h : AReach p A) : ∃ s, Calm p s A := by
  induction h with
  | start => exact ⟨start p, ⟨[], rfl⟩, fun k => ⟨[], rfl⟩, fun i => rfl⟩
  | step _ hs ih => obtain ⟨s, hc⟩ := ih; exact calm_step hc hs

end Verif.MultiX
