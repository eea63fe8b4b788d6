import Verif.Mixed.Calm

/-! If with calls that take effect at once nothing can go on, all threads can go to sleep on the detailed objects. -/
namespace Verif.Mixed

open Verif.Channel (Op Res Act)
open Verif.Multi (Thr set MAct set_self set_other set_set)

variable {α : Type} {p : Prog α}

/-- Thread `i` is asleep in the object (channel.hpp:92,181, exchange_channel.hpp:126). -/
def sleeping (o : Obj α) (i : Nat) : Prop :=
  match o with
  | .chan s => s.pcs[i]? = some .pSleep ∨ ∃ v, s.pcs[i]? = some (.eSleep v)
  | .exch s => s.pcs[i]? = some .pSleep

/-- Nobody holds the mutex (channel.hpp:35, exchange_channel.hpp:31). -/
def Obj.free : Obj α → Prop
  | .chan s => s.owner = none
  | .exch s => s.owner = none

/-- There is no such member function (exchange_channel.hpp:28-149 has no `try_push`). -/
def refuse : OCfg → Op α → Prop
  | .exch _, .tryPush _ => True
  | _, _ => False

/-- Steps of thread `m` inside its call (of channel.hpp:58-212, exchange_channel.hpp:53-149). -/
inductive Path (cfg : OCfg) (m : Nat) : Obj α → Obj α → Prop where
  | nil {o} : Path cfg m o o
  | cons {o o1 o'} : onext cfg o (.step m none) = some o1 → doneAt o m = none → Path cfg m o1 o' → Path cfg m o o'

/-- A call that can have no effect goes to sleep. -/
theorem fall_asleep {cfg : OCfg} {n : Nat} {o : Obj α} (hr : OReach cfg n o) (hf : o.free) {m : Nat}
    (hi : phase o m = some none) {op : Op α} (hs : ∀ r q' c', ¬ OEffect cfg o.val o.closed op r q' c') (hre : ¬ refuse cfg op) :
    ∃ o0 o', onext cfg o (.call m op) = some o0 ∧ Path cfg m o0 o' ∧ o'.val = o.val ∧ o'.closed = o.closed ∧ o'.free ∧
      sleeping o' m ∧ ∀ i, i ≠ m → sleeping o i → sleeping o' i := by
  match cfg, o, hr with
  | .chan cfg, .chan ⟨q, c, w, pcs, h⟩, hr =>
    simp only [Obj.free] at hf
    subst hf
    simp only [phase, Option.map_eq_some_iff] at hi
    obtain ⟨pc, h2, h3⟩ := hi
    have : pc = .idle := by cases pc <;> simp [Multi.ph] at h3 ⊢
    subst this
    have hlen := Channel.lt_of_getElem? h2
    have hget : ∀ pc : Channel.PC α, (pcs.set m pc)[m]? = some pc := fun pc => by simp [hlen]
    have hw : Multi.would cfg.cap q c op = none := by
      cases hw : Multi.would cfg.cap q c op with
      | none => rfl
      | some x => obtain ⟨r, q', c'⟩ := x; exact absurd (.inl hw) (hs r (.queue q') c')
    have key : ∀ (sl : Channel.PC α) (h' : List (Channel.Ev α)), (sl = .pSleep ∨ ∃ v, sl = .eSleep v) →
        Path (.chan cfg) m (.chan ⟨q, c, none, pcs.set m (Channel.entry op), h ++ [.call m op]⟩) (.chan ⟨q, c, none, pcs.set m sl, h'⟩) →
        ∃ o0 o', onext (.chan cfg) (.chan ⟨q, c, none, pcs, h⟩) (.call m op) = some o0 ∧ Path (.chan cfg) m o0 o' ∧
          o'.val = (Obj.chan ⟨q, c, none, pcs, h⟩).val ∧ o'.closed = (Obj.chan ⟨q, c, none, pcs, h⟩).closed ∧ o'.free ∧
          sleeping o' m ∧ ∀ i, i ≠ m → sleeping (.chan ⟨q, c, none, pcs, h⟩) i → sleeping o' i := by
      intro sl h' hsl hp
      refine ⟨_, _, by simp [onext, Channel.next, h2, Channel.St.goto, Channel.St.log], hp, rfl, rfl, rfl, ?_, fun i hi => ?_⟩
      · simp only [sleeping, hget]
        rcases hsl with rfl | ⟨v, rfl⟩
        · exact .inl rfl
        · exact .inr ⟨v, rfl⟩
      · simp [sleeping, List.getElem?_set_ne (Ne.symm hi)]
    cases op with
    | push v =>
      simp only [Multi.would] at hw
      split at hw <;> [cases hw; skip]
      split at hw <;> [cases hw; skip]
      rename_i h1 h2
      have hc : c = false := by simpa using h1
      subst hc
      refine key (.eSleep v) (h ++ [.call m (.push v)]) (.inr ⟨v, rfl⟩) ?_
      refine .cons (o1 := .chan ⟨q, false, none, pcs.set m (.eLock v), h ++ [.call m (.push v)]⟩)
        (by simp [onext, Channel.next, hlen, Channel.entry, Channel.stepAt, Channel.St.goto])
        (by simp [doneAt, hget, Channel.entry]) ?_
      refine .cons (o1 := .chan ⟨q, false, some m, pcs.set m (.eCheck v), h ++ [.call m (.push v)]⟩)
        (by simp [onext, Channel.next, hlen, Channel.stepAt, Channel.acquire, Channel.St.goto])
        (by simp [doneAt, hget]) ?_
      exact .cons (o1 := .chan ⟨q, false, none, pcs.set m (.eSleep v), h ++ [.call m (.push v)]⟩)
        (by simp [onext, Channel.next, hlen, Channel.stepAt, Channel.release, h2, Channel.St.goto])
        (by simp [doneAt, hget]) .nil
    | tryPush v => simp only [Multi.would] at hw; split at hw <;> cases hw
    | pop =>
      cases q with
      | cons x q => simp [Multi.would] at hw
      | nil =>
        simp [Multi.would] at hw
        subst hw
        refine key .pSleep (h ++ [.call m .pop]) (.inl rfl) ?_
        refine .cons (o1 := .chan ⟨[], false, some m, pcs.set m .pCheck, h ++ [.call m .pop]⟩)
          (by simp [onext, Channel.next, hlen, Channel.entry, Channel.stepAt, Channel.acquire, Channel.St.goto])
          (by simp [doneAt, hget, Channel.entry]) ?_
        exact .cons (o1 := .chan ⟨[], false, none, pcs.set m .pSleep, h ++ [.call m .pop]⟩)
          (by simp [onext, Channel.next, hlen, Channel.stepAt, Channel.release, Channel.St.goto])
          (by simp [doneAt, hget]) .nil
    | tryPop => cases q <;> simp [Multi.would] at hw
    | close => simp [Multi.would] at hw
    | isClosed => simp [Multi.would] at hw
  | .exch cfg, .exch ⟨q, c, w, pcs, h⟩, hr =>
    simp only [Obj.free] at hf
    subst hf
    simp only [phase, Option.map_eq_some_iff] at hi
    obtain ⟨pc, h2, h3⟩ := hi
    have : pc = .idle := by cases pc <;> simp [MultiX.ph] at h3 ⊢
    subst this
    have hlen := Channel.lt_of_getElem? h2
    have hget : ∀ pc : Exchange.PC α, (pcs.set m pc)[m]? = some pc := fun pc => by simp [hlen]
    have hw : MultiX.would q c op = none := by
      cases hw : MultiX.would q c op with
      | none => rfl
      | some x => obtain ⟨r, q', c'⟩ := x; exact absurd (.inl hw) (hs r (.slot q') c')
    cases op with
    | push v => simp only [MultiX.would] at hw; split at hw <;> cases hw
    | tryPush v => simp [refuse] at hre
    | pop =>
      cases q with
      | some x => simp [MultiX.would] at hw
      | none =>
        simp [MultiX.would] at hw
        subst hw
        refine ⟨.exch ⟨none, false, none, pcs.set m .pLock, h ++ [.call m .pop]⟩,
          .exch ⟨none, false, none, pcs.set m .pSleep, h ++ [.call m .pop]⟩,
          by simp [onext, Exchange.next, h2, Exchange.entry, Exchange.St.goto, Exchange.St.log], ?_, rfl, rfl, rfl, hget _, fun i hi => ?_⟩
        · refine .cons (o1 := .exch ⟨none, false, some m, pcs.set m .pCheck, h ++ [.call m .pop]⟩)
            (by simp [onext, Exchange.next, hlen, Exchange.stepAt, Exchange.acquire, Exchange.St.goto])
            (by simp [doneAt, hget]) ?_
          exact .cons (o1 := .exch ⟨none, false, none, pcs.set m .pSleep, h ++ [.call m .pop]⟩)
            (by simp [onext, Exchange.next, hlen, Exchange.stepAt, Exchange.release, Exchange.St.goto])
            (by simp [doneAt, hget]) .nil
        · simp [sleeping, List.getElem?_set_ne (Ne.symm hi)]
    | tryPop => simp [MultiX.would] at hw
    | close => simp [MultiX.would] at hw
    | isClosed => simp [MultiX.would] at hw

/-- The first `m` threads are asleep (channel.hpp:92,181, exchange_channel.hpp:126), or have nothing left to do. -/
structure Doze (p : Prog α) (A : ASys α) (m : Nat) (s : Sys α) : Prop where
  reach : Reach p s
  obj : ∀ k, (s.obj k).val = A.val k ∧ (s.obj k).closed = A.closed k ∧ (s.obj k).free
  res : ∀ i, (s.thr i).res = A.res i
  out : ∀ i, m ≤ i → (s.thr i).inside = false
  down : ∀ i, i < m → ∀ k op, p.code i (A.res i) = some (k, op) → (refuse (p.cfg k) op ∧ (s.thr i).inside = false) ∨
    ((s.thr i).inside = true ∧ sleeping (s.obj k) i)

theorem path_reach {m k : Nat} {op : Op α} {R : List (Res α)} (hcode : p.code m R = some (k, op)) {o o' : Obj α}
    (hp : Path (p.cfg k) m o o') : ∀ {s : Sys α}, Reach p s → s.thr m = ⟨R, true⟩ → s.obj k = o →
      Reach p { s with obj := set s.obj k o' } := by
  induction hp with
  | nil => rintro s hr - rfl; rw [Verif.Multi.set_same]; exact hr
  | @cons o o1 o' h1 h2 _ ih =>
    intro s hr ht ho
    have hst : step p s (.run m none) = some { s with obj := set s.obj k o1 } := by
      simp only [step, Sys.run, ht, hcode, ho, h1, h2, Option.map_some]
    have := ih (reach_step hr hst) ht (set_self ..)
    simpa only [set_set] using this

theorem doze_step {A : ASys α} (hs : AStuck p A) {m : Nat} (hmn : m < p.n) {s : Sys α} (hd : Doze p A m s) :
    ∃ s', Doze p A (m + 1) s' := by
  have stay : (∀ k op, p.code m (A.res m) = some (k, op) → refuse (p.cfg k) op) → ∃ s', Doze p A (m + 1) s' := by
    intro h
    refine ⟨s, hd.reach, hd.obj, hd.res, fun i hi => hd.out i (by omega), fun i hi k op hcode => ?_⟩
    by_cases e : i = m
    · subst e; exact .inl ⟨h k op hcode, hd.out i (Nat.le_refl _)⟩
    · exact hd.down i (by omega) k op hcode
  cases hcode : p.code m (A.res m) with
  | none => exact stay (by simp [hcode])
  | some ko =>
    obtain ⟨k, op⟩ := ko
    by_cases hre : refuse (p.cfg k) op
    · refine stay (fun k' op' h => ?_)
      rw [hcode] at h; injection h with h; injection h with e1 e2; subst e1; subst e2; exact hre
    · have hinv := inv_reach hd.reach
      have hin := hd.out m (Nat.le_refl _)
      have ht : s.thr m = ⟨A.res m, false⟩ := by
        have h1 := hd.res m
        generalize s.thr m = t at hin h1; cases t; simp_all
      obtain ⟨hv, hc, hf⟩ := hd.obj k
      obtain ⟨o0, o', h1, h2, h3, h4, h5, h6, h7⟩ := fall_asleep (hinv.reach k) hf (hinv.idle k m hmn (by rw [hin]; simp)) (op := op)
        (fun r q' c' he => by rw [hv, hc] at he; exact hs _ (.call hmn hcode he)) hre
      have hb : step p s (.begin m) = some ⟨set s.obj k o0, set s.thr m ⟨A.res m, true⟩⟩ := by
        simp only [step, Sys.begin, ht, hcode, h1, Option.map_some]
      have hr := path_reach hcode h2 (reach_step hd.reach hb) (set_self ..) (set_self ..)
      simp only [set_set] at hr
      refine ⟨_, hr, fun k' => ?_, fun i => ?_, fun i hi => ?_, fun i hi k' op' hcode' => ?_⟩
      · by_cases e : k' = k
        · subst e; simp only [set_self]; exact ⟨h3.trans hv, h4.trans hc, h5⟩
        · simp only [set_other _ _ e]; exact hd.obj k'
      · by_cases e : i = m
        · subst e; simp only [set_self]
        · simp only [set_other _ _ e]; exact hd.res i
      · simp only [set_other _ _ (show i ≠ m by omega)]; exact hd.out i (by omega)
      · by_cases e : i = m
        · subst e
          rw [hcode] at hcode'; injection hcode' with h; injection h with e1 e2; subst e1; subst e2
          simp only [set_self]; exact .inr ⟨trivial, h6⟩
        · simp only [set_other _ _ e]
          rcases hd.down i (by omega) k' op' hcode' with h | ⟨ha, hsl⟩
          · exact .inl h
          · refine .inr ⟨ha, ?_⟩
            by_cases ek : k' = k
            · subst ek; simp only [set_self]; exact h7 i e hsl
            · simp only [set_other _ _ ek]; exact hsl

theorem doze_all {A : ASys α} (ha : AReach p A) (hs : AStuck p A) : ∀ m, m ≤ p.n → ∃ s, Doze p A m s
  | 0, _ => by
    obtain ⟨s, hc⟩ := calm_reach ha
    refine ⟨s, hc.reach, fun k => ?_, fun i => by rw [hc.thr i], fun i _ => by rw [hc.thr i], fun i hi => by omega⟩
    have := hc.obj k
    generalize p.cfg k = cfg at this
    generalize s.obj k = o at this ⊢
    generalize A.val k = v at this ⊢
    generalize A.closed k = c at this ⊢
    cases this <;> exact ⟨rfl, rfl, rfl⟩
  | m + 1, hm => by
    obtain ⟨s, hd⟩ := doze_all ha hs m (by omega)
    exact doze_step hs (by omega) hd

theorem sleeping_step {cfg : OCfg} {o : Obj α} {i : Nat} (h : sleeping o i) (w : Option Nat) : onext cfg o (.step i w) = none := by
  match cfg, o with
  | .chan cfg, .chan s => rcases h with h | ⟨v, h⟩ <;> simp [onext, Channel.next, h, Channel.stepAt]
  | .exch cfg, .exch s => simp only [sleeping] at h; simp [onext, Exchange.next, h, Exchange.stepAt]
  | .chan _, .exch _ => rfl
  | .exch _, .chan _ => rfl

theorem refuse_call {cfg : OCfg} {o : Obj α} {i : Nat} {op : Op α} (h : refuse cfg op) : onext cfg o (.call i op) = none := by
  match cfg, o, op, h with
  | .exch cfg, .exch s, .tryPush v, _ => simp only [onext, Exchange.next, Exchange.entry]; split <;> simp
  | .exch cfg, .chan s, .tryPush v, _ => rfl

theorem stranger_call {cfg : OCfg} {n : Nat} {o : Obj α} (hr : OReach cfg n o) {i : Nat} (hi : ¬ i < n) (op : Op α) :
    onext cfg o (.call i op) = none := by
  match cfg, o, hr with
  | .chan cfg, .chan s, hr =>
    have : s.pcs[i]? = none := by rw [List.getElem?_eq_none_iff, Channel.reachable_length hr]; omega
    simp [onext, Channel.next, this]
  | .exch cfg, .exch s, hr =>
    have : s.pcs[i]? = none := by rw [List.getElem?_eq_none_iff, Exchange.reachable_length hr]; omega
    simp [onext, Exchange.next, this]

theorem doze_stuck {A : ASys α} {s : Sys α} (hd : Doze p A p.n s) : Stuck p s := by
  intro i w
  have hres := hd.res i
  cases hcode : p.code i (A.res i) with
  | none =>
    simp only [step, Sys.begin, Sys.run, hres, hcode]
    cases (s.thr i).inside <;> exact ⟨rfl, rfl⟩
  | some ko =>
    obtain ⟨k, op⟩ := ko
    by_cases hi : i < p.n
    · rcases hd.down i hi k op hcode with ⟨h1, h2⟩ | ⟨h1, h2⟩
      · simp [step, Sys.begin, Sys.run, hres, hcode, h2, refuse_call h1]
      · simp [step, Sys.begin, Sys.run, hres, hcode, h1, sleeping_step h2]
    · simp [step, Sys.begin, Sys.run, hres, hcode, hd.out i (by omega), stranger_call ((inv_reach hd.reach).reach k) hi op]

end Verif.Mixed
