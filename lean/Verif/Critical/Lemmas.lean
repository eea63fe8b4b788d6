import Verif.Critical.Model

/-! Invariants of programs with blocks of guards: who holds what, and the serial execution behind every interleaving. -/
namespace Verif.Critical

open Verif.Guards (Kind Owns valueOf)
open Verif.Pipeline (upd)

variable {α : Type}

theorem upd_ne {β : Type} {f : Nat → β} {k j : Nat} {b : β} (h : j ≠ k) : upd f k b j = f j := by simp [upd, h]
theorem upd_eq {β : Type} {f : Nat → β} {k : Nat} {b : β} : upd f k b k = b := by simp [upd]

/-- Kinds and mutexes of guards. -/
def kinds (hs : List Held) : List (Kind × Nat) := hs.map fun h => (h.kind, h.m)

/-- The mutexes of guards. -/
def names (hs : List Held) : List Nat := hs.map (·.m)

theorem names_eq (hs : List Held) : names hs = (kinds hs).map (·.2) := by simp [names, kinds]

/-! ### Running transactions -/

/-- A transaction that locks nothing more depends only on the values behind its guards. -/
theorem runTx_frame : ∀ {c : List (Cmd α)} {M M' : Nat → α} {S : List α} {hs : List Nat}, twoPhase true c = true →
    (∀ m ∈ hs, M m = M' m) → (runTx M S hs c).2 = (runTx M' S hs c).2 ∧
      ∀ m, M m = M' m → (runTx M S hs c).1 m = (runTx M' S hs c).1 m
  | [], M, M', S, hs, _, _ => ⟨rfl, fun _ h => h⟩
  | .lock m :: c, _, _, _, _, h, _ => by simp [twoPhase] at h
  | .lockShared m :: c, _, _, _, _, h, _ => by simp [twoPhase] at h
  | .drop :: c, M, M', S, hs, h, hm =>
    runTx_frame (c := c) (by simpa [twoPhase] using h) fun m hmem => hm m (List.mem_of_mem_tail hmem)
  | .read d :: c, M, M', S, hs, h, hm => by
    have h' : twoPhase true c = true := by simpa [twoPhase] using h
    cases hd : hs[d]? with
    | none => simp only [runTx, hd]; exact runTx_frame h' hm
    | some m =>
      simp only [runTx, hd]
      rw [hm m (List.mem_of_getElem? hd)]
      exact runTx_frame h' hm
  | .write d f :: c, M, M', S, hs, h, hm => by
    have h' : twoPhase true c = true := by simpa [twoPhase] using h
    cases hd : hs[d]? with
    | none => simp only [runTx, hd]; exact runTx_frame h' hm
    | some m =>
      simp only [runTx, hd]
      have hu : ∀ x, M x = M' x → upd M m (f S) x = upd M' m (f S) x := by
        intro x hx
        by_cases e : x = m
        · subst e; rw [upd_eq, upd_eq]
        · rw [upd_ne e, upd_ne e, hx]
      have := runTx_frame (M := upd M m (f S)) (M' := upd M' m (f S)) (S := S) h' fun x hx => hu x (hm x hx)
      exact ⟨this.1, fun x hx => this.2 x (hu x hx)⟩

/-- A transaction that locks nothing more changes only what it holds exclusively. -/
theorem runTx_unchanged {n : Nat} : ∀ {c : List (Cmd α)} {M : Nat → α} {S : List α} {hk : List (Kind × Nat)} {m : Nat},
    twoPhase true c = true → wellScoped n hk c = true → (Kind.excl, m) ∉ hk → (runTx M S (hk.map (·.2)) c).1 m = M m
  | [], _, _, _, _, _, _, _ => rfl
  | .lock m :: c, _, _, _, _, h, _, _ => by simp [twoPhase] at h
  | .lockShared m :: c, _, _, _, _, h, _, _ => by simp [twoPhase] at h
  | .drop :: c, M, S, hk, m, h, hw, hn => by
    simp only [wellScoped, Bool.and_eq_true] at hw
    have := runTx_unchanged (M := M) (S := S) (c := c) (by simpa [twoPhase] using h) hw.2
      fun x => hn (List.mem_of_mem_tail x)
    rw [List.map_tail] at this
    exact this
  | .read d :: c, M, S, hk, m, h, hw, hn => by
    have h' : twoPhase true c = true := by simpa [twoPhase] using h
    simp only [wellScoped, Bool.and_eq_true] at hw
    cases hd : (hk.map (·.2))[d]? with
    | none => simp only [runTx, hd]; exact runTx_unchanged h' hw.2 hn
    | some x => simp only [runTx, hd]; exact runTx_unchanged h' hw.2 hn
  | .write d f :: c, M, S, hk, m, h, hw, hn => by
    have h' : twoPhase true c = true := by simpa [twoPhase] using h
    simp only [wellScoped, Bool.and_eq_true] at hw
    cases hd : (hk.map (·.2))[d]? with
    | none => simp only [runTx, hd]; exact runTx_unchanged h' hw.2 hn
    | some x =>
      simp only [runTx, hd]
      rw [runTx_unchanged h' hw.2 hn]
      refine upd_ne fun e => ?_
      subst e
      rw [List.getElem?_map] at hd
      cases hq : hk[d]? with
      | none => simp [hq] at hd
      | some y =>
        have h1 := hw.1
        rw [hq] at hd h1
        simp at hd h1
        obtain ⟨a, b⟩ := y
        simp at hd h1
        subst hd h1
        exact hn (List.mem_of_getElem? hq)

/-! ### Who holds what -/

/-- The threads hold exactly the guards there are, all of them distinct, and respect scopes; `C`: the values. -/
structure Base (p : Plan α) (C : Nat → α) (s : Sys α) : Prop where
  reach : Guards.Reachable p.values s.mem
  vals : ∀ m, m < p.values.length → valueOf s.mem m = some (C m)
  own : ∀ i h, h ∈ (s.thr i).held → Owns s.mem h.g h.kind h.m
  all : ∀ g k m, Owns s.mem g k m → ∃ i, ⟨k, m, g⟩ ∈ (s.thr i).held
  uniq : ∀ i j h h', h ∈ (s.thr i).held → h' ∈ (s.thr j).held → h.g = h'.g → i = j
  nodup : ∀ i, (names (s.thr i).held).Nodup
  scope : ∀ i, wellScoped p.values.length (kinds (s.thr i).held) (s.thr i).now = true
  later : ∀ i t, t ∈ (s.thr i).later → wellScoped p.values.length [] t = true
  bound : ∀ i h, h ∈ (s.thr i).held → h.m < p.values.length

/-- Nobody else holds what a thread holds exclusively. -/
def Excl (thr : Nat → Thr α) : Prop :=
  ∀ i j h h', h ∈ (thr i).held → h.kind = .excl → h' ∈ (thr j).held → h'.m = h.m → i = j

theorem Base.excl {p : Plan α} {C} {s : Sys α} (b : Base p C s) : Excl s.thr := by
  intro i j h h' hi hk hj hm
  have h1 := b.own i h hi
  rw [hk] at h1
  have h2 := b.own j h' hj
  rw [hm] at h2
  exact b.uniq i j h h' hi hj (Guards.guard_exclusive b.reach h1 h2).1

/-- What a command does to values and to its thread. -/
inductive Eff (C : Nat → α) (thr : Nat → Thr α) (i : Nat) : (Nat → α) → Thr α → Prop
  | lock (m : Nat) (c : List (Cmd α)) (g : Nat) (h : (thr i).now = .lock m :: c)
      (free : ∀ j h, h ∈ (thr j).held → h.m ≠ m) :
      Eff C thr i C { thr i with now := c, held := ⟨.excl, m, g⟩ :: (thr i).held }
  | lockShared (m : Nat) (c : List (Cmd α)) (g : Nat) (h : (thr i).now = .lockShared m :: c)
      (free : ∀ j h, h ∈ (thr j).held → h.m = m → h.kind = .shrd) :
      Eff C thr i C { thr i with now := c, held := ⟨.shrd, m, g⟩ :: (thr i).held }
  | read (d : Nat) (c : List (Cmd α)) (x : Held) (h : (thr i).now = .read d :: c) (hx : (thr i).held[d]? = some x) :
      Eff C thr i C { thr i with now := c, seen := (thr i).seen ++ [C x.m] }
  | write (d : Nat) (f : List α → α) (c : List (Cmd α)) (x : Held) (h : (thr i).now = .write d f :: c)
      (hx : (thr i).held[d]? = some x) (hk : x.kind = .excl) :
      Eff C thr i (upd C x.m (f (thr i).seen)) { thr i with now := c }
  | drop (c : List (Cmd α)) (x : Held) (hs : List Held) (h : (thr i).now = .drop :: c) (hx : (thr i).held = x :: hs) :
      Eff C thr i C { thr i with now := c, held := hs }

theorem reach_snoc {vs : List α} {s s' : Guards.St α} {o : Guards.Op α} {r} (hr : Guards.Reachable vs s)
    (h : Guards.step s o = some (s', r)) : Guards.Reachable vs s' := by
  obtain ⟨ops, ho⟩ := hr
  refine ⟨ops ++ [o], ?_⟩
  suffices ∀ (ops : List (Guards.Op α)) (a : Guards.St α), Guards.run a ops = some s →
      Guards.run a (ops ++ [o]) = some s' from this ops _ ho
  intro ops
  induction ops with
  | nil => intro a ha; simp [Guards.run] at ha; subst ha; simp [Guards.run, h]
  | cons x xs ih =>
    intro a ha
    simp only [Guards.run, List.cons_append] at ha ⊢
    cases hx : Guards.step a x with
    | none => simp [hx] at ha
    | some y => simp only [hx, Option.bind_some] at ha ⊢; exact ih _ ha

theorem length_of_owns {s : Guards.St α} {g k m} (h : Owns s g k m) : g < s.guards.length := by
  obtain ⟨x, hx, _⟩ := h
  exact Channel.lt_of_getElem? hx

theorem held_upd {thr : Nat → Thr α} {i j : Nat} {t : Thr α} {h : Held} :
    h ∈ (upd thr i t j).held ↔ (j = i ∧ h ∈ t.held) ∨ (j ≠ i ∧ h ∈ (thr j).held) := by
  by_cases e : j = i
  · subst e; rw [upd_eq]; simp
  · rw [upd_ne e]; simp [e]

/-- A new guard. -/
theorem Base.push {p : Plan α} {C} {s : Sys α} (b : Base p C s) {mem : Guards.St α} {i m : Nat} {k : Kind}
    {c : List (Cmd α)} (hr : Guards.Reachable p.values mem)
    (ho : ∀ j k' m', Owns mem j k' m' ↔ Owns s.mem j k' m' ∨ (j = s.mem.guards.length ∧ k' = k ∧ m' = m))
    (hv : ∀ m', valueOf mem m' = valueOf s.mem m')
    (hnot : ∀ h ∈ (s.thr i).held, h.m ≠ m) (hlt : m < p.values.length)
    (hsc : wellScoped p.values.length ((k, m) :: kinds (s.thr i).held) c = true) :
    Base p C ⟨mem, upd s.thr i { s.thr i with now := c, held := ⟨k, m, s.mem.guards.length⟩ :: (s.thr i).held }⟩ where
  reach := hr
  vals x hx := by rw [← b.vals x hx]; exact hv x
  own j h hh := by
    rw [held_upd] at hh
    show Owns mem _ _ _
    rw [ho]
    rcases hh with ⟨_, hh⟩ | ⟨_, hh⟩
    · rcases List.mem_cons.1 hh with e | hh
      · subst e; exact .inr ⟨rfl, rfl, rfl⟩
      · exact .inl (b.own _ _ hh)
    · exact .inl (b.own _ _ hh)
  all g k' m' h := by
    replace h : Owns mem g k' m' := h
    rw [ho] at h
    rcases h with h | ⟨rfl, rfl, rfl⟩
    · obtain ⟨j, hj⟩ := b.all g k' m' h
      refine ⟨j, held_upd.2 ?_⟩
      by_cases e : j = i
      · subst e; exact .inl ⟨rfl, List.mem_cons_of_mem _ hj⟩
      · exact .inr ⟨e, hj⟩
    · exact ⟨i, held_upd.2 (.inl ⟨rfl, List.mem_cons_self⟩)⟩
  uniq j j' h h' hh hh' e := by
    rw [held_upd] at hh hh'
    have lt : ∀ j h, h ∈ (s.thr j).held → h.g ≠ s.mem.guards.length := fun j h hh e => by
      have := length_of_owns (b.own j h hh); omega
    rcases hh with ⟨e1, hh⟩ | ⟨e1, hh⟩ <;> rcases hh' with ⟨e2, hh'⟩ | ⟨e2, hh'⟩
    · rw [e1, e2]
    · rcases List.mem_cons.1 hh with q | hh
      · subst q; exact absurd e.symm (lt _ _ hh')
      · exact absurd (b.uniq _ _ _ _ hh hh' e).symm e2
    · rcases List.mem_cons.1 hh' with q | hh'
      · subst q; exact absurd e (lt _ _ hh)
      · exact absurd (b.uniq _ _ _ _ hh hh' e) e1
    · exact b.uniq _ _ _ _ hh hh' e
  nodup j := by
    by_cases e : j = i
    · subst e
      simp only [upd_eq, names, List.map_cons, List.nodup_cons]
      refine ⟨fun hm => ?_, b.nodup j⟩
      obtain ⟨h, hh, e⟩ := List.mem_map.1 hm
      exact hnot h hh e
    · simp only [upd_ne e]; exact b.nodup j
  scope j := by
    by_cases e : j = i
    · subst e; simp only [upd_eq]; exact hsc
    · simp only [upd_ne e]; exact b.scope j
  later j t ht := by
    by_cases e : j = i
    · subst e; simp only [upd_eq] at ht; exact b.later _ _ ht
    · simp only [upd_ne e] at ht; exact b.later _ _ ht
  bound j h hh := by
    rcases held_upd.1 hh with ⟨_, hh⟩ | ⟨_, hh⟩
    · rcases List.mem_cons.1 hh with e | hh
      · subst e; exact hlt
      · exact b.bound _ _ hh
    · exact b.bound _ _ hh

/-- The end of a guard. -/
theorem Base.pop {p : Plan α} {C} {s : Sys α} (b : Base p C s) {mem : Guards.St α} {i : Nat} {x : Held} {hs : List Held}
    {c : List (Cmd α)} (hr : Guards.Reachable p.values mem) (hx : (s.thr i).held = x :: hs)
    (h1 : ∀ k m, ¬ Owns mem x.g k m) (h2 : ∀ j k m, j ≠ x.g → (Owns mem j k m ↔ Owns s.mem j k m))
    (hv : ∀ m, valueOf mem m = valueOf s.mem m) (hsc : wellScoped p.values.length (kinds hs) c = true) :
    Base p C ⟨mem, upd s.thr i { s.thr i with now := c, held := hs }⟩ := by
  have hxm : x ∈ (s.thr i).held := by rw [hx]; exact List.mem_cons_self
  have sub : ∀ h ∈ hs, h ∈ (s.thr i).held := fun h hh => by rw [hx]; exact List.mem_cons_of_mem _ hh
  have old : ∀ j h, h ∈ (upd s.thr i { s.thr i with now := c, held := hs } j).held → h ∈ (s.thr j).held := by
    intro j h hh
    rw [held_upd] at hh
    rcases hh with ⟨rfl, hh⟩ | ⟨_, hh⟩
    · exact sub h hh
    · exact hh
  have nd := b.nodup i
  rw [hx] at nd
  simp only [names, List.map_cons, List.nodup_cons] at nd
  have hne : ∀ j h, h ∈ (upd s.thr i { s.thr i with now := c, held := hs } j).held → h.g ≠ x.g := by
    intro j h hh e
    have ho := old j h hh
    have hji := b.uniq _ _ _ _ ho hxm e
    subst hji
    rw [held_upd] at hh
    rcases hh with ⟨_, hh⟩ | ⟨hn, _⟩
    · have a1 := b.own _ _ ho
      have a2 := b.own _ _ hxm
      rw [e] at a1
      obtain ⟨g1, e1, e2, e3⟩ := a1
      obtain ⟨g2, e4, e5, e6⟩ := a2
      rw [e1] at e4
      simp at e4
      subst e4
      rw [e3] at e6
      simp at e6
      exact nd.1 (List.mem_map.2 ⟨h, hh, e6⟩)
    · exact hn rfl
  refine ⟨hr, fun m hm => by rw [← b.vals m hm]; exact hv m, fun j h hh => ?_, fun g k m ho => ?_, fun j j' h h' a a' e => ?_,
    fun j => ?_, fun j => ?_, fun j t ht => ?_, fun j h hh => b.bound _ _ (old j h hh)⟩
  · exact (h2 _ _ _ (hne j h hh)).2 (b.own _ _ (old j h hh))
  · have hg : g ≠ x.g := fun e => h1 k m (e ▸ ho)
    obtain ⟨j, hj⟩ := b.all g k m ((h2 _ _ _ hg).1 ho)
    refine ⟨j, held_upd.2 ?_⟩
    by_cases e : j = i
    · subst e
      rw [hx] at hj
      rcases List.mem_cons.1 hj with e | hj
      · subst e; exact absurd rfl hg
      · exact .inl ⟨rfl, hj⟩
    · exact .inr ⟨e, hj⟩
  · exact b.uniq _ _ _ _ (old _ _ a) (old _ _ a') e
  · by_cases e : j = i
    · subst e; simp only [upd_eq]; exact nd.2
    · simp only [upd_ne e]; exact b.nodup j
  · by_cases e : j = i
    · subst e; simp only [upd_eq]; exact hsc
    · simp only [upd_ne e]; exact b.scope j
  · by_cases e : j = i
    · subst e; simp only [upd_eq] at ht; exact b.later _ _ ht
    · simp only [upd_ne e] at ht; exact b.later _ _ ht

/-- Nothing changes but the code, what was read, or values. -/
theorem Base.same {p : Plan α} {C C'} {s : Sys α} (b : Base p C s) {mem : Guards.St α} {i : Nat} {c : List (Cmd α)}
    {S : List α} (hr : Guards.Reachable p.values mem) (hg : ∀ j k m, Owns mem j k m ↔ Owns s.mem j k m)
    (hv : ∀ m, m < p.values.length → valueOf mem m = some (C' m))
    (hsc : wellScoped p.values.length (kinds (s.thr i).held) c = true) :
    Base p C' ⟨mem, upd s.thr i { s.thr i with now := c, seen := S }⟩ := by
  have hh : ∀ j, (upd s.thr i { s.thr i with now := c, seen := S } j).held = (s.thr j).held := by
    intro j
    by_cases e : j = i
    · subst e; rw [upd_eq]
    · rw [upd_ne e]
  refine ⟨hr, hv, fun j h a => ?_, fun g k m ho => ?_, fun j j' h h' a a' e => ?_, fun j => ?_, fun j => ?_, fun j t ht => ?_,
    fun j h a => b.bound _ _ (hh j ▸ a)⟩
  · exact (hg _ _ _).2 (b.own _ _ (hh j ▸ a))
  · obtain ⟨j, hj⟩ := b.all g k m ((hg _ _ _).1 ho)
    exact ⟨j, (hh j).symm ▸ hj⟩
  · exact b.uniq _ _ _ _ (hh j ▸ a) (hh j' ▸ a') e
  · show (names (upd s.thr i _ j).held).Nodup
    rw [hh j]; exact b.nodup j
  · by_cases e : j = i
    · subst e; simp only [upd_eq]; exact hsc
    · simp only [upd_ne e]; exact b.scope j
  · by_cases e : j = i
    · subst e; simp only [upd_eq] at ht; exact b.later _ _ ht
    · simp only [upd_ne e] at ht; exact b.later _ _ ht

theorem lt_of_vals {s : Guards.St α} {m : Nat} {v : α} (h : valueOf s m = some v) : m < s.locks.length := by
  simp only [valueOf, Option.map_eq_some_iff] at h
  obtain ⟨l, hl, _⟩ := h
  exact Channel.lt_of_getElem? hl

/-- Every command acts as described by `Eff`. -/
theorem exec1_eff {p : Plan α} {C} {s s' : Sys α} {i : Nat} (b : Base p C s) (h : exec1 s i = some s') :
    ∃ C' t, Eff C s.thr i C' t ∧ s'.thr = upd s.thr i t ∧ Base p C' s' := by
  have hsc := b.scope i
  unfold exec1 at h
  dsimp only at h
  split at h
  · cases h
  · rename_i m c hnow
    rw [hnow] at hsc
    simp only [wellScoped, Bool.and_eq_true, decide_eq_true_eq, Bool.not_eq_true', List.any_eq_false, beq_iff_eq] at hsc
    obtain ⟨⟨hm, hnot⟩, hw⟩ := hsc
    simp only [Option.map_eq_some_iff] at h
    obtain ⟨r, hr, rfl⟩ := h
    obtain ⟨mem, q⟩ := r
    refine ⟨C, _, .lock m c s.mem.guards.length hnow ?_, rfl, ?_⟩
    · intro j h hh e
      have := (Guards.lock_iff_free b.reach (lt_of_vals (b.vals m hm))).1 ⟨_, hr⟩ h.g h.kind
      exact this (e ▸ b.own j h hh)
    · exact b.push (reach_snoc b.reach hr) (fun j k m' => (Guards.lock_effect hr j k m').1)
        (fun m' => (Guards.lock_effect hr 0 .excl m').2)
        (fun h hh e => hnot (h.kind, h.m) (List.mem_map.2 ⟨h, hh, rfl⟩) e) hm hw
  · rename_i m c hnow
    rw [hnow] at hsc
    simp only [wellScoped, Bool.and_eq_true, decide_eq_true_eq, Bool.not_eq_true', List.any_eq_false, beq_iff_eq] at hsc
    obtain ⟨⟨hm, hnot⟩, hw⟩ := hsc
    simp only [Option.map_eq_some_iff] at h
    obtain ⟨r, hr, rfl⟩ := h
    obtain ⟨mem, q⟩ := r
    refine ⟨C, _, .lockShared m c s.mem.guards.length hnow ?_, rfl, ?_⟩
    · intro j h hh e
      have := (Guards.lock_shared_iff b.reach (lt_of_vals (b.vals m hm))).1 ⟨_, hr⟩ h.g
      have ho := b.own j h hh
      cases hk : h.kind with
      | shrd => rfl
      | excl => rw [hk, e] at ho; exact absurd ho this
    · exact b.push (reach_snoc b.reach hr) (fun j k m' => (Guards.lock_shared_effect hr j k m').1)
        (fun m' => (Guards.lock_shared_effect hr 0 .excl m').2)
        (fun h hh e => hnot (h.kind, h.m) (List.mem_map.2 ⟨h, hh, rfl⟩) e) hm hw
  · rename_i d c hnow
    rw [hnow] at hsc
    simp only [wellScoped, Bool.and_eq_true] at hsc
    split at h
    · cases h
    · rename_i x hx
      have ho := b.own i x (List.mem_of_getElem? hx)
      obtain ⟨v, hv, hst⟩ := (Guards.access_effect b.reach ho).1
      rw [hst] at h
      simp only [Option.some.injEq] at h
      subst h
      have hm : x.m < p.values.length := b.bound i x (List.mem_of_getElem? hx)
      have hvC : v = C x.m := by
        have := b.vals x.m hm; rw [hv] at this; simpa using this
      subst hvC
      exact ⟨C, _, .read d c x hnow hx, rfl, b.same b.reach (fun _ _ _ => Iff.rfl) b.vals hsc.2⟩
  · rename_i d f c hnow
    rw [hnow] at hsc
    simp only [wellScoped, Bool.and_eq_true] at hsc
    split at h
    · cases h
    · rename_i x hx
      have ho := b.own i x (List.mem_of_getElem? hx)
      have hk : x.kind = .excl := by
        have := hsc.1
        simpa [kinds, hx] using this
      have ho' := ho
      rw [hk] at ho'
      obtain ⟨mem, hst, hv1, hv2, hgs⟩ := (Guards.access_effect b.reach ho').2.1 rfl (f (s.thr i).seen)
      rw [hst] at h
      simp only [Option.map_some, Option.some.injEq] at h
      subst h
      refine ⟨_, _, .write d f c x hnow hx hk, rfl,
        b.same (S := (s.thr i).seen) (reach_snoc b.reach hst) (fun _ _ _ => by simp only [Owns, hgs]) (fun m hm => ?_) hsc.2⟩
      by_cases e : m = x.m
      · subst e; rw [upd_eq]; exact hv1
      · rw [upd_ne e, hv2 m e]; exact b.vals m hm
  · rename_i c hnow
    rw [hnow] at hsc
    simp only [wellScoped, Bool.and_eq_true] at hsc
    split at h
    · cases h
    · rename_i x hs hx
      simp only [Option.map_eq_some_iff] at h
      obtain ⟨r, hr, rfl⟩ := h
      obtain ⟨mem, q⟩ := r
      obtain ⟨h1, h2, h3⟩ := Guards.destroy_effect b.reach hr
      refine ⟨C, _, .drop c x hs hnow hx, rfl, b.pop (reach_snoc b.reach hr) hx h1 h2 h3 ?_⟩
      have := hsc.2
      rw [hx] at this
      exact this

end Verif.Critical
