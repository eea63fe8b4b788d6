import Verif.Atomic.Model

/-! Invariants of threads with guards and arbitrary programs: who holds what, and what each command does. -/
namespace Verif.Atomic

open Verif.Guards (Kind Owns valueOf)
open Verif.Pipeline (upd)

variable {α σ : Type}

theorem upd_ne {β : Type} {f : Nat → β} {k j : Nat} {b : β} (h : j ≠ k) : upd f k b j = f j := by simp [upd, h]
theorem upd_eq {β : Type} {f : Nat → β} {k : Nat} {b : β} : upd f k b k = b := by simp [upd]

/-- Kinds and mutexes of guards. -/
def kinds (hs : List Held) : List (Kind × Nat) := hs.map fun h => (h.kind, h.m)

/-- The mutexes of guards. -/
def names (hs : List Held) : List Nat := hs.map (·.m)

theorem names_eq (hs : List Held) : names hs = (kinds hs).map (·.2) := by simp [names, kinds]

theorem map_erase {β γ : Type} (f : β → γ) : ∀ (l : List β) (d : Nat), (l.eraseIdx d).map f = (l.map f).eraseIdx d
  | [], _ => rfl
  | _ :: _, 0 => rfl
  | x :: xs, d + 1 => by simp [map_erase f xs d]

theorem erase_perm {β : Type} {x : β} : ∀ {l : List β} {d : Nat}, l[d]? = some x → (x :: l.eraseIdx d).Perm l
  | y :: ys, 0, h => by simp at h; subst h; exact .refl _
  | y :: ys, d + 1, h => by
    have := erase_perm (l := ys) (d := d) (x := x) (by simpa using h)
    simpa using (List.Perm.swap y x _).trans (this.cons y)

/-! ### Running transactions -/

theorem get_map {hk : List (Kind × Nat)} {d : Nat} {k : Kind} {m : Nat} (h : hk[d]? = some (k, m)) :
    (hk.map (·.2))[d]? = some m := by simp [h]

theorem get_of_lt {hk : List (Kind × Nat)} {d : Nat} (h : d < hk.length) : ∃ k m, hk[d]? = some (k, m) :=
  ⟨hk[d].1, hk[d].2, List.getElem?_eq_getElem h⟩

/-- A transaction that locks nothing more depends only on the values behind its guards. -/
theorem runTx_frame {n : Nat} {c : Prog α σ} : ∀ {M M' : Nat → α} {o o' : List Bool} {hk : List (Kind × Nat)},
    TwoPhase true c → Scoped n hk c → (∀ m ∈ hk.map (·.2), M m = M' m) →
    (runTx M o (hk.map (·.2)) c).2 = (runTx M' o' (hk.map (·.2)) c).2 ∧
      ∀ m, M m = M' m → (runTx M o (hk.map (·.2)) c).1 m = (runTx M' o' (hk.map (·.2)) c).1 m := by
  induction c with
  | ret r => intro M M' o o' hk _ _ _; exact ⟨rfl, fun _ h => h⟩
  | lock m k ih => intro _ _ _ _ _ h; simp [TwoPhase] at h
  | lockShared m k ih => intro _ _ _ _ _ h; simp [TwoPhase] at h
  | tryLock m k ih => intro _ _ _ _ _ h; simp [TwoPhase] at h
  | tryLockShared m k ih => intro _ _ _ _ _ h; simp [TwoPhase] at h
  | read d k ih =>
    intro M M' o o' hk h hs hm
    obtain ⟨kd, m, hd⟩ := get_of_lt hs.1
    simp only [runTx, get_map hd]
    rw [hm m (List.mem_of_getElem? (get_map hd))]
    exact ih _ (h _) (hs.2 _) hm
  | write d v k ih =>
    intro M M' o o' hk h hs hm
    obtain ⟨⟨m, hd⟩, hs⟩ := hs
    simp only [runTx, get_map hd]
    have hu : ∀ x, M x = M' x → upd M m v x = upd M' m v x := by
      intro x hx
      by_cases e : x = m
      · subst e; rw [upd_eq, upd_eq]
      · rw [upd_ne e, upd_ne e, hx]
    have := ih (M := upd M m v) (M' := upd M' m v) (o := o) (o' := o') h hs fun x hx => hu x (hm x hx)
    exact ⟨this.1, fun x hx => this.2 x (hu x hx)⟩
  | drop d k ih =>
    intro M M' o o' hk h hs hm
    simp only [runTx, ← map_erase]
    refine ih h hs.2 fun m hmem => hm m ?_
    rw [map_erase] at hmem
    exact List.mem_of_mem_eraseIdx hmem

/-- A transaction that locks nothing more changes only what it holds exclusively. -/
theorem runTx_unchanged {n : Nat} {c : Prog α σ} : ∀ {M : Nat → α} {o : List Bool} {hk : List (Kind × Nat)} {m : Nat},
    TwoPhase true c → Scoped n hk c → (Kind.excl, m) ∉ hk → (runTx M o (hk.map (·.2)) c).1 m = M m := by
  induction c with
  | ret r => intro _ _ _ _ _ _ _; rfl
  | lock m k ih => intro _ _ _ _ h; simp [TwoPhase] at h
  | lockShared m k ih => intro _ _ _ _ h; simp [TwoPhase] at h
  | tryLock m k ih => intro _ _ _ _ h; simp [TwoPhase] at h
  | tryLockShared m k ih => intro _ _ _ _ h; simp [TwoPhase] at h
  | read d k ih =>
    intro M o hk m h hs hn
    obtain ⟨kd, x, hd⟩ := get_of_lt hs.1
    simp only [runTx, get_map hd]
    exact ih _ (h _) (hs.2 _) hn
  | write d v k ih =>
    intro M o hk m h hs hn
    obtain ⟨⟨x, hd⟩, hs⟩ := hs
    simp only [runTx, get_map hd]
    rw [ih h hs hn]
    exact upd_ne fun e => hn (e ▸ List.mem_of_getElem? hd)
  | drop d k ih =>
    intro M o hk m h hs hn
    simp only [runTx, ← map_erase]
    exact ih h hs.2 fun x => hn (List.mem_of_mem_eraseIdx x)

/-! ### Who holds what -/

/-- The threads hold exactly the guards there are, all of them distinct, and respect scopes; `C`: the values. -/
structure Base (p : Plan α σ) (C : Nat → α) (s : Sys α σ) : Prop where
  reach : Guards.Reachable p.values s.mem
  vals : ∀ m, m < p.values.length → valueOf s.mem m = some (C m)
  own : ∀ i h, h ∈ (s.thr i).held → Owns s.mem h.g h.kind h.m
  all : ∀ g k m, Owns s.mem g k m → ∃ i, ⟨k, m, g⟩ ∈ (s.thr i).held
  uniq : ∀ i j h h', h ∈ (s.thr i).held → h' ∈ (s.thr j).held → h.g = h'.g → i = j
  nodup : ∀ i, (names (s.thr i).held).Nodup
  scope : ∀ i, Scoped p.values.length (kinds (s.thr i).held) (s.thr i).code
  bound : ∀ i h, h ∈ (s.thr i).held → h.m < p.values.length

/-- Nobody else holds what a thread holds exclusively. -/
def Excl (thr : Nat → Thr α σ) : Prop :=
  ∀ i j h h', h ∈ (thr i).held → h.kind = .excl → h' ∈ (thr j).held → h'.m = h.m → i = j

theorem Base.excl {p : Plan α σ} {C} {s : Sys α σ} (b : Base p C s) : Excl s.thr := by
  intro i j h h' hi hk hj hm
  have h1 := b.own i h hi
  rw [hk] at h1
  have h2 := b.own j h' hj
  rw [hm] at h2
  exact b.uniq i j h h' hi hj (Guards.guard_exclusive b.reach h1 h2).1

/-- What a command does to values and to its thread; `ans`: the answer of a `try_lock`. -/
inductive Eff (C : Nat → α) (thr : Nat → Thr α σ) (i : Nat) : (Nat → α) → Thr α σ → Prop
  | push (k : Kind) (m : Nat) (c : Prog α σ) (g : Nat) (ans : List Bool)
      (hrun : ∀ N o hs, runTx N (ans ++ o) hs (thr i).code = runTx N o (m :: hs) c)
      (hph : ∀ b, TwoPhase b (thr i).code → b = false ∧ TwoPhase b c)
      (hord : ∀ hs, Ordered hs (thr i).code → Ordered (m :: hs) c)
      (free : ∀ j h, h ∈ (thr j).held → h.m = m → k = .shrd ∧ h.kind = .shrd) :
      Eff C thr i C { thr i with code := c, held := ⟨k, m, g⟩ :: (thr i).held }
  | skip (c : Prog α σ) (hrun : ∀ N o hs, runTx N (false :: o) hs (thr i).code = runTx N o hs c)
      (hph : ∀ b, TwoPhase b (thr i).code → b = false ∧ TwoPhase b c)
      (hord : ∀ hs, Ordered hs (thr i).code → Ordered hs c) :
      Eff C thr i C { thr i with code := c }
  | read (d : Nat) (k : α → Prog α σ) (x : Held) (h : (thr i).code = .read d k) (hx : (thr i).held[d]? = some x) :
      Eff C thr i C { thr i with code := k (C x.m) }
  | write (d : Nat) (v : α) (c : Prog α σ) (x : Held) (h : (thr i).code = .write d v c)
      (hx : (thr i).held[d]? = some x) (hk : x.kind = .excl) :
      Eff C thr i (upd C x.m v) { thr i with code := c }
  | drop (d : Nat) (c : Prog α σ) (x : Held) (h : (thr i).code = .drop d c) (hx : (thr i).held[d]? = some x) :
      Eff C thr i C { thr i with code := c, held := (thr i).held.eraseIdx d }

theorem reach_snoc {vs : List α} {s s' : Guards.St α} {o : Guards.Op α} {r} (hr : Guards.Reachable vs s)
    (h : Guards.step s o = some (s', r)) : Guards.Reachable vs s' := by
  obtain ⟨ops, ho⟩ := hr
  refine ⟨ops ++ [o], ?_⟩
  suffices ∀ (ops : List (Guards.Op α)) (a : Guards.St α), Guards.run a ops = some s →
      Guards.run a (ops ++ [o]) = some s' from this ops _ ho
  intro ops
  induction ops with
  | nil => intro a ha; simp [Guards.run] at ha; subst ha; simp [Guards.run, h]
  | cons x xs ih =>
    intro a ha
    simp only [Guards.run, List.cons_append] at ha ⊢
    cases hx : Guards.step a x with
    | none => simp [hx] at ha
    | some y => simp only [hx, Option.bind_some] at ha ⊢; exact ih _ ha

theorem length_of_owns {s : Guards.St α} {g k m} (h : Owns s g k m) : g < s.guards.length := by
  obtain ⟨x, hx, _⟩ := h
  exact Channel.lt_of_getElem? hx

theorem held_upd {thr : Nat → Thr α σ} {i j : Nat} {t : Thr α σ} {h : Held} :
    h ∈ (upd thr i t j).held ↔ (j = i ∧ h ∈ t.held) ∨ (j ≠ i ∧ h ∈ (thr j).held) := by
  by_cases e : j = i
  · subst e; rw [upd_eq]; simp
  · rw [upd_ne e]; simp [e]

/-- A new guard. -/
theorem Base.push {p : Plan α σ} {C} {s : Sys α σ} (b : Base p C s) {mem : Guards.St α} {i m : Nat} {k : Kind}
    {c : Prog α σ} (hr : Guards.Reachable p.values mem)
    (ho : ∀ j k' m', Owns mem j k' m' ↔ Owns s.mem j k' m' ∨ (j = s.mem.guards.length ∧ k' = k ∧ m' = m))
    (hv : ∀ m', valueOf mem m' = valueOf s.mem m')
    (hnot : ∀ h ∈ (s.thr i).held, h.m ≠ m) (hlt : m < p.values.length)
    (hsc : Scoped p.values.length ((k, m) :: kinds (s.thr i).held) c) :
    Base p C ⟨mem, upd s.thr i { s.thr i with code := c, held := ⟨k, m, s.mem.guards.length⟩ :: (s.thr i).held }⟩ where
  reach := hr
  vals x hx := by rw [← b.vals x hx]; exact hv x
  own j h hh := by
    rw [held_upd] at hh
    show Owns mem _ _ _
    rw [ho]
    rcases hh with ⟨_, hh⟩ | ⟨_, hh⟩
    · rcases List.mem_cons.1 hh with e | hh
      · subst e; exact .inr ⟨rfl, rfl, rfl⟩
      · exact .inl (b.own _ _ hh)
    · exact .inl (b.own _ _ hh)
  all g k' m' h := by
    replace h : Owns mem g k' m' := h
    rw [ho] at h
    rcases h with h | ⟨rfl, rfl, rfl⟩
    · obtain ⟨j, hj⟩ := b.all g k' m' h
      refine ⟨j, held_upd.2 ?_⟩
      by_cases e : j = i
      · subst e; exact .inl ⟨rfl, List.mem_cons_of_mem _ hj⟩
      · exact .inr ⟨e, hj⟩
    · exact ⟨i, held_upd.2 (.inl ⟨rfl, List.mem_cons_self⟩)⟩
  uniq j j' h h' hh hh' e := by
    rw [held_upd] at hh hh'
    have lt : ∀ j h, h ∈ (s.thr j).held → h.g ≠ s.mem.guards.length := fun j h hh e => by
      have := length_of_owns (b.own j h hh); omega
    rcases hh with ⟨e1, hh⟩ | ⟨e1, hh⟩ <;> rcases hh' with ⟨e2, hh'⟩ | ⟨e2, hh'⟩
    · rw [e1, e2]
    · rcases List.mem_cons.1 hh with q | hh
      · subst q; exact absurd e.symm (lt _ _ hh')
      · exact absurd (b.uniq _ _ _ _ hh hh' e).symm e2
    · rcases List.mem_cons.1 hh' with q | hh'
      · subst q; exact absurd e (lt _ _ hh)
      · exact absurd (b.uniq _ _ _ _ hh hh' e) e1
    · exact b.uniq _ _ _ _ hh hh' e
  nodup j := by
    by_cases e : j = i
    · subst e
      simp only [upd_eq, names, List.map_cons, List.nodup_cons]
      refine ⟨fun hm => ?_, b.nodup j⟩
      obtain ⟨h, hh, e⟩ := List.mem_map.1 hm
      exact hnot h hh e
    · simp only [upd_ne e]; exact b.nodup j
  scope j := by
    by_cases e : j = i
    · subst e; simp only [upd_eq]; exact hsc
    · simp only [upd_ne e]; exact b.scope j
  bound j h hh := by
    rcases held_upd.1 hh with ⟨_, hh⟩ | ⟨_, hh⟩
    · rcases List.mem_cons.1 hh with e | hh
      · subst e; exact hlt
      · exact b.bound _ _ hh
    · exact b.bound _ _ hh

/-- The end of a guard. -/
theorem Base.pop {p : Plan α σ} {C} {s : Sys α σ} (b : Base p C s) {mem : Guards.St α} {i : Nat} {x : Held} {hs : List Held}
    {c : Prog α σ} (hr : Guards.Reachable p.values mem) (hx : (x :: hs).Perm (s.thr i).held)
    (h1 : ∀ k m, ¬ Owns mem x.g k m) (h2 : ∀ j k m, j ≠ x.g → (Owns mem j k m ↔ Owns s.mem j k m))
    (hv : ∀ m, valueOf mem m = valueOf s.mem m) (hsc : Scoped p.values.length (kinds hs) c) :
    Base p C ⟨mem, upd s.thr i { s.thr i with code := c, held := hs }⟩ := by
  have hxm : x ∈ (s.thr i).held := hx.mem_iff.1 List.mem_cons_self
  have sub : ∀ h ∈ hs, h ∈ (s.thr i).held := fun h hh => hx.mem_iff.1 (List.mem_cons_of_mem _ hh)
  have old : ∀ j h, h ∈ (upd s.thr i { s.thr i with code := c, held := hs } j).held → h ∈ (s.thr j).held := by
    intro j h hh
    rw [held_upd] at hh
    rcases hh with ⟨rfl, hh⟩ | ⟨_, hh⟩
    · exact sub h hh
    · exact hh
  have nd : (names (x :: hs)).Nodup := (hx.map (fun h : Held => h.m)).nodup_iff.2 (b.nodup i)
  simp only [names, List.map_cons, List.nodup_cons] at nd
  have hne : ∀ j h, h ∈ (upd s.thr i { s.thr i with code := c, held := hs } j).held → h.g ≠ x.g := by
    intro j h hh e
    have ho := old j h hh
    have hji := b.uniq _ _ _ _ ho hxm e
    subst hji
    rw [held_upd] at hh
    rcases hh with ⟨_, hh⟩ | ⟨hn, _⟩
    · have a1 := b.own _ _ ho
      have a2 := b.own _ _ hxm
      rw [e] at a1
      obtain ⟨g1, e1, e2, e3⟩ := a1
      obtain ⟨g2, e4, e5, e6⟩ := a2
      rw [e1] at e4
      simp at e4
      subst e4
      rw [e3] at e6
      simp at e6
      exact nd.1 (List.mem_map.2 ⟨h, hh, e6⟩)
    · exact hn rfl
  refine ⟨hr, fun m hm => by rw [← b.vals m hm]; exact hv m, fun j h hh => ?_, fun g k m ho => ?_, fun j j' h h' a a' e => ?_,
    fun j => ?_, fun j => ?_, fun j h hh => b.bound _ _ (old j h hh)⟩
  · exact (h2 _ _ _ (hne j h hh)).2 (b.own _ _ (old j h hh))
  · have hg : g ≠ x.g := fun e => h1 k m (e ▸ ho)
    obtain ⟨j, hj⟩ := b.all g k m ((h2 _ _ _ hg).1 ho)
    refine ⟨j, held_upd.2 ?_⟩
    by_cases e : j = i
    · subst e
      rcases List.mem_cons.1 (hx.mem_iff.2 hj) with e | hj
      · subst e; exact absurd rfl hg
      · exact .inl ⟨rfl, hj⟩
    · exact .inr ⟨e, hj⟩
  · exact b.uniq _ _ _ _ (old _ _ a) (old _ _ a') e
  · by_cases e : j = i
    · subst e; simp only [upd_eq]; exact nd.2
    · simp only [upd_ne e]; exact b.nodup j
  · by_cases e : j = i
    · subst e; simp only [upd_eq]; exact hsc
    · simp only [upd_ne e]; exact b.scope j

/-- Nothing changes but the code, what was read, or values. -/
theorem Base.same {p : Plan α σ} {C C'} {s : Sys α σ} (b : Base p C s) {mem : Guards.St α} {i : Nat} {c : Prog α σ}
    (hr : Guards.Reachable p.values mem) (hg : ∀ j k m, Owns mem j k m ↔ Owns s.mem j k m)
    (hv : ∀ m, m < p.values.length → valueOf mem m = some (C' m))
    (hsc : Scoped p.values.length (kinds (s.thr i).held) c) :
    Base p C' ⟨mem, upd s.thr i { s.thr i with code := c }⟩ := by
  have hh : ∀ j, (upd s.thr i { s.thr i with code := c } j).held = (s.thr j).held := by
    intro j
    by_cases e : j = i
    · subst e; rw [upd_eq]
    · rw [upd_ne e]
  refine ⟨hr, hv, fun j h a => ?_, fun g k m ho => ?_, fun j j' h h' a a' e => ?_, fun j => ?_, fun j => ?_,
    fun j h a => b.bound _ _ (hh j ▸ a)⟩
  · exact (hg _ _ _).2 (b.own _ _ (hh j ▸ a))
  · obtain ⟨j, hj⟩ := b.all g k m ((hg _ _ _).1 ho)
    exact ⟨j, (hh j).symm ▸ hj⟩
  · exact b.uniq _ _ _ _ (hh j ▸ a) (hh j' ▸ a') e
  · show (names (upd s.thr i _ j).held).Nodup
    rw [hh j]; exact b.nodup j
  · by_cases e : j = i
    · subst e; simp only [upd_eq]; exact hsc
    · simp only [upd_ne e]; exact b.scope j

theorem lt_of_vals {s : Guards.St α} {m : Nat} {v : α} (h : valueOf s m = some v) : m < s.locks.length := by
  simp only [valueOf, Option.map_eq_some_iff] at h
  obtain ⟨l, hl, _⟩ := h
  exact Channel.lt_of_getElem? hl

/-- Every command acts as described by `Eff`. -/
theorem exec1_eff {p : Plan α σ} {C} {s s' : Sys α σ} {i : Nat} {sp : Bool} (b : Base p C s) (h : exec1 s i sp = some s') :
    ∃ C' t, Eff C s.thr i C' t ∧ s'.thr = upd s.thr i t ∧ Base p C' s' := by
  have hsc := b.scope i
  have pushE : ∀ {m mem} {q : Guards.Res α}, m < p.values.length → Guards.step s.mem (.lock m) = some (mem, q) →
      ∀ j h, h ∈ (s.thr j).held → h.m = m → Kind.excl = .shrd ∧ h.kind = .shrd := by
    intro m mem q hm hr j h hh e
    have := (Guards.lock_iff_free b.reach (lt_of_vals (b.vals m hm))).1 ⟨_, hr⟩ h.g h.kind
    exact absurd (e ▸ b.own j h hh) this
  have pushS : ∀ {m mem} {q : Guards.Res α}, m < p.values.length → Guards.step s.mem (.lockShared m) = some (mem, q) →
      ∀ j h, h ∈ (s.thr j).held → h.m = m → Kind.shrd = .shrd ∧ h.kind = .shrd := by
    intro m mem q hm hr j h hh e
    have := (Guards.lock_shared_iff b.reach (lt_of_vals (b.vals m hm))).1 ⟨_, hr⟩ h.g
    have ho := b.own j h hh
    cases hk : h.kind with
    | shrd => exact ⟨rfl, rfl⟩
    | excl => rw [hk, e] at ho; exact absurd ho this
  have hnot' : ∀ {m}, (∀ x ∈ kinds (s.thr i).held, x.2 ≠ m) → ∀ h ∈ (s.thr i).held, h.m ≠ m :=
    fun hn h hh e => hn (h.kind, h.m) (List.mem_map.2 ⟨h, hh, rfl⟩) e
  unfold exec1 at h
  dsimp only at h
  split at h
  · cases h
  · rename_i m c hnow
    rw [hnow] at hsc
    obtain ⟨hm, hnot, hw⟩ := hsc
    simp only [Option.map_eq_some_iff] at h
    obtain ⟨⟨mem, q⟩, hr, rfl⟩ := h
    refine ⟨C, _, .push .excl m c s.mem.guards.length [] (fun N o hs => by rw [hnow]; rfl) (fun _ hb => by rw [hnow] at hb; exact hb)
      (fun _ ho => by rw [hnow] at ho; exact ho.2) (pushE hm hr), rfl, ?_⟩
    exact b.push (reach_snoc b.reach hr) (fun j k m' => (Guards.lock_effect hr j k m').1)
        (fun m' => (Guards.lock_effect hr 0 .excl m').2) (hnot' hnot) hm hw
  · rename_i m c hnow
    rw [hnow] at hsc
    obtain ⟨hm, hnot, hw⟩ := hsc
    simp only [Option.map_eq_some_iff] at h
    obtain ⟨⟨mem, q⟩, hr, rfl⟩ := h
    refine ⟨C, _, .push .shrd m c s.mem.guards.length [] (fun N o hs => by rw [hnow]; rfl) (fun _ hb => by rw [hnow] at hb; exact hb)
      (fun _ ho => by rw [hnow] at ho; exact ho.2) (pushS hm hr), rfl, ?_⟩
    exact b.push (reach_snoc b.reach hr) (fun j k m' => (Guards.lock_shared_effect hr j k m').1)
        (fun m' => (Guards.lock_shared_effect hr 0 .excl m').2) (hnot' hnot) hm hw
  · rename_i m k hnow
    rw [hnow] at hsc
    obtain ⟨hm, hnot, hw, hw'⟩ := hsc
    obtain ⟨mem, bb, hst, _, hf, ht⟩ := Guards.try_lock_spec b.reach (lt_of_vals (b.vals m hm)) sp
    rw [hst] at h
    cases bb with
    | true =>
      simp only [Option.some.injEq] at h
      subst h
      have hr := ht rfl
      refine ⟨C, _, .push .excl m (k true) s.mem.guards.length [true] (fun N o hs => by rw [hnow]; simp [runTx])
        (fun _ hb => by rw [hnow] at hb; exact ⟨hb.1, hb.2 true⟩)
        (fun _ ho => by rw [hnow] at ho; exact ho.1) (pushE hm hr), rfl, ?_⟩
      exact b.push (reach_snoc b.reach hr) (fun j k m' => (Guards.lock_effect hr j k m').1)
          (fun m' => (Guards.lock_effect hr 0 .excl m').2) (hnot' hnot) hm hw
    | false =>
      simp only [Option.some.injEq] at h
      subst h
      have := hf rfl
      subst this
      exact ⟨C, _, .skip (k false) (fun N o hs => by rw [hnow]; simp [runTx])
        (fun _ hb => by rw [hnow] at hb; exact ⟨hb.1, hb.2 false⟩) (fun _ ho => by rw [hnow] at ho; exact ho.2), rfl,
        b.same b.reach (fun _ _ _ => Iff.rfl) b.vals hw'⟩
  · rename_i m k hnow
    rw [hnow] at hsc
    obtain ⟨hm, hnot, hw, hw'⟩ := hsc
    obtain ⟨mem, bb, hst, _, hf, ht⟩ := Guards.try_lock_shared_spec b.reach (lt_of_vals (b.vals m hm)) sp
    rw [hst] at h
    cases bb with
    | true =>
      simp only [Option.some.injEq] at h
      subst h
      have hr := ht rfl
      refine ⟨C, _, .push .shrd m (k true) s.mem.guards.length [true] (fun N o hs => by rw [hnow]; simp [runTx])
        (fun _ hb => by rw [hnow] at hb; exact ⟨hb.1, hb.2 true⟩)
        (fun _ ho => by rw [hnow] at ho; exact ho.1) (pushS hm hr), rfl, ?_⟩
      exact b.push (reach_snoc b.reach hr) (fun j k m' => (Guards.lock_shared_effect hr j k m').1)
          (fun m' => (Guards.lock_shared_effect hr 0 .excl m').2) (hnot' hnot) hm hw
    | false =>
      simp only [Option.some.injEq] at h
      subst h
      have := hf rfl
      subst this
      exact ⟨C, _, .skip (k false) (fun N o hs => by rw [hnow]; simp [runTx])
        (fun _ hb => by rw [hnow] at hb; exact ⟨hb.1, hb.2 false⟩) (fun _ ho => by rw [hnow] at ho; exact ho.2), rfl,
        b.same b.reach (fun _ _ _ => Iff.rfl) b.vals hw'⟩
  · rename_i d c hnow
    rw [hnow] at hsc
    split at h
    · cases h
    · rename_i x hx
      have ho := b.own i x (List.mem_of_getElem? hx)
      obtain ⟨v, hv, hst⟩ := (Guards.access_effect b.reach ho).1
      rw [hst] at h
      simp only [Option.some.injEq] at h
      subst h
      have hm : x.m < p.values.length := b.bound i x (List.mem_of_getElem? hx)
      have hvC : v = C x.m := by
        have := b.vals x.m hm; rw [hv] at this; simpa using this
      subst hvC
      exact ⟨C, _, .read d c x hnow hx, rfl, b.same b.reach (fun _ _ _ => Iff.rfl) b.vals (hsc.2 _)⟩
  · rename_i d v c hnow
    rw [hnow] at hsc
    split at h
    · cases h
    · rename_i x hx
      have ho := b.own i x (List.mem_of_getElem? hx)
      have hk : x.kind = .excl := by
        obtain ⟨m, hm⟩ := hsc.1
        simp [kinds, hx] at hm
        exact hm.1
      have ho' := ho
      rw [hk] at ho'
      obtain ⟨mem, hst, hv1, hv2, hgs⟩ := (Guards.access_effect b.reach ho').2.1 rfl v
      rw [hst] at h
      simp only [Option.map_some, Option.some.injEq] at h
      subst h
      refine ⟨_, _, .write d v c x hnow hx hk, rfl,
        b.same (reach_snoc b.reach hst) (fun _ _ _ => by simp only [Owns, hgs]) (fun m hm => ?_) hsc.2⟩
      by_cases e : m = x.m
      · subst e; rw [upd_eq]; exact hv1
      · rw [upd_ne e, hv2 m e]; exact b.vals m hm
  · rename_i d c hnow
    rw [hnow] at hsc
    split at h
    · cases h
    · rename_i x hx
      simp only [Option.map_eq_some_iff] at h
      obtain ⟨⟨mem, q⟩, hr, rfl⟩ := h
      obtain ⟨h1, h2, h3⟩ := Guards.destroy_effect b.reach hr
      refine ⟨C, _, .drop d c x hnow hx, rfl, b.pop (reach_snoc b.reach hr) (erase_perm hx) h1 h2 h3 ?_⟩
      have := hsc.2
      rw [kinds, ← map_erase] at this
      exact this

end Verif.Atomic
