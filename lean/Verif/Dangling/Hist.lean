import Verif.Dangling.Loops

/-! Programs with views, step by step (`Verif/Dangling/Model.lean`). -/
namespace Verif.Dangling

variable {α : Type} [DecidableEq α]

/-- What a container has in a state (argument of ranges.hpp:306). -/
def has (s : St α) (c : Nat) : Has α :=
  match s.cont c with
  | .live (b, k) => match s.mem b with
    | .elems xs _ => .elems k xs
    | .husk => .moved
    | .freed => .absent
  | _ => .absent

omit [DecidableEq α] in
theorem track_frame (old : Nat → Has α) (a : Cmd α) (c : Nat) (h : changes c a = false) : track old a c = old c := by
  cases a <;> simp only [track, changes, Bool.or_eq_false_iff, beq_eq_false_iff_ne] at h ⊢
  case moveTo d e => simp [upd, Ne.symm h.1, Ne.symm h.2]
  all_goals simp [upd, Ne.symm h]

omit [DecidableEq α] in
theorem moveBlock_heap (s : St α) (b : Nat) : moveBlock s b .heap =
    ({ s with mem := upd s.mem s.fresh (.elems [] 0), fresh := s.fresh + 1 }, b, s.fresh) := rfl

omit [DecidableEq α] in
theorem moveBlock_inline (s : St α) (b : Nat) : moveBlock s b .inline =
    ({ s with mem := upd (upd s.mem s.fresh (s.mem b)) b .husk, fresh := s.fresh + 1 }, s.fresh, b) := rfl

omit [DecidableEq α] in
/-- A container whose elements are moved away. -/
theorem has_source {s : St α} {c b : Nat} {k : Kind} (hs : Ok s) (hc : s.cont c = .live (b, k)) :
    (match (moveBlock s b k).1.mem (moveBlock s b k).2.2 with
    | .elems xs _ => Has.elems k xs
    | .husk => .moved
    | .freed => .absent) = (has s c).moveOut := by
  obtain ⟨g1, g2, g3⟩ := hs.good (true, c) b k (by simp only [owns, hc])
  have hbf : b ≠ s.fresh := by omega
  cases k
  · cases hm : s.mem b <;> simp_all [moveBlock, upd, has, Has.moveOut]
  · cases hm : s.mem b <;> simp_all [moveBlock, upd, has, Has.moveOut]

omit [DecidableEq α] in
/-- The target of a move. -/
theorem has_target {s : St α} {c b : Nat} {k : Kind} (hs : Ok s) (hc : s.cont c = .live (b, k)) :
    (match (moveBlock s b k).1.mem (moveBlock s b k).2.1 with
    | .elems xs _ => Has.elems k xs
    | .husk => .moved
    | .freed => .absent) = has s c := by
  obtain ⟨g1, g2, g3⟩ := hs.good (true, c) b k (by simp only [owns, hc])
  have hbf : b ≠ s.fresh := by omega
  have hbf' : s.fresh ≠ b := by omega
  cases k
  · cases hm : s.mem b <;> simp_all [moveBlock, upd, has]
  · cases hm : s.mem b <;> simp_all [moveBlock, upd, has]

/-- One action, seen from the containers. -/
theorem has_step {s s' : St α} {a : Cmd α} (hs : Ok s) (h : step s a = .ok s') (c : Nat) : has s' c = track (has s) a c := by
  by_cases hc : changes c a = false
  · rw [track_frame _ _ _ hc]
    obtain ⟨h1, h2⟩ := frame_cont hs h hc
    unfold has
    rw [h1]
    cases e : s.cont c with
    | live p => obtain ⟨b, k⟩ := p; dsimp only; rw [h2 b k e]
    | _ => rfl
  · simp only [Bool.not_eq_false] at hc
    cases a with
    | mk d k xs =>
      simp only [changes, beq_iff_eq] at hc; subst hc
      simp only [step] at h
      split at h
      · simp only [Out.ok.injEq] at h; subst h
        simp [has, track, upd]
      · cases h
    | assign d xs =>
      simp only [changes, beq_iff_eq] at hc; subst hc
      simp only [step] at h
      split at h
      · rename_i b k hd
        obtain ⟨g1, g2, g3⟩ := hs.good (true, d) b k (by simp only [owns, hd])
        split at h
        · rename_i ys ver hm
          cases k <;> (simp only [Out.ok.injEq] at h; subst h; simp [has, track, upd, hd, hm])
        · rename_i hm
          simp only [Out.ok.injEq] at h; subst h
          have : k = .inline := by
            cases k
            · exact absurd hm (g3 rfl)
            · rfl
          subst this
          simp [has, track, upd, hd, hm]
        · cases h
      · cases h
    | drop d =>
      simp only [changes, beq_iff_eq] at hc; subst hc
      simp only [step] at h
      split at h
      · simp only [Out.ok.injEq] at h; subst h
        simp [has, track, upd]
      · cases h
    | moveTo d e =>
      simp only [step] at h
      split at h
      · rename_i b k hd he
        have hne : e ≠ d := by rintro rfl; rw [hd] at he; cases he
        simp only [Out.ok.injEq] at h; subst h
        by_cases hcd : c = d
        · subst hcd
          have := has_target hs he
          simp only [has, track, upd, if_true]
          simp only [has] at this
          exact this
        · have hce : c = e := by
            simp only [changes, Bool.or_eq_true, beq_iff_eq] at hc
            rcases hc with hc | hc
            · exact absurd hc.symm hcd
            · exact hc.symm
          subst hce
          have := has_source hs he
          simp only [track, upd, if_neg hne, if_true]
          unfold has
          simp only [upd, if_neg hne, if_true]
          exact this
      · cases h
    | ownView v how d =>
      simp only [changes, beq_iff_eq] at hc; subst hc
      simp only [step] at h
      split at h
      · rename_i b k hv hd
        simp only [Out.ok.injEq] at h; subst h
        have := has_source hs hd
        simp only [track, upd, if_true]
        unfold has
        simp only [upd, if_true]
        exact this
      · cases h
    | _ => simp [changes] at hc

theorem has_run {s s' : St α} {l : List (Cmd α)} (hs : Ok s) (h : run s l = .ok s') : has s' = l.foldl track (has s) := by
  induction l generalizing s with
  | nil => simp only [run, Out.ok.injEq] at h; subst h; rfl
  | cons a l ih =>
    simp only [run] at h
    obtain ⟨s1, h1, h⟩ := bind_ok h
    have e : has s1 = track (has s) a := funext (has_step hs h1)
    rw [List.foldl_cons, ← e]
    exact ih (ok_step hs h1) h

theorem has_history {s : St α} {l : List (Cmd α)} (h : run start l = .ok s) : has s = history l := by
  rw [has_run ok_start h]
  rfl

/-! ### Views of lvalues -/

/-- What a loop sees if nothing is cached, or nothing can be. -/
theorem sees_ref {s : St α} {v c : Nat} {w : View α} (hs : Ok s) (hv : s.view v = .live w) (hsrc : w.src = .ref c)
    (hf : ∀ keep, w.how = .filt keep → w.hollow = false ∧ w.cache = none) : sees s v = over w.how (has s c) := by
  cases hc : s.cont c with
  | live p =>
    obtain ⟨b, k⟩ := p
    have hb : block s w.src = .ok b := by simp [block, hsrc, hc]
    obtain ⟨-, g2, -⟩ := hs.good (true, c) b k (by simp only [owns, hc])
    cases hm : s.mem b with
    | elems xs ver =>
      obtain ⟨s', h⟩ := loop_spec hv hb hm (fun keep hk => ⟨(hf keep hk).1, .inl (hf keep hk).2⟩)
      simp [sees, h, Out.bind, over, has, hc, hm]
    | husk =>
      simp only [sees, loop, begin, hv, hb, Out.bind, read, hm, over, has, hc]
      cases hh : w.how with
      | filt keep => obtain ⟨h1, h2⟩ := hf keep hh; simp [h1]
      | _ => rfl
    | freed => exact absurd hm g2
  | _ => simp [sees, loop, begin, hv, hsrc, block, hc, Out.bind, over, has]

/-- A view survives a program that neither moves from it nor destroys it. -/
theorem view_run {s s' : St α} {l : List (Cmd α)} {v : Nat} {w : View α} (hs : Ok s) (h : run s l = .ok s')
    (hk : ∀ a ∈ l, spends v a = false) (hv : s.view v = .live w) :
    ∃ x, s'.view v = .live { w with cache := x } := by
  induction l generalizing s w with
  | nil => simp only [run, Out.ok.injEq] at h; subst h; exact ⟨w.cache, hv⟩
  | cons a l ih =>
    simp only [run] at h
    obtain ⟨s1, h1, h⟩ := bind_ok h
    obtain ⟨⟨x, hx, -⟩, -⟩ := frame_view hs h1 (hk a (by simp)) hv
    obtain ⟨y, hy⟩ := ih (ok_step hs h1) h (fun b hb => hk b (by simp [hb])) hx
    exact ⟨y, hy⟩

theorem core_ref {s s' : St α} {l : List (Cmd α)} {v c : Nat} {w : View α} (hs : Ok s) (h : run s l = .ok s')
    (hk : ∀ a ∈ l, spends v a = false) (hv : s.view v = .live w) (hsrc : w.src = .ref c) (hh : ∀ keep, w.how ≠ .filt keep) :
    sees s' v = over w.how (has s' c) := by
  obtain ⟨x, hx⟩ := view_run hs h hk hv
  exact sees_ref (w := { w with cache := x }) (ok_run hs h) hx hsrc (fun keep hk => absurd hk (hh keep))

/-! ### Views that cache a position -/

/-- A loop over a view of `remove_element` whose elements are there leaves the first position in the cache. -/
theorem loop_cache {s s' : St α} {v b ver : Nat} {w : View α} {keep : α → Bool} {xs l : List α} (h : loop s v = .ok (s', l))
    (hv : s.view v = .live w) (hh : w.how = .filt keep) (hb : block s w.src = .ok b) (hm : s.mem b = .elems xs ver)
    (hc : w.cache = none ∨ w.cache = some (b, ver, seekF keep xs 0)) :
    s' = { s with view := upd s.view v (.live { w with cache := some (b, ver, seekF keep xs 0) }) } := by
  unfold loop at h
  obtain ⟨⟨s1, i⟩, h1, h⟩ := bind_ok h
  obtain ⟨ys, -, h⟩ := bind_ok h
  obtain ⟨l', -, h⟩ := bind_ok h
  simp only [Out.ok.injEq, Prod.mk.injEq] at h
  obtain ⟨rfl, -⟩ := h
  simp only [begin, hv, hb, hh, Out.bind, read, hm] at h1
  split at h1
  · cases h1
  · rcases hc with hc | hc
    · simp only [hc, Out.ok.injEq, Prod.mk.injEq] at h1
      rw [← h1.1]
      obtain ⟨how, src, cache, hollow⟩ := w
      dsimp only at hh hc
      subst hh hc
      rfl
    · simp only [hc, and_self, if_true, Out.ok.injEq, Prod.mk.injEq] at h1
      rw [← h1.1]
      have : upd s.view v (.live { w with cache := some (b, ver, seekF keep xs 0) }) = s.view := by
        funext n; unfold upd; split
        · rename_i e; subst e; rw [hv, ← hc]
        · rfl
      rw [this]

theorem fresh_mono {s s' : St α} {a : Cmd α} (h : step s a = .ok s') : s.fresh ≤ s'.fresh := by
  have mv : ∀ b k, s.fresh ≤ (moveBlock s b k).1.fresh := by intro b k; cases k <;> simp [moveBlock]
  cases a with
  | each v =>
    simp only [step] at h
    obtain ⟨⟨s1, l⟩, h1, h⟩ := bind_ok h
    simp only [Out.ok.injEq] at h; subst h
    obtain ⟨w, x, hv, e⟩ := loop_shape h1
    subst e; exact Nat.le_refl _
  | _ =>
    simp only [step] at h
    repeat' split at h
    all_goals first
      | cases h; done
      | (simp only [Out.ok.injEq] at h; subst h; first | exact Nat.le_refl _ | exact Nat.le_succ _ | exact mv _ _)

/-- A change of a vector: it is destroyed, gets another block, or another version of its block. -/
theorem change_heap {s s' : St α} {a : Cmd α} {c b ver : Nat} {xs : List α} (h : step s a = .ok s') (hc : changes c a = true)
    (hl : s.cont c = .live (b, .heap)) (hm : s.mem b = .elems xs ver) :
    s'.cont c = .dead ∨ s'.cont c = .live (s.fresh, .heap) ∨
      (s'.cont c = .live (b, .heap) ∧ ∃ ys, s'.mem b = .elems ys (ver + 1)) := by
  cases a with
  | mk d k xs =>
    simp only [changes, beq_iff_eq] at hc; subst hc
    simp [step, hl] at h
  | assign d xs =>
    simp only [changes, beq_iff_eq] at hc; subst hc
    simp only [step, hl, hm, Out.ok.injEq] at h; subst h
    exact .inr (.inr ⟨hl, xs, by simp [upd]⟩)
  | drop d =>
    simp only [changes, beq_iff_eq] at hc; subst hc
    simp only [step, hl, Out.ok.injEq] at h; subst h
    exact .inl (by simp [upd])
  | moveTo d e =>
    simp only [step] at h
    split at h
    · rename_i b' k hd he
      have hne : e ≠ d := by rintro rfl; rw [hd] at he; cases he
      have hcd : c ≠ d := by rintro rfl; rw [hd] at hl; cases hl
      have hce : e = c := by
        simp only [changes, Bool.or_eq_true, beq_iff_eq] at hc
        rcases hc with hc | hc
        · exact absurd hc.symm hcd
        · exact hc
      subst hce
      rw [hl] at he; cases he
      simp only [Out.ok.injEq] at h; subst h
      exact .inr (.inl (by simp [upd, hne, moveBlock]))
    · cases h
  | ownView v how d =>
    simp only [changes, beq_iff_eq] at hc; subst hc
    simp only [step] at h
    split at h
    · rename_i b' k hv hd
      rw [hl] at hd; cases hd
      simp only [Out.ok.injEq] at h; subst h
      exact .inr (.inl (by simp [upd, moveBlock]))
    · cases h
  | _ => simp [changes] at hc

theorem change_dead {s s' : St α} {a : Cmd α} {c : Nat} (h : step s a = .ok s') (hl : s.cont c = .dead) : changes c a = false := by
  cases a with
  | moveTo d e =>
    simp only [step] at h
    split at h
    · rename_i b' k hd he
      simp only [changes, Bool.or_eq_false_iff, beq_eq_false_iff_ne]
      constructor
      · rintro rfl; rw [hl] at hd; cases hd
      · rintro rfl; rw [hl] at he; cases he
    · cases h
  | mk d k xs =>
    simp only [changes, beq_eq_false_iff_ne]; rintro rfl
    simp [step, hl] at h
  | assign d xs =>
    simp only [changes, beq_eq_false_iff_ne]; rintro rfl
    simp [step, hl] at h
  | drop d =>
    simp only [changes, beq_eq_false_iff_ne]; rintro rfl
    simp [step, hl] at h
  | ownView v how d =>
    simp only [changes, beq_eq_false_iff_ne]; rintro rfl
    simp only [step] at h
    split at h
    · rename_i hd; rw [hl] at hd; cases hd
    · cases h
  | _ => rfl

/-- A cached position (block and version) belongs to another block or version than container `c` has now (`filter_view` behind
ranges.hpp:126). -/
def Outdated (s : St α) (c b ver : Nat) : Prop :=
  b < s.fresh ∧ (s.cont c = .dead ∨ ∃ b' xs ver', s.cont c = .live (b', .heap) ∧ s.mem b' = .elems xs ver' ∧ (b' ≠ b ∨ ver < ver'))

omit [DecidableEq α] in
theorem heap_elems {s : St α} {c b : Nat} (hs : Ok s) (h : s.cont c = .live (b, .heap)) : ∃ xs ver, s.mem b = .elems xs ver := by
  obtain ⟨-, g2, g3⟩ := hs.good (true, c) b .heap (by simp only [owns, h])
  cases hm : s.mem b with
  | elems xs ver => exact ⟨xs, ver, rfl⟩
  | husk => exact absurd hm (g3 rfl)
  | freed => exact absurd hm g2

theorem outdated_step {s s' : St α} {a : Cmd α} {c b ver : Nat} (hs : Ok s) (h : step s a = .ok s') (ho : Outdated s c b ver) :
    Outdated s' c b ver := by
  obtain ⟨h1, h2⟩ := ho
  have hf := fresh_mono h
  refine ⟨by omega, ?_⟩
  rcases h2 with h2 | ⟨b', xs, ver', h2, h3, h4⟩
  · exact .inl ((frame_cont hs h (change_dead h h2)).1.trans h2)
  · by_cases hc : changes c a = false
    · obtain ⟨f1, f2⟩ := frame_cont hs h hc
      exact .inr ⟨b', xs, ver', f1.trans h2, (f2 _ _ h2).trans h3, h4⟩
    · simp only [Bool.not_eq_false] at hc
      rcases change_heap h hc h2 h3 with e | e | ⟨e, ys, e'⟩
      · exact .inl e
      · obtain ⟨ys, v2, hm⟩ := heap_elems (ok_step hs h) e
        exact .inr ⟨_, ys, v2, e, hm, .inl (by omega)⟩
      · refine .inr ⟨_, ys, _, e, e', ?_⟩
        rcases h4 with h4 | h4
        · exact .inl h4
        · exact .inr (by omega)

theorem outdated_loop {s : St α} {v c b ver n : Nat} {w : View α} {keep : α → Bool} (hv : s.view v = .live w)
    (hsrc : w.src = .ref c) (hh : w.how = .filt keep) (hw : w.hollow = false) (hc : w.cache = some (b, ver, n))
    (ho : Outdated s c b ver) : loop s v = .ub := by
  obtain ⟨h1, h2 | ⟨b', xs, ver', h2, h3, h4⟩⟩ := ho
  · simp [loop, begin, hv, hsrc, block, h2, Out.bind]
  · have : ¬ (b = b' ∧ ver = ver') := by
      rintro ⟨rfl, rfl⟩
      rcases h4 with h4 | h4
      · exact h4 rfl
      · omega
    simp [loop, begin, hv, hsrc, block, h2, Out.bind, hh, hw, hc, read, h3, this]

/-- From an outdated cache on: undefined behaviour. -/
theorem core_outdated {s s' : St α} {l : List (Cmd α)} {v c b ver n : Nat} {w : View α} {keep : α → Bool} (hs : Ok s)
    (h : run s l = .ok s') (hk : ∀ a ∈ l, spends v a = false) (hv : s.view v = .live w) (hsrc : w.src = .ref c)
    (hh : w.how = .filt keep) (hw : w.hollow = false) (hc : w.cache = some (b, ver, n)) (ho : Outdated s c b ver) :
    sees s' v = .ub := by
  induction l generalizing s w with
  | nil =>
    simp only [run, Out.ok.injEq] at h; subst h
    simp [sees, outdated_loop hv hsrc hh hw hc ho, Out.bind]
  | cons a l ih =>
    simp only [run] at h
    obtain ⟨s1, h1, h⟩ := bind_ok h
    obtain ⟨⟨x, hx, hx'⟩, -⟩ := frame_view hs h1 (hk a (by simp)) hv
    rcases hx' with hx' | hx'
    · subst hx'
      exact ih (ok_step hs h1) h (fun b hb => hk b (by simp [hb])) hx hsrc hh hw hc (outdated_step hs h1 ho)
    · subst hx'
      simp [step, outdated_loop hv hsrc hh hw hc ho, Out.bind] at h1

/-- From a cache of the right position on. -/
theorem core_cached {s s' : St α} {l : List (Cmd α)} {v c b ver : Nat} {w : View α} {keep : α → Bool} {xs : List α} (hs : Ok s)
    (h : run s l = .ok s') (hk : ∀ a ∈ l, spends v a = false) (hv : s.view v = .live w) (hsrc : w.src = .ref c)
    (hh : w.how = .filt keep) (hw : w.hollow = false) (hc : w.cache = some (b, ver, seekF keep xs 0))
    (hl : s.cont c = .live (b, .heap)) (hm : s.mem b = .elems xs ver) :
    sees s' v = if l.any (changes c) then .ub else over (.filt keep) (has s' c) := by
  induction l generalizing s w with
  | nil =>
    simp only [run, Out.ok.injEq] at h; subst h
    obtain ⟨s2, h2⟩ := loop_spec hv (b := b) (by simp [block, hsrc, hl]) hm
      (fun kp hkp => by rw [hh] at hkp; cases hkp; exact ⟨hw, .inr hc⟩)
    rw [hh] at h2
    simp [sees, h2, Out.bind, over, has, hl, hm]
  | cons a l ih =>
    simp only [run] at h
    obtain ⟨s1, h1, h⟩ := bind_ok h
    have hsp := hk a (by simp)
    have hk' : ∀ b ∈ l, spends v b = false := fun b hb => hk b (by simp [hb])
    obtain ⟨⟨x, hx, hx'⟩, -⟩ := frame_view hs h1 hsp hv
    have hxc : x = some (b, ver, seekF keep xs 0) := by
      rcases hx' with e | e
      · rw [e, hc]
      · subst e
        simp only [step] at h1
        obtain ⟨⟨s2, l2⟩, h2, h1⟩ := bind_ok h1
        simp only [Out.ok.injEq] at h1; subst h1
        have := loop_cache h2 hv hh (b := b) (by simp [block, hsrc, hl]) hm (.inr hc)
        rw [this] at hx
        simp [upd] at hx
        exact hx.symm
    subst hxc
    by_cases hch : changes c a = false
    · obtain ⟨f1, f2⟩ := frame_cont hs h1 hch
      rw [List.any_cons, hch, Bool.false_or]
      exact ih (ok_step hs h1) h hk' hx hsrc hh hw rfl (f1.trans hl) ((f2 _ _ hl).trans hm)
    · simp only [Bool.not_eq_false] at hch
      rw [List.any_cons, hch, Bool.true_or, if_pos rfl]
      have hbf := (hs.good (true, c) b .heap (by simp only [owns, hl])).1
      have hf := fresh_mono h1
      have ho : Outdated s1 c b ver := by
        refine ⟨by omega, ?_⟩
        rcases change_heap h1 hch hl hm with e | e | ⟨e, ys, e'⟩
        · exact .inl e
        · obtain ⟨ys, v2, hm2⟩ := heap_elems (ok_step hs h1) e
          exact .inr ⟨_, ys, v2, e, hm2, .inl (by omega)⟩
        · exact .inr ⟨_, ys, _, e, e', .inr (by omega)⟩
      exact core_outdated (ok_step hs h1) h hk' hx hsrc hh hw rfl ho

omit [DecidableEq α] in
theorem looped_changes {v c : Nat} {l : List (Cmd α)} (h : loopedThenChanged v c l = true) : l.any (changes c) = true := by
  induction l with
  | nil => simp [loopedThenChanged] at h
  | cons a l ih =>
    rw [List.any_cons]
    cases a <;> simp only [loopedThenChanged, Bool.or_eq_true, Bool.and_eq_true] at h ⊢
    case each w =>
      rcases h with h | h
      · exact .inr h.2
      · exact .inr (ih h)
    all_goals exact .inr (ih h)

/-- A vector, or what is left of it (argument of ranges.hpp:306). -/
def WasHeap (s : St α) (c : Nat) : Prop := s.cont c = .dead ∨ ∃ b, s.cont c = .live (b, .heap)

theorem wasHeap_step {s s' : St α} {a : Cmd α} {c : Nat} (hs : Ok s) (h : step s a = .ok s') (hc : WasHeap s c) : WasHeap s' c := by
  rcases hc with hc | ⟨b, hc⟩
  · exact .inl ((frame_cont hs h (change_dead h hc)).1.trans hc)
  · by_cases hch : changes c a = false
    · exact .inr ⟨b, (frame_cont hs h hch).1.trans hc⟩
    · simp only [Bool.not_eq_false] at hch
      obtain ⟨xs, ver, hm⟩ := heap_elems hs hc
      rcases change_heap h hch hc hm with e | e | ⟨e, -⟩
      · exact .inl e
      · exact .inr ⟨_, e⟩
      · exact .inr ⟨_, e⟩

/-- From an empty cache on. -/
theorem core_filt {s s' : St α} {l : List (Cmd α)} {v c : Nat} {w : View α} {keep : α → Bool} (hs : Ok s)
    (h : run s l = .ok s') (hk : ∀ a ∈ l, spends v a = false) (hv : s.view v = .live w) (hsrc : w.src = .ref c)
    (hh : w.how = .filt keep) (hw : w.hollow = false) (hc : w.cache = none) (hl : WasHeap s c) :
    sees s' v = if loopedThenChanged v c l then .ub else over (.filt keep) (has s' c) := by
  induction l generalizing s w with
  | nil =>
    simp only [run, Out.ok.injEq] at h; subst h
    rw [sees_ref hs hv hsrc (fun _ _ => ⟨hw, hc⟩), hh]
    simp [loopedThenChanged]
  | cons a l ih =>
    simp only [run] at h
    obtain ⟨s1, h1, h⟩ := bind_ok h
    have hsp := hk a (by simp)
    have hk' : ∀ b ∈ l, spends v b = false := fun b hb => hk b (by simp [hb])
    obtain ⟨⟨x, hx, hx'⟩, -⟩ := frame_view hs h1 hsp hv
    by_cases he : a = .each v
    · subst he
      have h1' := h1
      simp only [step] at h1
      obtain ⟨⟨s2, l2⟩, h2, h1⟩ := bind_ok h1
      simp only [Out.ok.injEq] at h1; subst h1
      rcases hl with hl | ⟨b, hl⟩
      · simp [loop, begin, hv, hsrc, block, hl, Out.bind] at h2
      · obtain ⟨xs, ver, hm⟩ := heap_elems hs hl
        have e := loop_cache h2 hv hh (b := b) (by simp [block, hsrc, hl]) hm (.inl hc)
        rw [core_cached (ok_step hs h1') h hk' (w := { w with cache := some (b, ver, seekF keep xs 0) })
          (by rw [e]; simp [upd]) hsrc hh hw rfl (by rw [e]; exact hl) (by rw [e]; exact hm)]
        simp only [loopedThenChanged, beq_self_eq_true, Bool.true_and]
        cases hany : l.any (changes c) with
        | true => simp
        | false =>
          have : loopedThenChanged v c l = false := by
            cases hq : loopedThenChanged v c l
            · rfl
            · rw [looped_changes hq] at hany; cases hany
          simp [this]
    · have hxc : x = none := by
        rcases hx' with e | e
        · rw [e, hc]
        · exact absurd e he
      subst hxc
      rw [ih (ok_step hs h1) h hk' hx hsrc hh hw rfl (wasHeap_step hs h1 hl)]
      have : loopedThenChanged v c (a :: l) = loopedThenChanged v c l := by
        cases a <;> simp only [loopedThenChanged]
        rename_i u
        have : (u == v) = false := by
          rw [beq_eq_false_iff_ne]; rintro rfl; exact he rfl
        rw [this]; rfl
      rw [this]

/-! ### Views of rvalues -/

/-- A view that owns its elements keeps showing them. -/
theorem core_own {s s' : St α} {l : List (Cmd α)} {v b ver : Nat} {k : Kind} {w : View α} {xs : List α} (hs : Ok s)
    (h : run s l = .ok s') (hk : ∀ a ∈ l, spends v a = false) (hv : s.view v = .live w) (hsrc : w.src = .own b k)
    (hw : w.hollow = false) (hm : s.mem b = .elems xs ver)
    (hc : ∀ keep, w.how = .filt keep → w.cache = none ∨ w.cache = some (b, ver, seekF keep xs 0)) :
    sees s' v = .ok (shown w.how xs) := by
  induction l generalizing s w with
  | nil =>
    simp only [run, Out.ok.injEq] at h; subst h
    obtain ⟨s2, h2⟩ := loop_spec hv (b := b) (by simp [block, hsrc]) hm (fun kp hkp => ⟨hw, hc kp hkp⟩)
    simp [sees, h2, Out.bind]
  | cons a l ih =>
    simp only [run] at h
    obtain ⟨s1, h1, h⟩ := bind_ok h
    have hk' : ∀ b ∈ l, spends v b = false := fun b hb => hk b (by simp [hb])
    obtain ⟨⟨x, hx, hx'⟩, hmem⟩ := frame_view hs h1 (hk a (by simp)) hv
    have := ih (w := { w with cache := x }) (ok_step hs h1) h hk' hx hsrc hw ((hmem b k hsrc).trans hm) ?_
    · exact this
    · intro keep hh
      dsimp only at hh ⊢
      rcases hx' with e | e
      · rw [e]; exact hc keep hh
      · subst e
        simp only [step] at h1
        obtain ⟨⟨s2, l2⟩, h2, h1⟩ := bind_ok h1
        simp only [Out.ok.injEq] at h1; subst h1
        have := loop_cache h2 hv hh (b := b) (by simp [block, hsrc]) hm (hc keep hh)
        rw [this] at hx
        simp [upd] at hx
        exact .inr hx.symm

end Verif.Dangling
