import Verif.Dangling.Hist

/-!
C110: what keeps what alive. A loop over `unique`, `remove_element` or `fmt_join` of a container sees what the container has
then, if the container was an lvalue, and what it had when the view was made, if it was an rvalue. Programs are lists of actions
on containers and views; `history` is what the containers have after a program, read off the actions without any view.
-/
namespace Verif.Dangling

variable {α : Type} [DecidableEq α]

theorem run_split {pre post : List (Cmd α)} {a : Cmd α} {s s' : St α} (h : run s (pre ++ a :: post) = .ok s') :
    ∃ s0 s1, run s pre = .ok s0 ∧ step s0 a = .ok s1 ∧ run s1 post = .ok s' := by
  rw [run_append] at h
  obtain ⟨s0, h0, h⟩ := bind_ok h
  simp only [run] at h
  obtain ⟨s1, h1, h⟩ := bind_ok h
  exact ⟨s0, s1, h0, h1, h⟩

theorem step_refView {s s' : St α} {v c : Nat} {how : How α} (h : step s (.refView v how c) = .ok s') :
    s'.view v = .live ⟨how, .ref c, none, false⟩ := by
  simp only [step] at h
  split at h
  · simp only [Out.ok.injEq] at h; subst h; simp [upd]
  · cases h

/-- **C110**: a loop over `unique` or `fmt_join` of an lvalue sees what the container has at that time, whatever was done with it
and with other views in between; with the container destroyed it is undefined, with its elements moved out of an array it is
unspecified. -/
theorem lvalue_shows {pre post : List (Cmd α)} {v c : Nat} {how : How α} {s : St α}
    (hrun : run start (pre ++ .refView v how c :: post) = .ok s) (hkeep : ∀ a ∈ post, spends v a = false)
    (hhow : ∀ keep, how ≠ .filt keep) :
    sees s v = over how (history (pre ++ .refView v how c :: post) c) := by
  rw [← has_history hrun]
  obtain ⟨s0, s1, h0, h1, h2⟩ := run_split hrun
  exact core_ref (ok_step (ok_run ok_start h0) h1) h2 hkeep (step_refView h1) rfl hhow

/-- **C110** for `remove_element` of a vector that is an lvalue: the same, unless a loop over the view was followed by a change of
the container; then the next loop is undefined behaviour, because the view has kept an iterator of the first loop. -/
theorem lvalue_remove {pre post : List (Cmd α)} {v c : Nat} {keep : α → Bool} {ys : List α} {s : St α}
    (hrun : run start (pre ++ .refView v (.filt keep) c :: post) = .ok s) (hkeep : ∀ a ∈ post, spends v a = false)
    (hvec : history pre c = .elems .heap ys) :
    sees s v = if loopedThenChanged v c post then .ub
      else over (.filt keep) (history (pre ++ .refView v (.filt keep) c :: post) c) := by
  rw [← has_history hrun]
  obtain ⟨s0, s1, h0, h1, h2⟩ := run_split hrun
  have hl : WasHeap s0 c := by
    rw [← has_history h0] at hvec
    unfold has at hvec
    split at hvec
    · rename_i b k hc
      split at hvec
      · simp only [Has.elems.injEq] at hvec
        obtain ⟨rfl, -⟩ := hvec
        exact .inr ⟨b, hc⟩
      · cases hvec
      · cases hvec
    · cases hvec
  exact core_filt (ok_step (ok_run ok_start h0) h1) h2 hkeep (step_refView h1) rfl rfl rfl rfl
    (wasHeap_step (ok_run ok_start h0) h1 hl)

/-- A container whose elements are known is there. -/
theorem has_elems {s : St α} {c : Nat} {k : Kind} {xs : List α} (h : has s c = .elems k xs) :
    ∃ b ver, s.cont c = .live (b, k) ∧ s.mem b = .elems xs ver := by
  unfold has at h
  split at h
  · rename_i b k' hc
    split at h
    · rename_i ys ver hm
      simp only [Has.elems.injEq] at h
      obtain ⟨rfl, rfl⟩ := h
      exact ⟨b, ver, hc, hm⟩
    · cases h
    · cases h
  · cases h

omit [DecidableEq α] in
/-- Moved elements are in the block of the target. -/
theorem moveBlock_target {s : St α} {b ver : Nat} {k : Kind} {xs : List α} (hb : b ≠ s.fresh) (hm : s.mem b = .elems xs ver) :
    (moveBlock s b k).1.mem (moveBlock s b k).2.1 = .elems xs ver := by
  cases k
  · simp [moveBlock, upd, hb, hm]
  · simp [moveBlock, upd, Ne.symm hb, hm]

/-- A view of an rvalue right after it was made. -/
theorem step_ownView {s s' : St α} {v c b ver : Nat} {k : Kind} {how : How α} {xs : List α} (hs : Ok s)
    (hc : s.cont c = .live (b, k)) (hm : s.mem b = .elems xs ver) (h : step s (.ownView v how c) = .ok s') :
    ∃ b', s'.view v = .live ⟨how, .own b' k, none, false⟩ ∧ s'.mem b' = .elems xs ver := by
  have hb : b ≠ s.fresh := by have := (hs.good (true, c) b k (by simp only [owns, hc])).1; omega
  simp only [step] at h
  split at h
  · rename_i b1 k1 hv hd
    rw [hc] at hd; cases hd
    simp only [Out.ok.injEq] at h; subst h
    exact ⟨(moveBlock s b k).2.1, by simp [upd], moveBlock_target hb hm⟩
  · cases h

/-- **C110**: a loop over a view of an rvalue sees what the container had when the view was made, whatever happens to the
container, to other containers and to other views, and however often the view was looped over. -/
theorem rvalue_shows {pre post : List (Cmd α)} {v c : Nat} {how : How α} {k : Kind} {xs : List α} {s : St α}
    (hrun : run start (pre ++ .ownView v how c :: post) = .ok s) (hkeep : ∀ a ∈ post, spends v a = false)
    (hxs : history pre c = .elems k xs) : sees s v = .ok (shown how xs) := by
  obtain ⟨s0, s1, h0, h1, h2⟩ := run_split hrun
  have hs0 := ok_run ok_start h0
  rw [← has_history h0] at hxs
  obtain ⟨b, ver, hc, hm⟩ := has_elems hxs
  obtain ⟨b', hv, hm'⟩ := step_ownView hs0 hc hm h1
  exact core_own (ok_step hs0 h1) h2 hkeep hv rfl rfl hm' (fun _ _ => .inl rfl)

/-- **C110**: so does a view of a temporary container, and `fmt_join` of a braced list. -/
theorem temporary_shows {pre post : List (Cmd α)} {v : Nat} {how : How α} {k : Kind} {xs : List α} {s : St α}
    (hrun : run start (pre ++ .temp v how k xs :: post) = .ok s) (hkeep : ∀ a ∈ post, spends v a = false) :
    sees s v = .ok (shown how xs) := by
  obtain ⟨s0, s1, h0, h1, h2⟩ := run_split hrun
  have hs1 := ok_step (ok_run ok_start h0) h1
  simp only [step] at h1
  split at h1
  · simp only [Out.ok.injEq] at h1; subst h1
    exact core_own (w := ⟨how, .own s0.fresh k, none, false⟩) (xs := xs) (ver := 0) hs1 h2 hkeep (by simp [upd]) rfl rfl (by simp [upd]) (fun _ _ => .inl rfl)
  · cases h1

/-- Moving a view that owns its elements. -/
theorem step_moveView {s s' : St α} {v w b ver : Nat} {k : Kind} {x : View α} {xs : List α} (hs : Ok s)
    (hv : s.view v = .live x) (hx : x.src = .own b k) (hm : s.mem b = .elems xs ver) (h : step s (.moveView w v) = .ok s') :
    ∃ b' b'', s'.view w = .live ⟨x.how, .own b' k, none, false⟩ ∧ s'.mem b' = .elems xs ver ∧
      s'.view v = .live ⟨x.how, .own b'' k, none, x.how.hollowed⟩ ∧ (k = .heap → b' = b ∧ s'.mem b'' = .elems [] 0) ∧
      (k = .inline → b'' = b ∧ s'.mem b'' = .husk) := by
  have hb : b ≠ s.fresh := by have := (hs.good (false, v) b k (by simp only [owns, hv, hx])).1; omega
  simp only [step] at h
  split at h
  · rename_i y hw hv'
    rw [hv] at hv'; cases hv'
    have hne : v ≠ w := by rintro rfl; rw [hv] at hw; cases hw
    split at h
    · cases h
    · rw [hx] at h
      simp only [Out.ok.injEq] at h; subst h
      refine ⟨(moveBlock s b k).2.1, (moveBlock s b k).2.2, by simp [upd], moveBlock_target hb hm, by simp [upd, hne], ?_, ?_⟩
      · rintro rfl; simp [moveBlock, upd]
      · rintro rfl; simp [moveBlock, upd]
  · cases h

/-- **C110**: moving a view of an rvalue moves what it shows: the new view shows it from then on. The old view shows nothing any
more if the elements were in a vector, and nothing specified if they were in an array or if the view has a test
(`remove_element`). -/
theorem moved_view_shows {pre mid post : List (Cmd α)} {v w c : Nat} {how : How α} {k : Kind} {xs : List α} {s : St α}
    (hrun : run start (pre ++ .ownView v how c :: (mid ++ .moveView w v :: post)) = .ok s)
    (hmid : ∀ a ∈ mid, spends v a = false) (hxs : history pre c = .elems k xs) :
    ((∀ a ∈ post, spends w a = false) → sees s w = .ok (shown how xs)) ∧
    ((∀ a ∈ post, spends v a = false) →
      sees s v = if how.hollowed = true ∨ k = .inline then .unspec else .ok []) := by
  obtain ⟨s0, s1, h0, h1, h⟩ := run_split hrun
  obtain ⟨s2, s3, h2, h3, h4⟩ := run_split h
  have hs0 := ok_run ok_start h0
  have hs1 := ok_step hs0 h1
  have hs2 := ok_run hs1 h2
  have hs3 := ok_step hs2 h3
  rw [← has_history h0] at hxs
  obtain ⟨b, ver, hc, hm⟩ := has_elems hxs
  obtain ⟨b', hv, hm'⟩ := step_ownView hs0 hc hm h1
  have hview : ∀ {l : List (Cmd α)} {s s' : St α} {v b : Nat} {k : Kind} {w : View α}, Ok s → run s l = .ok s' →
      (∀ a ∈ l, spends v a = false) → s.view v = .live w → w.src = .own b k →
      (∃ x, s'.view v = .live { w with cache := x }) ∧ s'.mem b = s.mem b := by
    intro l
    induction l with
    | nil =>
      intro s s' v b k w _ h _ hv _
      simp only [run, Out.ok.injEq] at h; subst h; exact ⟨⟨w.cache, hv⟩, rfl⟩
    | cons a l ih =>
      intro s s' v b k w hs h hk hv hsrc
      simp only [run] at h
      obtain ⟨s1, h1, h⟩ := bind_ok h
      obtain ⟨⟨x, hx, -⟩, hmem⟩ := frame_view hs h1 (hk a (by simp)) hv
      obtain ⟨⟨y, hy⟩, hmm⟩ := ih (w := { w with cache := x }) (ok_step hs h1) h (fun b hb => hk b (by simp [hb])) hx hsrc
      exact ⟨⟨y, hy⟩, hmm.trans (hmem b k hsrc)⟩
  obtain ⟨⟨x, hv2⟩, hm2⟩ := hview hs1 h2 hmid hv rfl
  obtain ⟨b1, b2, g1, g2, g3, g4, g5⟩ := step_moveView hs2 hv2 rfl (hm2.trans hm') h3
  constructor
  · intro hw
    exact core_own hs3 h4 hw g1 rfl rfl g2 (fun _ _ => .inl rfl)
  · intro hp
    obtain ⟨⟨y, hv4⟩, hm4⟩ := hview hs3 h4 hp g3 rfl
    cases how with
    | filt keep => simp [sees, loop, begin, hv4, block, Out.bind, How.hollowed]
    | all =>
      cases k
      · have := core_own (w := ⟨.all, .own b2 .heap, none, false⟩) hs3 h4 hp g3 rfl rfl (g4 rfl).2 (fun _ _ => .inl rfl)
        simpa [How.hollowed, shown] using this
      · simp [sees, loop, begin, hv4, block, Out.bind, How.hollowed, read, hm4, (g5 rfl).2]
    | uniq =>
      cases k
      · have := core_own (w := ⟨.uniq, .own b2 .heap, none, false⟩) hs3 h4 hp g3 rfl rfl (g4 rfl).2 (fun _ _ => .inl rfl)
        simpa [How.hollowed, shown] using this
      · simp [sees, loop, begin, hv4, block, Out.bind, How.hollowed, read, hm4, (g5 rfl).2]

/-- **C110**: moving or copying a view of an lvalue gives another view of the same container: it sees what the container has.
The original does too, as long as it has no test that was moved away. -/
theorem moved_lvalue_shows {pre mid post : List (Cmd α)} {v w c : Nat} {how : How α} {a : Cmd α} {s : St α}
    (hrun : run start (pre ++ .refView v how c :: (mid ++ a :: post)) = .ok s) (ha : a = .moveView w v ∨ a = .copyView w v)
    (hmid : ∀ a ∈ mid, spends v a = false) (hhow : ∀ keep, how ≠ .filt keep) :
    ((∀ a ∈ post, spends w a = false) → sees s w = over how (history (pre ++ .refView v how c :: (mid ++ a :: post)) c)) ∧
    ((∀ a ∈ post, spends v a = false) → sees s v = over how (history (pre ++ .refView v how c :: (mid ++ a :: post)) c)) := by
  rw [← has_history hrun]
  obtain ⟨s0, s1, h0, h1, h⟩ := run_split hrun
  obtain ⟨s2, s3, h2, h3, h4⟩ := run_split h
  have hs0 := ok_run ok_start h0
  have hs1 := ok_step hs0 h1
  have hs2 := ok_run hs1 h2
  have hs3 := ok_step hs2 h3
  obtain ⟨x, hv2⟩ := view_run hs1 h2 hmid (step_refView h1)
  have key : ∃ y y', s3.view w = .live ⟨how, .ref c, y, false⟩ ∧ s3.view v = .live ⟨how, .ref c, y', false⟩ := by
    have hh : how.hollowed = false := by
      cases how with
      | filt keep => exact absurd rfl (hhow keep)
      | _ => rfl
    rcases ha with rfl | rfl
    · simp only [step] at h3
      split at h3
      · rename_i u hw hv
        rw [hv2] at hv; cases hv
        have hne : v ≠ w := by rintro rfl; rw [hv2] at hw; cases hw
        simp only [Bool.false_eq_true, if_false, Out.ok.injEq] at h3
        subst h3
        exact ⟨none, none, by simp [upd], by simp [upd, hne, hh]⟩
      · cases h3
    · simp only [step] at h3
      split at h3
      · rename_i u hw hv
        rw [hv2] at hv; cases hv
        have hne : v ≠ w := by rintro rfl; rw [hv2] at hw; cases hw
        simp only [Bool.false_eq_true, if_false, Out.ok.injEq] at h3
        subst h3
        exact ⟨none, x, by simp [upd], by simp [upd, hne, hv2]⟩
      · cases h3
  obtain ⟨y, y', k1, k2⟩ := key
  exact ⟨fun hp => core_ref hs3 h4 hp k1 rfl hhow, fun hp => core_ref hs3 h4 hp k2 rfl hhow⟩

/-- **C110**: moving or copying a `remove_element` of a vector that is an lvalue gives a view of the same vector that has cached
nothing: only loops over the new view count. -/
theorem moved_lvalue_remove {pre mid post : List (Cmd α)} {v w c : Nat} {keep : α → Bool} {ys : List α} {a : Cmd α} {s : St α}
    (hrun : run start (pre ++ .refView v (.filt keep) c :: (mid ++ a :: post)) = .ok s)
    (ha : a = .moveView w v ∨ a = .copyView w v) (hmid : ∀ a ∈ mid, spends v a = false) (hpost : ∀ a ∈ post, spends w a = false)
    (hvec : history pre c = .elems .heap ys) :
    sees s w = if loopedThenChanged w c post then .ub
      else over (.filt keep) (history (pre ++ .refView v (.filt keep) c :: (mid ++ a :: post)) c) := by
  rw [← has_history hrun]
  obtain ⟨s0, s1, h0, h1, h⟩ := run_split hrun
  obtain ⟨s2, s3, h2, h3, h4⟩ := run_split h
  have hs0 := ok_run ok_start h0
  have hs1 := ok_step hs0 h1
  have hs2 := ok_run hs1 h2
  have hs3 := ok_step hs2 h3
  obtain ⟨x, hv2⟩ := view_run hs1 h2 hmid (step_refView h1)
  have hl : WasHeap s0 c := by
    rw [← has_history h0] at hvec
    obtain ⟨b, ver, hc, -⟩ := has_elems hvec
    exact .inr ⟨b, hc⟩
  have hl2 : WasHeap s2 c := by
    have go : ∀ (l : List (Cmd α)) (t t' : St α), Ok t → run t l = .ok t' → WasHeap t c → WasHeap t' c := by
      intro l
      induction l with
      | nil => intro t t' _ h ht; simp only [run, Out.ok.injEq] at h; subst h; exact ht
      | cons b l ih =>
        intro t t' hok h ht
        simp only [run] at h
        obtain ⟨t1, g1, h⟩ := bind_ok h
        exact ih t1 t' (ok_step hok g1) h (wasHeap_step hok g1 ht)
    exact go mid s1 s2 hs1 h2 (wasHeap_step hs0 h1 hl)
  have hw3 : s3.view w = .live ⟨.filt keep, .ref c, none, false⟩ := by
    rcases ha with rfl | rfl
    · simp only [step] at h3
      split at h3
      · rename_i u hw hv
        rw [hv2] at hv; cases hv
        simp only [Bool.false_eq_true, if_false, Out.ok.injEq] at h3
        subst h3
        simp [upd]
      · cases h3
    · simp only [step] at h3
      split at h3
      · rename_i u hw hv
        rw [hv2] at hv; cases hv
        simp only [Bool.false_eq_true, if_false, Out.ok.injEq] at h3
        subst h3
        simp [upd]
      · cases h3
  exact core_filt hs3 h4 hpost hw3 rfl rfl rfl rfl (wasHeap_step hs2 h3 hl2)

/-! ### Iterators -/

/-- An iterator that needs no view reads the same while its block is the same. -/
theorem loopFrom_same {s s' : St α} (n : Nat) : ∀ i : It α, s'.mem i.block = s.mem i.block → (∀ keep, i.how ≠ .filt keep) →
    loopFrom s' n i = loopFrom s n i := by
  induction n with
  | zero => intros; rfl
  | succ n ih =>
    intro i hm hh
    have hb : base s' i = base s i := by simp only [base, read, hm]
    have hi : incr s' i = incr s i := by
      unfold incr
      rw [hb]
      cases hb : base s i with
      | ok xs =>
        simp only [Out.bind]
        split
        · rfl
        · cases e : i.how with
          | filt keep => exact absurd e (hh keep)
          | _ => rfl
      | _ => rfl
    unfold loopFrom
    simp only [isEnd, deref, hb, hi]
    cases e1 : base s i with
    | ok xs =>
      simp only [Out.bind]
      split
      · rfl
      · cases e2 : xs[i.pos]? with
        | none => rfl
        | some x =>
          dsimp only
          cases e3 : incr s i with
          | ok j =>
            dsimp only
            have : j.block = i.block ∧ j.how = i.how := by
              unfold incr at e3
              rw [e1] at e3
              simp only [Out.bind] at e3
              split at e3
              · cases e3
              · split at e3
                · cases e3; exact ⟨rfl, rfl⟩
                · cases e3; exact ⟨rfl, rfl⟩
                · rename_i keep e; exact absurd e (hh keep)
            rw [ih j (by rw [this.1]; exact hm) (by rw [this.2]; exact hh)]
          | _ => rfl
    | _ => rfl

/-- `begin` gives an iterator into the block of the view. -/
theorem begin_it {s s' : St α} {v : Nat} {i : It α} {w : View α} (hv : s.view v = .live w) (h : begin s v = .ok (s', i)) :
    i.how = w.how ∧ i.parent = v ∧ block s w.src = .ok i.block ∧
      ∃ xs, s.mem i.block = .elems xs i.ver ∧ s'.mem = s.mem ∧ s'.cont = s.cont := by
  have hshape := begin_shape h
  obtain ⟨w', x, hv', e⟩ := hshape
  have rd : ∀ {b} {r : List α × Nat}, read s b = .ok r → s.mem b = .elems r.1 r.2 := by
    intro b r hr
    unfold read at hr
    split at hr
    · rename_i xs ver hm; cases hr; exact hm
    · cases hr
    · cases hr
  have rest : s'.mem = s.mem ∧ s'.cont = s.cont := by rw [e]; exact ⟨rfl, rfl⟩
  unfold begin at h
  rw [hv] at h
  dsimp only at h
  obtain ⟨b, hb, h⟩ := bind_ok h
  split at h
  · rename_i hh
    obtain ⟨⟨xs, ver⟩, hr, h⟩ := bind_ok h
    simp only [Out.ok.injEq, Prod.mk.injEq] at h
    obtain ⟨-, rfl⟩ := h
    exact ⟨hh.symm, rfl, hb, xs, rd hr, rest⟩
  · rename_i hh
    obtain ⟨⟨xs, ver⟩, hr, h⟩ := bind_ok h
    simp only [Out.ok.injEq, Prod.mk.injEq] at h
    obtain ⟨-, rfl⟩ := h
    exact ⟨hh.symm, rfl, hb, xs, rd hr, rest⟩
  · rename_i keep hh
    split at h
    · cases h
    · obtain ⟨⟨xs, ver⟩, hr, h⟩ := bind_ok h
      dsimp only at h
      split at h
      · split at h
        · simp only [Out.ok.injEq, Prod.mk.injEq] at h
          obtain ⟨-, rfl⟩ := h
          exact ⟨hh.symm, rfl, hb, xs, rd hr, rest⟩
        · cases h
      · simp only [Out.ok.injEq, Prod.mk.injEq] at h
        obtain ⟨-, rfl⟩ := h
        exact ⟨hh.symm, rfl, hb, xs, rd hr, rest⟩

/-- `begin` keeps the invariant. -/
theorem begin_ok {s s' : St α} {v : Nat} {i : It α} (hs : Ok s) (h : begin s v = .ok (s', i)) : Ok s' := by
  obtain ⟨w, x, hv, rfl⟩ := begin_shape h
  unfold Ok
  rw [owns_ref _ _ _ (by simp [owns, upd, hv])]
  exact hs

theorem cont_run {s s' : St α} {l : List (Cmd α)} {c b : Nat} {k : Kind} (hs : Ok s) (h : run s l = .ok s')
    (hk : ∀ a ∈ l, changes c a = false) (hc : s.cont c = .live (b, k)) : s'.cont c = .live (b, k) ∧ s'.mem b = s.mem b := by
  induction l generalizing s with
  | nil => simp only [run, Out.ok.injEq] at h; subst h; exact ⟨hc, rfl⟩
  | cons a l ih =>
    simp only [run] at h
    obtain ⟨s1, h1, h⟩ := bind_ok h
    obtain ⟨f1, f2⟩ := frame_cont hs h1 (hk a (by simp))
    obtain ⟨g1, g2⟩ := ih (ok_step hs h1) h (fun b hb => hk b (by simp [hb])) (f1.trans hc)
    exact ⟨g1, g2.trans (f2 b k hc)⟩

/-- **C110**: an iterator of `unique` over an lvalue does not need the view: the rest of the loop sees the same after the view was
destroyed or moved, as long as the container does not change. -/
theorem unique_iterator_survives {pre post : List (Cmd α)} {v c : Nat} {s s1 s' : St α} {i : It α} {w : View α}
    (hrun : run start pre = .ok s) (hv : s.view v = .live w) (hw : w.src = .ref c) (hhow : ∀ keep, w.how ≠ .filt keep)
    (hb : begin s v = .ok (s1, i)) (hpost : run s1 post = .ok s') (hc : ∀ a ∈ post, changes c a = false) (n : Nat) :
    loopFrom s' n i = loopFrom s1 n i := by
  obtain ⟨e1, e2, e3, xs, e4, e5, e6⟩ := begin_it hv hb
  have hs := ok_run ok_start hrun
  have hcont : ∃ k, s.cont c = .live (i.block, k) := by
    rw [hw] at e3
    simp only [block] at e3
    split at e3
    · rename_i b k he; cases e3; exact ⟨k, he⟩
    · cases e3
  obtain ⟨k, hcont⟩ := hcont
  obtain ⟨-, hm⟩ := cont_run (begin_ok hs hb) hpost hc (by rw [e6]; exact hcont)
  exact loopFrom_same n i hm (by rw [e1]; exact hhow)

theorem dead_step {s s' : St α} {a : Cmd α} {v : Nat} (h : step s a = .ok s') (hv : s.view v = .dead) : s'.view v = .dead := by
  have mv : ∀ b k, (moveBlock s b k).1.view = s.view := fun b k => (moveBlock_rest s b k).2
  cases a with
  | each u =>
    simp only [step] at h
    obtain ⟨⟨s1, l⟩, h1, h⟩ := bind_ok h
    simp only [Out.ok.injEq] at h; subst h
    obtain ⟨w, x, hu, e⟩ := loop_shape h1
    subst e
    have : v ≠ u := by rintro rfl; rw [hv] at hu; cases hu
    simp [upd, this, hv]
  | _ =>
    simp only [step] at h
    repeat' split at h
    all_goals first
      | cases h; done
      | (simp only [Out.ok.injEq] at h; subst h
         first
          | exact hv
          | (simp only [mv]; exact hv)
          | (simp only [upd, mv]
             repeat' split
             all_goals simp_all))

/-- **C110**: an iterator of `remove_element` does need the view: once the view is destroyed, moving the iterator on is undefined
behaviour even though the container is still there and unchanged. -/
theorem remove_iterator_dies {pre post : List (Cmd α)} {v c : Nat} {keep : α → Bool} {s s1 s' : St α} {i : It α} {w : View α}
    (hrun : run start pre = .ok s) (hv : s.view v = .live w) (hw : w.src = .ref c) (hhow : w.how = .filt keep)
    (hb : begin s v = .ok (s1, i)) (hpost : run s1 post = .ok s') (hc : ∀ a ∈ post, changes c a = false)
    (hd : .dropView v ∈ post) : incr s' i = .ub := by
  obtain ⟨e1, e2, e3, xs, e4, e5, e6⟩ := begin_it hv hb
  have hs := ok_run ok_start hrun
  have hcont : ∃ k, s.cont c = .live (i.block, k) := by
    rw [hw] at e3
    simp only [block] at e3
    split at e3
    · rename_i b k he; cases e3; exact ⟨k, he⟩
    · cases e3
  obtain ⟨k, hcont⟩ := hcont
  obtain ⟨-, hm⟩ := cont_run (begin_ok hs hb) hpost hc (by rw [e6]; exact hcont)
  have hbase : base s' i = .ok xs := by simp [base, read, hm, e5, e4, Out.bind]
  have hdead : s'.view v = .dead := by
    have go : ∀ (l : List (Cmd α)) (t t' : St α), run t l = .ok t' → (t.view v = .dead ∨ .dropView v ∈ l) → t'.view v = .dead := by
      intro l
      induction l with
      | nil =>
        intro t t' h hd
        simp only [run, Out.ok.injEq] at h; subst h
        simpa using hd
      | cons a l ih =>
        intro t t' h hd
        simp only [run] at h
        obtain ⟨t1, h1, h⟩ := bind_ok h
        apply ih t1 t' h
        rcases hd with hd | hd
        · exact .inl (dead_step h1 hd)
        · rcases List.mem_cons.1 hd with hd | hd
          · subst hd
            left
            simp only [step] at h1
            split at h1
            · split at h1 <;> (simp only [Out.ok.injEq] at h1; subst h1; simp [upd])
            · cases h1
          · exact .inr hd
    exact go post s1 s' hpost (.inr hd)
  simp only [incr, hbase, Out.bind, e1, hhow, e2, hdead]
  split <;> rfl

/-- **C110**: an iterator of `unique` over an rvalue stays good when the view is moved, if the elements are in a vector, for as long
as the new view owns them; if they are in an array it reads elements that were moved away; and when the view is destroyed instead,
reading is undefined. -/
theorem owned_iterator {pre post : List (Cmd α)} {v w b : Nat} {k : Kind} {x : View α} {s s1 s2 s' : St α} {i : It α}
    (hrun : run start pre = .ok s) (hv : s.view v = .live x) (hx : x.src = .own b k) (hhow : ∀ keep, x.how ≠ .filt keep)
    (hb : begin s v = .ok (s1, i)) :
    (step s1 (.moveView w v) = .ok s2 → run s2 post = .ok s' → (∀ a ∈ post, spends w a = false) → k = .heap →
      ∀ n, loopFrom s' n i = loopFrom s1 n i) ∧
    (step s1 (.moveView w v) = .ok s2 → k = .inline → deref s2 i = .unspec) ∧
    (step s1 (.dropView v) = .ok s2 → deref s2 i = .ub) := by
  obtain ⟨e1, e2, e3, xs, e4, e5, e6⟩ := begin_it hv hb
  have hs := ok_run ok_start hrun
  have hs1 := begin_ok hs hb
  have hbi : b = i.block := by
    rw [hx] at e3
    simpa [block] using e3
  subst hbi
  have hv1 : ∃ y, s1.view v = .live { x with cache := y } := by
    obtain ⟨w', y, hv', e⟩ := begin_shape hb
    rw [hv] at hv'; cases hv'
    exact ⟨y, by rw [e]; simp [upd]⟩
  obtain ⟨y, hv1⟩ := hv1
  have hm1 : s1.mem i.block = .elems xs i.ver := by rw [e5]; exact e4
  refine ⟨?_, ?_, ?_⟩
  · rintro h hp hk rfl n
    obtain ⟨b1, b2, g1, g2, g3, g4, -⟩ := step_moveView hs1 hv1 hx hm1 h
    obtain ⟨rfl, -⟩ := g4 rfl
    have hmem : ∀ (l : List (Cmd α)) (t t' : St α) (u : View α), Ok t → run t l = .ok t' → (∀ a ∈ l, spends w a = false) →
        t.view w = .live u → u.src = .own i.block .heap → t'.mem i.block = t.mem i.block := by
      intro l
      induction l with
      | nil => intro t t' u _ h _ _ _; simp only [run, Out.ok.injEq] at h; subst h; rfl
      | cons a l ih =>
        intro t t' u ht h hk hu hsrc
        simp only [run] at h
        obtain ⟨t1, h1, h⟩ := bind_ok h
        obtain ⟨⟨z, hz, -⟩, hmm⟩ := frame_view ht h1 (hk a (by simp)) hu
        exact (ih t1 t' _ (ok_step ht h1) h (fun b hb => hk b (by simp [hb])) hz hsrc).trans (hmm _ _ hsrc)
    refine loopFrom_same n i ?_ (by rw [e1]; exact hhow)
    rw [hmem post s2 s' _ (ok_step hs1 h) hp hk g1 rfl, g2, hm1]
  · rintro h rfl
    obtain ⟨b1, b2, g1, g2, g3, -, g5⟩ := step_moveView hs1 hv1 hx hm1 h
    obtain ⟨rfl, g6⟩ := g5 rfl
    simp [deref, base, read, g6, Out.bind]
  · intro h
    simp only [step, hv1, hx, Out.ok.injEq] at h
    subst h
    simp [deref, base, read, upd, Out.bind]

/-! ### Examples and refuted claims -/

/-- A program: a vector, `unique` of it, another vector, a loop, changes of both (as in ranges.hpp:306-313). -/
def demo (how : How Nat) : List (Cmd Nat) :=
  [.mk 0 .heap [1, 2, 1, 3], .refView 0 how 0, .mk 1 .heap [9], .each 0, .assign 0 [4, 4, 5, 4], .assign 1 [8]]

example : ∃ s, run start (demo .uniq) = .ok s ∧ sees s 0 = .ok [4, 5] :=
  ⟨_, rfl, by
    rw [lvalue_shows (pre := [.mk 0 .heap [1, 2, 1, 3]]) (v := 0) (how := .uniq) (c := 0)
      (post := [.mk 1 .heap [9], .each 0, .assign 0 [4, 4, 5, 4], .assign 1 [8]]) rfl (by simp [spends]) (by simp)]
    decide⟩

example : ∃ s, run start (demo (.filt (· != 1)) ++ [.drop 1]) = .ok s ∧ sees s 0 = .ub :=
  ⟨_, rfl, by
    rw [lvalue_remove (pre := [.mk 0 .heap [1, 2, 1, 3]]) (v := 0) (c := 0) (keep := (· != 1))
      (post := [.mk 1 .heap [9], .each 0, .assign 0 [4, 4, 5, 4], .assign 1 [8], .drop 1]) rfl (by simp [spends]) rfl]
    decide⟩

example : ∃ s, run start ([.mk 0 .inline [1, 2, 1, 3]] ++ .ownView 0 (.filt (· != 1)) 0 :: [.each 0, .assign 0 [7, 7], .drop 0]) =
    .ok s ∧ sees s 0 = .ok [2, 3] :=
  ⟨_, rfl, rvalue_shows (pre := [.mk 0 .inline [1, 2, 1, 3]]) (post := [.each 0, .assign 0 [7, 7], .drop 0]) (k := .inline)
    (how := .filt (· != 1)) (xs := [1, 2, 1, 3]) (c := 0) rfl (by simp [spends]) rfl⟩

example : ∃ s, run start ([] ++ .temp 0 .all .heap [1, 2, 1] :: [.mk 0 .heap [5], .each 0]) = .ok s ∧ sees s 0 = .ok [1, 2, 1] :=
  ⟨_, rfl, temporary_shows (pre := []) (how := .all) (k := .heap) (xs := [1, 2, 1]) (post := [.mk 0 .heap [5], .each 0]) rfl
    (by simp [spends])⟩

example : ∃ s, run start ([.mk 0 .heap [1, 2, 1, 3]] ++ .ownView 0 .uniq 0 :: ([.each 0] ++ .moveView 1 0 :: [.drop 0])) = .ok s ∧
    sees s 1 = .ok [1, 2, 3] ∧ sees s 0 = .ok [] := by
  have h := moved_view_shows (pre := [.mk 0 .heap [1, 2, 1, 3]]) (mid := [.each 0]) (post := [.drop 0]) (v := 0) (w := 1) (c := 0)
    (how := .uniq) (k := .heap) (xs := [1, 2, 1, 3]) rfl (by simp [spends]) rfl
  exact ⟨_, rfl, h.1 (by simp [spends]), h.2 (by simp [spends])⟩

example : ∃ s, run start ([.mk 0 .heap [1, 1]] ++ .refView 0 .uniq 0 :: ([.each 0] ++ .moveView 1 0 :: [.assign 0 [2, 2, 3]])) =
    .ok s ∧ sees s 1 = .ok [2, 3] ∧ sees s 0 = .ok [2, 3] := by
  have h := moved_lvalue_shows (pre := [.mk 0 .heap [1, 1]]) (mid := [.each 0]) (post := [.assign 0 [2, 2, 3]]) (v := 0) (w := 1)
    (c := 0) (how := .uniq) rfl (.inl rfl) (by simp [spends]) (by simp)
  exact ⟨_, rfl, h.1 (by simp [spends]), h.2 (by simp [spends])⟩

example : ∃ s, run start ([.mk 0 .heap [1, 2]] ++ .refView 0 (.filt (· != 1)) 0 ::
      ([.each 0, .assign 0 [5, 1]] ++ .copyView 1 0 :: [.assign 0 [1, 3]])) = .ok s ∧ sees s 1 = .ok [3] := by
  refine ⟨_, rfl, ?_⟩
  rw [moved_lvalue_remove (pre := [.mk 0 .heap [1, 2]]) (mid := [.each 0, .assign 0 [5, 1]]) (post := [.assign 0 [1, 3]]) (v := 0)
    (w := 1) (c := 0) (keep := (· != 1)) rfl (.inr rfl) (by simp [spends]) (by simp [spends]) rfl]
  decide

/-- The state, the view and the iterator of the examples for iterators (ranges.hpp:273-278). -/
def demoIt (pre : List (Cmd Nat)) : Option (St Nat × It Nat) :=
  match run start pre with
  | .ok s => match begin s 0 with
    | .ok p => some p
    | _ => none
  | _ => none

example : ∃ s w s1 i s', run start [.mk 0 .heap [1, 2, 1, 3], .refView 0 (.uniq : How Nat) 0] = .ok s ∧ s.view 0 = .live w ∧
    w.src = .ref 0 ∧ begin s 0 = .ok (s1, i) ∧ run s1 [.dropView 0, .mk 1 .heap [5]] = .ok s' ∧
    loopFrom s' 9 i = loopFrom s1 9 i ∧ loopFrom s' 9 i = .ok [1, 2, 3] :=
  ⟨_, _, _, _, _, rfl, rfl, rfl, rfl, rfl,
    unique_iterator_survives (c := 0) (v := 0) (w := ⟨.uniq, .ref 0, none, false⟩) (post := [.dropView 0, .mk 1 .heap [5]]) (pre := [.mk 0 .heap [1, 2, 1, 3], .refView 0 .uniq 0]) rfl rfl rfl (by simp) rfl rfl
      (by simp [changes]) 9, rfl⟩

example : ∃ s w s1 i s', run start [.mk 0 .heap [1, 2, 1, 3], .refView 0 (.filt (· != 2) : How Nat) 0] = .ok s ∧
    s.view 0 = .live w ∧ w.src = .ref 0 ∧ begin s 0 = .ok (s1, i) ∧ run s1 [.dropView 0, .mk 1 .heap [5]] = .ok s' ∧
    incr s' i = .ub :=
  ⟨_, _, _, _, _, rfl, rfl, rfl, rfl, rfl,
    remove_iterator_dies (c := 0) (keep := (· != 2)) (v := 0) (w := ⟨.filt (· != 2), .ref 0, none, false⟩)
      (post := [.dropView 0, .mk 1 .heap [5]]) (pre := [.mk 0 .heap [1, 2, 1, 3], .refView 0 (.filt (· != 2)) 0]) rfl rfl rfl rfl
      rfl rfl (by simp [changes]) (by simp)⟩

example : ∃ s x s1 i s2 s', run start [.temp 0 (.uniq : How Nat) .heap [1, 2, 1, 3]] = .ok s ∧ s.view 0 = .live x ∧
    begin s 0 = .ok (s1, i) ∧ step s1 (.moveView 1 0) = .ok s2 ∧ run s2 [.dropView 0] = .ok s' ∧
    loopFrom s' 9 i = loopFrom s1 9 i := by
  obtain ⟨s, hs⟩ : ∃ s, run start [.temp 0 (.uniq : How Nat) .heap [1, 2, 1, 3]] = .ok s := ⟨_, rfl⟩
  have hv : s.view 0 = .live ⟨.uniq, .own 0 .heap, none, false⟩ := by cases hs; rfl
  obtain ⟨s1, i, hb⟩ : ∃ s1 i, begin s 0 = .ok (s1, i) := by cases hs; exact ⟨_, _, rfl⟩
  obtain ⟨s2, h2⟩ : ∃ s2, step s1 (.moveView 1 0) = .ok s2 := by cases hs; cases hb; exact ⟨_, rfl⟩
  obtain ⟨s', h'⟩ : ∃ s', run s2 [.dropView 0] = .ok s' := by cases hs; cases hb; cases h2; exact ⟨_, rfl⟩
  exact ⟨s, _, s1, i, s2, s', hs, hv, hb, h2, h', (owned_iterator hs hv rfl (by simp) hb).1 h2 h' (by simp [spends]) rfl 9⟩

/-- **C110, refuted**: "a view can be used as long as it exists": not if it is a view of an lvalue. -/
theorem view_outlives_refuted :
    ∃ s : St Nat, run start [.mk 0 .heap [1, 2], .refView 0 .uniq 0, .drop 0] = .ok s ∧ sees s 0 = .ub :=
  ⟨_, rfl, by decide⟩

/-- **C110, refuted**: "`remove_element` can be looped over again after a change of the container", as `unique` can. -/
theorem remove_again_refuted :
    ∃ s : St Nat, run start [.mk 0 .heap [1, 2], .refView 0 (.filt (· != 1)) 0, .each 0, .assign 0 [3]] = .ok s ∧ sees s 0 = .ub :=
  ⟨_, rfl, by decide⟩

/-- **C110, refuted**: "moving a view keeps its iterators": not if it owns an array. -/
theorem moved_array_refuted :
    ∃ (s1 s2 : St Nat) (i : It Nat), demoIt [.temp 0 .uniq .inline [1, 2]] = some (s1, i) ∧ deref s1 i = .ok 1 ∧
      step s1 (.moveView 1 0) = .ok s2 ∧ deref s2 i = .unspec :=
  ⟨_, _, _, rfl, rfl, rfl, rfl⟩

end Verif.Dangling
