import Verif.Sandbox.Streams

/-!
Property C115: what a sandboxed function does to output, memory, locks and global objects.
-/
namespace Verif.Sandbox

/-! ### Specification -/

/-- What came from stream `s`. -/
def ofStream (s : Stream) (l : List (Stream × Nat)) : List Nat := (l.filter fun e => decide (e.1 = s)).map (·.2)

/-- What a program prints to stream `s`. -/
def printed (s : Stream) (body : List Op) : List Nat :=
  body.filterMap fun o => match o with | .print s' x => if s' = s then some x else none | _ => none

/-- Is `m` locked after these operations, if it was (`b`) before? -/
def locked (b : Bool) (m : Nat) : List Op → Bool
  | [] => b
  | .lock m' :: os => locked (b || decide (m' = m)) m os
  | .unlock m' :: os => locked (b && !decide (m' = m)) m os
  | _ :: os => locked b m os

/-- What runs in the child: the function, and the destructors of global objects if it calls `std::exit`. -/
def runs (body globals : List Op) : End → List Op
  | .stdExit => body ++ globals
  | _ => body

/-! ### Flow of text from programs to files -/

theorem ofStream_append (s : Stream) (a b : List (Stream × Nat)) : ofStream s (a ++ b) = ofStream s a ++ ofStream s b := by
  simp [ofStream]

theorem ofStream_self (s : Stream) (l : List Nat) : ofStream s (l.map fun x => (s, x)) = l := by
  simp [ofStream, List.filter_map, Function.comp_def]

theorem ofStream_ne {s t : Stream} (h : t ≠ s) (l : List Nat) : ofStream s (l.map fun x => (t, x)) = [] := by
  simp [ofStream, List.filter_map, Function.comp_def, h]

/-- From `w` to `v`, `B` was added to the files and `l` was printed. -/
structure Flow (tgt : Stream → Nat) (w v : Files × Proc) (B : Files) (l : Stream → List Nat) : Prop where
  file : ∀ f, v.1 f = w.1 f ++ B f
  mine : ∀ s, ofStream s (B (tgt s)) ++ v.2.buf s = w.2.buf s ++ l s
  others : ∀ s f, f ≠ tgt s → ofStream s (B f) = []
  open_ : v.2.cfiles = w.2.cfiles

theorem Flow.refl (tgt w) : Flow tgt w w (fun _ => []) (fun _ => []) :=
  ⟨fun f => by simp, fun s => by simp [ofStream], fun s f _ => rfl, rfl⟩

theorem Flow.trans {tgt w v u B B' l l'} (h : Flow tgt w v B l) (h' : Flow tgt v u B' l') :
    Flow tgt w u (fun f => B f ++ B' f) (fun s => l s ++ l' s) where
  file f := by rw [h'.file, h.file, List.append_assoc]
  mine s := by
    rw [ofStream_append, List.append_assoc, h'.mine, ← List.append_assoc, h.mine, List.append_assoc]
  others s f hf := by rw [ofStream_append, h.others s f hf, h'.others s f hf]; rfl
  open_ := h'.open_.trans h.open_

theorem flow_flush1 (tgt w) (t : Stream) :
    Flow tgt w (flush1 tgt w t) (fun f => if f = tgt t then (w.2.buf t).map fun x => (t, x) else []) (fun _ => []) where
  file f := by
    simp only [flush1, set]
    split
    · rename_i h; subst h; rfl
    · simp
  mine s := by
    simp only [flush1, set, List.append_nil]
    by_cases hs : s = t
    · subst hs; simp [ofStream_self]
    · rw [if_neg hs]
      split
      · rw [ofStream_ne (Ne.symm hs)]; rfl
      · simp [ofStream]
  others s f hf := by
    by_cases hs : s = t
    · subst hs; simp [hf, ofStream]
    · split
      · exact ofStream_ne (Ne.symm hs) _
      · rfl
  open_ := rfl

theorem printed_cons (s : Stream) (o : Op) (os : List Op) : printed s (o :: os) = printed s [o] ++ printed s os := by
  show List.filterMap _ ([o] ++ os) = _
  rw [List.filterMap_append]; rfl

theorem printed_append (s : Stream) (a b : List Op) : printed s (a ++ b) = printed s a ++ printed s b := by
  simp [printed]

theorem flow_op1 {tgt w v o} (h : op1 tgt w o = some v) : ∃ B, Flow tgt w v B (fun s => printed s [o]) := by
  cases o with
  | print s x =>
    simp only [op1, Option.some.injEq] at h
    subst h
    refine ⟨fun _ => [], fun f => by simp, fun t => ?_, fun _ _ _ => rfl, rfl⟩
    simp only [set, printed]
    by_cases ht : t = s
    · subst ht; simp [ofStream]
    · simp [ofStream, ht, Ne.symm ht]
  | flush s =>
    simp only [op1, Option.some.injEq] at h
    subst h
    exact ⟨_, flow_flush1 tgt w s⟩
  | assign v n =>
    simp only [op1, Option.some.injEq] at h
    subst h
    exact ⟨fun _ => [], fun f => by simp, fun t => by simp [ofStream, printed], fun _ _ _ => rfl, rfl⟩
  | lock m =>
    simp only [op1] at h
    split at h
    · injection h with h; subst h
      exact ⟨fun _ => [], fun f => by simp, fun t => by simp [ofStream, printed], fun _ _ _ => rfl, rfl⟩
    · cases h
  | unlock m =>
    simp only [op1, Option.some.injEq] at h
    subst h
    exact ⟨fun _ => [], fun f => by simp, fun t => by simp [ofStream, printed], fun _ _ _ => rfl, rfl⟩

theorem flow_ops {tgt} : ∀ {body : List Op} {w v : Files × Proc}, ops tgt w body = some v →
    ∃ B, Flow tgt w v B (fun s => printed s body)
  | [], w, v, h => by
    simp [ops] at h; subst h
    exact ⟨_, Flow.refl tgt w⟩
  | o :: os, w, v, h => by
    simp only [ops] at h
    cases ho : op1 tgt w o with
    | none => simp [ho] at h
    | some u =>
      simp only [ho, Option.bind_some] at h
      obtain ⟨B, hB⟩ := flow_op1 ho
      obtain ⟨B', hB'⟩ := flow_ops h
      refine ⟨_, (funext fun s => printed_cons s o os : (fun s => printed s (o :: os)) = _) ▸ hB.trans hB'⟩

theorem foldl_cfiles (tgt) : ∀ (ns : List Nat) (w : Files × Proc),
    (∃ B, Flow tgt w (ns.foldl (fun v n => flush1 tgt v (.cfile n)) w) B (fun _ => [])) ∧
    (∀ s, (∀ n ∈ ns, s ≠ .cfile n) → (ns.foldl (fun v n => flush1 tgt v (.cfile n)) w).2.buf s = w.2.buf s) ∧
    (∀ s, ((∃ n ∈ ns, s = .cfile n) ∨ w.2.buf s = []) → (ns.foldl (fun v n => flush1 tgt v (.cfile n)) w).2.buf s = []) ∧
    (ns.foldl (fun v n => flush1 tgt v (.cfile n)) w).2.var = w.2.var ∧
    (ns.foldl (fun v n => flush1 tgt v (.cfile n)) w).2.lock = w.2.lock
  | [], w => ⟨⟨_, Flow.refl tgt w⟩, fun _ _ => rfl, fun s h => h.elim (fun ⟨_, h, _⟩ => by simp at h) id, rfl, rfl⟩
  | n :: ns, w => by
    obtain ⟨⟨B, hB⟩, h1, h2, h3, h4⟩ := foldl_cfiles tgt ns (flush1 tgt w (.cfile n))
    simp only [List.foldl_cons]
    refine ⟨⟨_, (flow_flush1 tgt w (.cfile n)).trans hB⟩, fun s hs => ?_, fun s hs => ?_, h3, h4⟩
    · rw [h1 s fun k hk => hs k (List.mem_cons_of_mem _ hk)]
      simp [flush1, set, hs n List.mem_cons_self]
    · apply h2
      by_cases hn : s = .cfile n
      · right; simp [flush1, set, hn]
      · rcases hs with ⟨k, hk, rfl⟩ | hs
        · rcases List.mem_cons.1 hk with rfl | hk
          · exact absurd rfl hn
          · exact .inl ⟨k, hk, rfl⟩
        · right; simp [flush1, set, hn, hs]

/-- Flushing everything writes the buffers of all known streams that are open, and no other ones. -/
theorem flow_flushAll (tgt) (w : Files × Proc) :
    (∃ B, Flow tgt w (flushAll tgt w) B (fun _ => [])) ∧
    (∀ n, (flushAll tgt w).2.buf (.other n) = w.2.buf (.other n)) ∧
    (∀ s, s.known = true → (∀ n, s = .cfile n → n ∈ w.2.cfiles ∨ w.2.buf s = []) → (flushAll tgt w).2.buf s = []) ∧
    (flushAll tgt w).2.var = w.2.var ∧ (flushAll tgt w).2.lock = w.2.lock := by
  obtain ⟨⟨B, hB⟩, h1, h2, h3, h4⟩ := foldl_cfiles tgt w.2.cfiles (flush1 tgt (flush1 tgt w .cout) .cerr)
  refine ⟨⟨_, ((flow_flush1 tgt w .cout).trans (flow_flush1 tgt _ .cerr)).trans hB⟩, fun n => ?_, fun s hk hs => ?_, h3, h4⟩
  · exact (h1 (.other n) (by simp)).trans (by simp [flush1, set])
  · refine h2 s ?_
    cases s with
    | cout => right; simp [flush1, set]
    | cerr => right; simp [flush1, set]
    | other n => simp [Stream.known] at hk
    | cfile n =>
      rcases hs n rfl with h | h
      · exact .inl ⟨n, h, rfl⟩
      · right; simp [flush1, set, h]

theorem childRun_eq {tgt w body e globals} :
    childRun tgt w body e globals = (ops tgt w (runs body globals e)).map fun v =>
      (if e = .returns ∨ e = .stdExit then (flushAll tgt v).1 else v.1, decide (e = .stdExit)) := by
  have app : ∀ (a b : List Op) (w : Files × Proc), ops tgt w (a ++ b) = (ops tgt w a).bind fun v => ops tgt v b := by
    intro a
    induction a with
    | nil => intro b w; rfl
    | cons o os ih =>
      intro b w
      simp only [List.cons_append, ops]
      cases op1 tgt w o with
      | none => rfl
      | some v => simp only [Option.bind_some]; exact ih b v
  cases e <;> simp [childRun, runs, app]
  · cases ops tgt w body <;> rfl
  · cases ops tgt w body <;> rfl
  · cases ops tgt w body <;> rfl
  · cases ops tgt w body with
    | none => rfl
    | some v => simp only [Option.bind_some, Function.comp_apply]

/-! ### Output -/

/-- A parent that has printed to `std::cout` (7) and to a file stream (8), both not yet written. -/
def before : Files × Proc :=
  (fun _ => [], ⟨fun s => match s with | .cout => [7] | .other 0 => [8] | _ => [], [0], fun _ => 0, fun m => if m = 3 then some 1 else none⟩)

/-- `std::cout` and C stream 0 write to file 0, all others to file 1. -/
def tgt0 : Stream → Nat
  | .cout => 0
  | .cfile 0 => 0
  | _ => 1

/-- **C115 (output, partial).** For `std::cout`, `std::cerr` and C streams: what the parent printed before the sandbox and what
the function prints appear exactly once, first what is from the parent, then what is from the function — all of it if the
function returns, else a beginning of it — and the parent writes nothing of it again. Only these streams: what the parent
printed to another one is written by the child too if it flushes that stream, and what the function prints to it may be lost
(see `sandbox_other_streams`, `sandbox_twice_refuted`, `sandbox_lost_refuted`). Variables and mutexes of the parent are as
before, whatever the function did. Destructors of global objects run in the child only if it calls `std::exit`. -/
theorem sandbox_output_partial {tgt : Stream → Nat} {w : Files × Proc} {body globals : List Op} {e : End} {files : Files}
    {p : Proc} {d : Bool} (h : sandboxIO tgt w body e globals = some (files, p, d))
    (ho : ∀ n, w.2.buf (.cfile n) ≠ [] → n ∈ w.2.cfiles)
    (hb : ∀ n, printed (.cfile n) (runs body globals e) ≠ [] → n ∈ w.2.cfiles) :
    (∃ A B : Files, (∀ f, files f = w.1 f ++ A f ++ B f) ∧ ∀ s,
      (∀ f, f ≠ tgt s → ofStream s (A f) = [] ∧ ofStream s (B f) = []) ∧
      (s.known = true → ofStream s (A (tgt s)) = w.2.buf s ∧ p.buf s = [] ∧
        ofStream s (B (tgt s)) <+: printed s (runs body globals e) ∧
        (e = .returns ∨ e = .stdExit → ofStream s (B (tgt s)) = printed s (runs body globals e))) ∧
      (s.known = false → ofStream s (A (tgt s)) = [] ∧ p.buf s = w.2.buf s ∧
        ofStream s (B (tgt s)) <+: w.2.buf s ++ printed s (runs body globals e))) ∧
    p.var = w.2.var ∧ p.lock = w.2.lock ∧ (d = true ↔ e = .stdExit) := by
  simp only [sandboxIO, childRun_eq, Option.map_map, Option.map_eq_some_iff, Function.comp_apply, Prod.mk.injEq] at h
  obtain ⟨v, hv, hf, hp, hd⟩ := h
  obtain ⟨⟨A, hA⟩, a1, a2, a3, a4⟩ := flow_flushAll tgt w
  obtain ⟨B, hB⟩ := flow_ops hv
  obtain ⟨⟨Z, hZ⟩, z1, z2, _, _⟩ := flow_flushAll tgt v
  subst hp
  have known0 : ∀ s, s.known = true → (flushAll tgt w).2.buf s = [] := fun s hs => a2 s hs fun n hn => by
    subst hn
    by_cases hx : w.2.buf (.cfile n) = []
    · exact .inr hx
    · exact .inl (ho n hx)
  refine ⟨?_, a3, a4, by rw [← hd]; simp⟩
  have common : ∀ s, (∀ f, f ≠ tgt s → ofStream s (A f) = []) ∧
      (s.known = true → ofStream s (A (tgt s)) = w.2.buf s ∧ (flushAll tgt w).2.buf s = []) ∧
      (s.known = false → ofStream s (A (tgt s)) = [] ∧ (flushAll tgt w).2.buf s = w.2.buf s) := by
    intro s
    have hm := hA.mine s
    refine ⟨hA.others s, fun hk => ?_, fun hk => ?_⟩
    · rw [known0 s hk] at hm
      simp only [List.append_nil] at hm
      exact ⟨hm, known0 s hk⟩
    · cases s with
      | other n =>
        rw [a1] at hm
        simp only [List.append_nil] at hm
        exact ⟨by simpa using hm, a1 n⟩
      | _ => simp [Stream.known] at hk
  by_cases he : e = .returns ∨ e = .stdExit
  · rw [if_pos he] at hf
    have hBZ := hB.trans hZ
    refine ⟨A, fun f => B f ++ Z f, fun f => by rw [← hf, hBZ.file, hA.file], fun s => ?_⟩
    have hm := hBZ.mine s
    simp only [List.append_nil] at hm
    obtain ⟨c1, c2, c3⟩ := common s
    refine ⟨fun f hf => ⟨c1 f hf, hBZ.others s f hf⟩, fun hk => ?_, fun hk => ?_⟩
    · have hz : (flushAll tgt v).2.buf s = [] := z2 s hk fun n hn => by
        subst hn
        by_cases hx : v.2.buf (.cfile n) = []
        · exact .inr hx
        · left
          rw [hB.open_, hA.open_]
          refine hb n fun hpn => hx ?_
          have := hB.mine (.cfile n)
          rw [known0 _ hk, hpn] at this
          simp at this
          exact this.2
      rw [hz, known0 s hk] at hm
      simp only [List.append_nil, List.nil_append] at hm
      exact ⟨(c2 hk).1, (c2 hk).2, hm ▸ List.prefix_refl _, fun _ => hm⟩
    · refine ⟨(c3 hk).1, (c3 hk).2, ?_⟩
      rw [← (c3 hk).2, ← hm]
      exact List.prefix_append _ _
  · rw [if_neg he] at hf
    refine ⟨A, B, fun f => by rw [← hf, hB.file, hA.file], fun s => ?_⟩
    have hm := hB.mine s
    obtain ⟨c1, c2, c3⟩ := common s
    refine ⟨fun f hf => ⟨c1 f hf, hB.others s f hf⟩, fun hk => ?_, fun hk => ?_⟩
    · rw [known0 s hk] at hm
      simp only [List.nil_append] at hm
      exact ⟨(c2 hk).1, (c2 hk).2, hm ▸ List.prefix_append _ _, fun h => absurd h he⟩
    · refine ⟨(c3 hk).1, (c3 hk).2, ?_⟩
      rw [← (c3 hk).2, ← hm]
      exact List.prefix_append _ _

example : (sandboxIO tgt0 before [.print .cout 1, .print (.cfile 0) 2, .assign 0 5, .print .cout 3] .returns []).any (fun r =>
      decide (r.1 0 = [(.cout, 7), (.cout, 1), (.cout, 3), (.cfile 0, 2)]) && decide (r.2.1.var 0 = 0) && !r.2.2) = true ∧
    (∀ n, before.2.buf (.cfile n) ≠ [] → n ∈ before.2.cfiles) := ⟨by decide +kernel, fun n h => by simp [before] at h⟩

/-- If the function dies, what it has not flushed is lost. -/
example : (sandboxIO tgt0 before [.print .cout 1, .flush .cout, .print .cout 3] .dies []).any (fun r =>
    decide (r.1 0 = [(.cout, 7), (.cout, 1)])) = true := by decide +kernel

/-- **C115 (other streams).** A stream that `flush_all_streams` does not know of, when the function returns or dies: if the function
never flushes it, nothing is written, and what the function printed to it is lost. If it does, everything up to its last flush is
written, beginning with what the parent had printed before — and the parent still has that in its buffer. -/
theorem sandbox_other_streams {tgt : Stream → Nat} {w : Files × Proc} {body globals : List Op} {e : End} {files : Files}
    {p : Proc} {d : Bool} (h : sandboxIO tgt w body e globals = some (files, p, d)) (n : Nat) :
    p.buf (.other n) = w.2.buf (.other n) ∧
    (.flush (.other n) ∉ runs body globals e → ofStream (.other n) (files (tgt (.other n))) = ofStream (.other n) (w.1 (tgt (.other n)))) ∧
    (∀ pre post, runs body globals e = pre ++ .flush (.other n) :: post → .flush (.other n) ∉ post →
      ofStream (.other n) (files (tgt (.other n))) =
        ofStream (.other n) (w.1 (tgt (.other n))) ++ (w.2.buf (.other n) ++ printed (.other n) pre)) := by
  simp only [sandboxIO, childRun_eq, Option.map_map, Option.map_eq_some_iff, Function.comp_apply, Prod.mk.injEq] at h
  obtain ⟨v, hv, hf, hp, _⟩ := h
  -- nothing of the stream is written without a flush
  have quiet : ∀ {w v : Files × Proc}, v.2.buf (.other n) = w.2.buf (.other n) → (∃ B, Flow tgt w v B (fun _ => [])) →
      ofStream (.other n) (v.1 (tgt (.other n))) = ofStream (.other n) (w.1 (tgt (.other n))) := by
    rintro w v hb ⟨B, hB⟩
    have hm := hB.mine (.other n)
    rw [hb] at hm
    simp at hm
    rw [hB.file, ofStream_append, hm]
    simp
  have step : ∀ {w v : Files × Proc} {o : Op}, op1 tgt w o = some v → o ≠ .flush (.other n) →
      ofStream (.other n) (v.1 (tgt (.other n))) = ofStream (.other n) (w.1 (tgt (.other n))) ∧
        v.2.buf (.other n) = w.2.buf (.other n) ++ printed (.other n) [o] := by
    intro w v o ho hne
    have hbuf : v.2.buf (.other n) = w.2.buf (.other n) ++ printed (.other n) [o] := by
      cases o with
      | print s x =>
        simp only [op1, Option.some.injEq] at ho
        subst ho
        by_cases hs : s = .other n
        · subst hs; simp [set, printed]
        · simp [set, printed, hs, Ne.symm hs]
      | flush s =>
        simp only [op1, Option.some.injEq] at ho
        subst ho
        have : Stream.other n ≠ s := fun e => hne (by rw [e])
        simp [flush1, set, printed, this]
      | assign x y => simp only [op1, Option.some.injEq] at ho; subst ho; simp [printed]
      | lock m =>
        simp only [op1] at ho
        split at ho
        · injection ho with ho; subst ho; simp [printed]
        · cases ho
      | unlock m => simp only [op1, Option.some.injEq] at ho; subst ho; simp [printed]
    obtain ⟨B, hB⟩ := flow_op1 ho
    have hm := hB.mine (.other n)
    rw [hbuf] at hm
    have : ofStream (.other n) (B (tgt (.other n))) = [] := by
      have := congrArg List.length hm
      simp at this
      exact this
    exact ⟨by rw [hB.file, ofStream_append, this]; simp, hbuf⟩
  have many : ∀ {os : List Op} {w v : Files × Proc}, ops tgt w os = some v → .flush (.other n) ∉ os →
      ofStream (.other n) (v.1 (tgt (.other n))) = ofStream (.other n) (w.1 (tgt (.other n))) := by
    intro os
    induction os with
    | nil => intro w v h _; simp [ops] at h; rw [h]
    | cons o os ih =>
      intro w v h hn
      simp only [ops] at h
      cases ho : op1 tgt w o with
      | none => simp [ho] at h
      | some u =>
        simp only [ho, Option.bind_some] at h
        rw [ih h fun x => hn (List.mem_cons_of_mem _ x)]
        exact (step ho fun e => hn (e ▸ List.mem_cons_self)).1
  have last : ofStream (.other n) (files (tgt (.other n))) = ofStream (.other n) (v.1 (tgt (.other n))) := by
    rw [← hf]
    split
    · exact quiet ((flow_flushAll tgt v).2.1 n) (flow_flushAll tgt v).1
    · rfl
  have first : ofStream (.other n) ((flushAll tgt w).1 (tgt (.other n))) = ofStream (.other n) (w.1 (tgt (.other n))) :=
    quiet ((flow_flushAll tgt w).2.1 n) (flow_flushAll tgt w).1
  refine ⟨by rw [← hp]; exact (flow_flushAll tgt w).2.1 n, fun hn => by rw [last, many hv hn, first], fun pre post hpp hn => ?_⟩
  rw [hpp] at hv
  have app : ∀ (a b : List Op) (w : Files × Proc), ops tgt w (a ++ b) = (ops tgt w a).bind fun v => ops tgt v b := by
    intro a
    induction a with
    | nil => intro b w; rfl
    | cons o os ih =>
      intro b w
      simp only [List.cons_append, ops]
      cases op1 tgt w o with
      | none => rfl
      | some v => simp only [Option.bind_some]; exact ih b v
  rw [app] at hv
  cases hpre : ops tgt (flushAll tgt w) pre with
  | none => simp [hpre] at hv
  | some u =>
    simp only [hpre, Option.bind_some, ops, op1] at hv
    rw [last, many hv hn]
    obtain ⟨B, hB⟩ := flow_ops hpre
    have hm := (hB.trans (flow_flush1 tgt u (.other n))).mine (.other n)
    rw [(hB.trans (flow_flush1 tgt u (.other n))).file, ofStream_append, first]
    have hz : (flush1 tgt u (.other n)).2.buf (.other n) = [] := by simp [flush1, set]
    rw [hz, (flow_flushAll tgt w).2.1 n] at hm
    rw [List.append_nil] at hm
    rw [hm, List.append_nil]

example : (sandboxIO tgt0 before [.print (.other 0) 1, .flush (.other 0), .print (.other 0) 2] .returns []).any (fun r =>
    decide (ofStream (.other 0) (r.1 1) = [8, 1]) && decide (r.2.1.buf (.other 0) = [8])) = true := by decide +kernel

/-- **C115 (refuted: everything printed before the sandbox appears once).** The function flushes a file stream to which the
parent has printed before: the text is written by the child, and again by the parent. -/
theorem sandbox_twice_refuted :
    ((sandboxIO tgt0 before [.flush (.other 0)] .returns []).map fun r =>
      ofStream (.other 0) ((flush1 tgt0 (r.1, r.2.1) (.other 0)).1 1)) = some [8, 8] := by decide +kernel

/-- **C115 (refuted: what a function that returns has printed is not lost).** It is, if printed to a stream that is not flushed
by `flush_all_streams`: the process ends with `_exit`. -/
theorem sandbox_lost_refuted :
    ((sandboxIO tgt0 before [.print (.other 1) 5] .returns []).map fun r =>
      (ofStream (.other 1) (r.1 1), r.2.1.buf (.other 1))) = some ([], []) := by decide +kernel

/-! ### Locks -/

theorem locked_append (b : Bool) (m : Nat) : ∀ (a c : List Op), locked b m (a ++ c) = locked (locked b m a) m c
  | [], _ => rfl
  | .print _ _ :: os, c => by simp only [List.cons_append, locked]; exact locked_append b m os c
  | .flush _ :: os, c => by simp only [List.cons_append, locked]; exact locked_append b m os c
  | .assign _ _ :: os, c => by simp only [List.cons_append, locked]; exact locked_append b m os c
  | .lock m' :: os, c => by simp only [List.cons_append, locked]; exact locked_append _ m os c
  | .unlock m' :: os, c => by simp only [List.cons_append, locked]; exact locked_append _ m os c

theorem op1_lock {tgt w v o} (h : op1 tgt w o = some v) (m : Nat) :
    (v.2.lock m).isSome = locked (w.2.lock m).isSome m [o] := by
  cases o with
  | print s x => simp only [op1, Option.some.injEq] at h; subst h; rfl
  | flush s => simp only [op1, Option.some.injEq] at h; subst h; rfl
  | assign x n => simp only [op1, Option.some.injEq] at h; subst h; rfl
  | lock m' =>
    simp only [op1] at h
    split at h
    · injection h with h; subst h
      simp only [locked, set]
      by_cases hm : m = m'
      · subst hm; simp
      · simp [hm, Ne.symm hm]
    · cases h
  | unlock m' =>
    simp only [op1, Option.some.injEq] at h; subst h
    simp only [locked, set]
    by_cases hm : m = m'
    · subst hm; simp
    · simp [hm, Ne.symm hm]

theorem ops_none_iff {tgt} : ∀ {body : List Op} {w : Files × Proc}, ops tgt w body = none ↔
    ∃ pre m post, body = pre ++ .lock m :: post ∧ locked (w.2.lock m).isSome m pre = true
  | [], w => by simp [ops]
  | o :: os, w => by
    simp only [ops]
    cases ho : op1 tgt w o with
    | none =>
      simp only [Option.bind_none, true_iff]
      cases o with
      | lock m =>
        refine ⟨[], m, os, rfl, ?_⟩
        simp only [op1] at ho
        split at ho
        · cases ho
        · rename_i h; simp [locked, h]
      | print s x => simp [op1] at ho
      | flush s => simp [op1] at ho
      | assign x n => simp [op1] at ho
      | unlock m => simp [op1] at ho
    | some v =>
      simp only [Option.bind_some]
      rw [ops_none_iff (body := os) (w := v)]
      constructor
      · rintro ⟨pre, m, post, rfl, hl⟩
        refine ⟨o :: pre, m, post, rfl, ?_⟩
        rw [show o :: pre = [o] ++ pre from rfl, locked_append, ← op1_lock ho m]
        exact hl
      · rintro ⟨pre, m, post, e, hl⟩
        cases pre with
        | nil =>
          simp at e
          obtain ⟨rfl, rfl⟩ := e
          simp only [locked] at hl
          simp only [op1] at ho
          split at ho
          · rename_i hn; simp [hn] at hl
          · cases ho
        | cons o' pre =>
          simp at e
          obtain ⟨rfl, rfl⟩ := e
          refine ⟨pre, m, post, rfl, ?_⟩
          rw [show o :: pre = [o] ++ pre from rfl, locked_append, ← op1_lock ho m] at hl
          exact hl

/-- **C115 (locks).** The sandbox waits for ever exactly if the child locks a mutex that is locked: by itself, or by any thread
of the parent at the time of the fork, since that thread does not exist in the child (this is the precondition in
sandbox.hpp:153-154). -/
theorem sandbox_hangs_iff {tgt : Stream → Nat} {w : Files × Proc} {body globals : List Op} {e : End} :
    sandboxIO tgt w body e globals = none ↔
      ∃ pre m post, runs body globals e = pre ++ .lock m :: post ∧ locked (w.2.lock m).isSome m pre = true := by
  simp only [sandboxIO, childRun_eq, Option.map_eq_none_iff]
  rw [ops_none_iff, (flow_flushAll tgt w).2.2.2.2]

/-- Thread 1 of the parent holds mutex 3; mutex 4 is free. -/
example : (sandboxIO tgt0 before [.lock 4, .unlock 4, .lock 4] .returns []).isSome = true ∧
    sandboxIO tgt0 before [.print .cout 1, .lock 3] .returns [] = none := by
  refine ⟨by decide +kernel, sandbox_hangs_iff.2 ⟨[.print .cout 1], 3, [], rfl, rfl⟩⟩

end Verif.Sandbox
