import Verif.Pool.BoostModel
import Verif.Pool.Props

/-!
C83: the memory that a pool gives out is disjoint and, for types that are not too strictly aligned, aligned.
-/
namespace Verif.Pool

/-! ### Lemmas -/

theorem partSize_ge (s : Nat) : s ≤ partSize s := by unfold partSize; dsimp only; split <;> omega
theorem partSize_pos (s : Nat) : 8 ≤ partSize s := by unfold partSize; dsimp only; split <;> omega
theorem partSize_dvd (s : Nat) : 8 ∣ partSize s := by unfold partSize; dsimp only; split <;> omega

theorem partSize_eq {s : Nat} (h0 : 0 < s) (h : 8 ∣ s) : partSize s = s := by
  unfold partSize; dsimp only
  have : max s 8 = s := by omega
  rw [this, if_pos (by omega)]

theorem Apart.symm {x y : Area} (h : Apart x y) : Apart y x := Or.symm h

/-- `x` is part of `y`. -/
def Inside (x y : Area) : Prop := y.1 ≤ x.1 ∧ x.1 + x.2 ≤ y.1 + y.2

theorem Apart.inside {x y x' y' : Area} (h : Apart x y) (hx : Inside x' x) (hy : Inside y' y) : Apart x' y' := by
  obtain ⟨h1, h2⟩ := hx
  obtain ⟨h3, h4⟩ := hy
  rcases h with h | h
  · exact .inl (by omega)
  · exact .inr (by omega)

/-- What the source of a request of `n` bytes gives. -/
def given (bs : List Nat) (n : Nat) : Nat := match allocFrom 0 bs n with
  | .bucket i => partSize (bs[i]?.getD 0)
  | .heap => n

theorem alloc_bucket {n i : Nat} : ∀ {bs : List Nat} {ix : Nat}, allocFrom ix bs n = .bucket i → ix ≤ i ∧ ∃ b, bs[i - ix]? = some b ∧ n ≤ b
  | [], ix, h => by simp [allocFrom] at h
  | b :: bs, ix, h => by
    simp only [allocFrom] at h
    split at h
    · injection h with h; subst h; exact ⟨Nat.le_refl _, b, by simp, by assumption⟩
    · obtain ⟨h1, c, h2, h3⟩ := alloc_bucket h
      refine ⟨by omega, c, ?_, h3⟩
      have : i - ix = (i - (ix + 1)) + 1 := by omega
      rw [this, List.getElem?_cons_succ]; exact h2

theorem given_ge (bs : List Nat) (n : Nat) : n ≤ given bs n := by
  unfold given
  split
  · rename_i i h
    obtain ⟨_, b, h1, h2⟩ := alloc_bucket h
    simp only [Nat.sub_zero] at h1
    rw [h1, Option.getD_some]
    exact Nat.le_trans h2 (partSize_ge b)
  · exact Nat.le_refl _

/-- The free partitions of a bucket. -/
def Bucket.parts (b : Bucket) : List Area := b.free.map fun a => (a, partSize b.size)

/-- Everything that the pool has, in use or not. -/
def Arena.blocks (bs : List Nat) (s : Arena) : List Area := s.buckets.flatMap Bucket.parts ++ s.live.map fun x => (x.1, given bs x.2)

/-- The address is that of a partition of a chunk. -/
def Bucket.Grid (b : Bucket) (a : Nat) : Prop := ∃ c ∈ b.chunks, newAlign ∣ c.1 ∧ ∃ j < c.2, a = c.1 + j * partSize b.size

structure AInv (bs : List Nat) (s : Arena) : Prop where
  sizes : s.buckets.map (·.size) = bs
  disj : (s.blocks bs).Pairwise Apart
  inside : ∀ x ∈ s.blocks bs, ∃ y ∈ s.areas, Inside x y
  free : ∀ b ∈ s.buckets, ∀ a ∈ b.free, b.Grid a
  live : ∀ x ∈ s.live, match allocFrom 0 bs x.2 with
    | .bucket i => ∃ b, s.buckets[i]? = some b ∧ b.Grid x.1
    | .heap => newAlign ∣ x.1
  heap : s.heap.Perm (s.live.filter fun x => decide (allocFrom 0 bs x.2 = .heap))

theorem flatMap_set_perm {β γ : Type} (f : β → List γ) : ∀ {l : List β} {i : Nat} {x : β}, l[i]? = some x → ∀ y,
    ((l.set i y).flatMap f ++ f x).Perm (l.flatMap f ++ f y)
  | [], i, x, h, y => by simp at h
  | a :: l, 0, x, h, y => by
    simp at h; subst h
    simp only [List.set_cons_zero, List.flatMap_cons, List.append_assoc]
    refine (List.perm_append_comm (l₁ := f y)).trans ?_
    rw [← List.append_assoc (f a)]
    exact List.perm_append_comm.append_right _
  | a :: l, i + 1, x, h, y => by
    simp at h
    have := flatMap_set_perm f h y
    simp only [List.set_cons_succ, List.flatMap_cons, List.append_assoc]
    exact List.Perm.append_left _ this

theorem sizes_set {l : List Bucket} {i : Nat} {b b' : Bucket} (h : l[i]? = some b) (hs : b'.size = b.size) :
    (l.set i b').map (·.size) = l.map (·.size) := by
  apply List.ext_getElem?
  intro j
  rw [List.getElem?_map, List.getElem?_map, List.getElem?_set]
  split
  · subst_vars
    split
    · simp [h, hs]
    · rename_i hn; rw [List.getElem?_eq_none (by omega)]
  · rfl

theorem Bucket.Grid.mono {b b' : Bucket} {a : Nat} (h : b.Grid a) (hs : b'.size = b.size) (hc : ∀ c ∈ b.chunks, c ∈ b'.chunks) : b'.Grid a := by
  obtain ⟨c, h1, h2, j, h3, h4⟩ := h
  exact ⟨c, hc c h1, h2, j, h3, by rw [hs]; exact h4⟩

theorem AInv.init (bs : List Nat) : AInv bs (Arena.init bs) := by
  have h0 : (Arena.init bs).blocks bs = [] := by
    simp only [Arena.blocks, Arena.init, List.map_nil, List.append_nil, List.flatMap_eq_nil_iff, List.mem_map]
    rintro b ⟨s, _, rfl⟩; rfl
  refine ⟨?_, ?_, ?_, ?_, ?_, ?_⟩
  · simp [Arena.init, Function.comp_def]
  · rw [h0]; exact .nil
  · rw [h0]; simp
  · intro b hb a ha
    simp only [Arena.init, List.mem_map] at hb
    obtain ⟨s, _, rfl⟩ := hb
    simp at ha
  · simp [Arena.init]
  · simp [Arena.init]

/-- The partitions of a new chunk. -/
theorem chunk_pairwise (p base : Nat) : ∀ n, ((List.range n).map fun i => ((base + i * p, p) : Area)).Pairwise Apart := by
  intro n
  rw [List.pairwise_map]
  refine List.Pairwise.imp ?_ List.pairwise_lt_range
  intro i j hij
  left
  have : (i + 1) * p ≤ j * p := Nat.mul_le_mul_right p hij
  rw [Nat.add_mul, Nat.one_mul] at this
  show base + i * p + p ≤ base + j * p
  omega

theorem chunk_range (p base k : Nat) : ((base, p) : Area) :: (List.range k).map (fun i => (base + (i + 1) * p, p)) =
    (List.range (k + 1)).map fun i => (base + i * p, p) := by
  rw [List.range_succ_eq_map, List.map_cons, List.map_map]
  simp [Function.comp_def]

theorem mem_set {β : Type} {l : List β} {i : Nat} {x y : β} (h : y ∈ l.set i x) : y = x ∨ y ∈ l := (List.mem_or_eq_of_mem_set h).symm

theorem areas_set_same {s : Arena} {i : Nat} {b b' : Bucket} (h : s.buckets[i]? = some b) (hs : b'.size = b.size) (hc : b'.chunks = b.chunks) {live : List Area} {x : Area} :
    x ∈ (Arena.mk (s.buckets.set i b') s.heap live).areas ↔ x ∈ s.areas := by
  have := (flatMap_set_perm (fun b : Bucket => b.chunks.map fun c => ((c.1, chunkBytes b.size c.2) : Area)) h b').mem_iff (a := x)
  simp only [hs, hc, List.mem_append] at this
  simp only [Arena.areas, List.mem_append]
  constructor
  · rintro (h1 | h1)
    · rcases this.1 (.inl h1) with h2 | h2
      · exact .inl h2
      · exact .inl (List.mem_flatMap.2 ⟨b, List.mem_of_getElem? h, h2⟩)
    · exact .inr h1
  · rintro (h1 | h1)
    · rcases this.2 (.inl h1) with h2 | h2
      · exact .inl h2
      · refine .inl (List.mem_flatMap.2 ⟨b', List.mem_of_getElem? (List.getElem?_set_self ?_), by rw [hs, hc]; exact h2⟩)
        exact (List.getElem?_eq_some_iff.1 h).1
    · exact .inr h1

/-- Changing a bucket without taking chunks away keeps addresses where they are. -/
theorem live_set {bs : List Nat} {s : Arena} {i : Nat} {b b' : Bucket} (h : s.buckets[i]? = some b) (hs : b'.size = b.size)
    (hc : ∀ c ∈ b.chunks, c ∈ b'.chunks) {x : Area}
    (hx : match allocFrom 0 bs x.2 with
      | .bucket i => ∃ b, s.buckets[i]? = some b ∧ b.Grid x.1
      | .heap => newAlign ∣ x.1) :
    match allocFrom 0 bs x.2 with
      | .bucket j => ∃ b, (s.buckets.set i b')[j]? = some b ∧ b.Grid x.1
      | .heap => newAlign ∣ x.1 := by
  split at hx
  · rename_i j _
    obtain ⟨c, h1, h2⟩ := hx
    by_cases hj : i = j
    · subst hj
      rw [h] at h1; injection h1 with h1; subst h1
      exact ⟨b', List.getElem?_set_self (List.getElem?_eq_some_iff.1 h).1, h2.mono hs hc⟩
    · exact ⟨c, by rw [List.getElem?_set_ne hj]; exact h1, h2⟩
  · exact hx

theorem eraseIdx_perm {β : Type} : ∀ {l : List β} {j : Nat} {x : β}, l[j]? = some x → l.Perm (x :: l.eraseIdx j)
  | a :: l, 0, x, h => by simp at h; subst h; exact List.Perm.refl _
  | a :: l, j + 1, x, h => by
    simp at h
    exact ((eraseIdx_perm h).cons a).trans (List.Perm.swap x a _)

theorem AInv.step {bs : List Nat} (hbs : bs ≠ []) {s : Arena} (hi : AInv bs s) {o : ArenaOp} {r : Arena × Option Nat} (h : s.step o = some r) :
    AInv bs r.1 := by
  cases o with
  | allocate n ans =>
    simp only [Arena.step, hi.sizes] at h
    split at h
    · rename_i i hfrom
      split at h
      · cases h
      · rename_i b hb
        have hsize : bs[i]? = some b.size := by rw [← hi.sizes, List.getElem?_map, hb]; rfl
        have hgiven : given bs n = partSize b.size := by simp only [given, hfrom, hsize, Option.getD_some]
        have hilt : i < s.buckets.length := (List.getElem?_eq_some_iff.1 hb).1
        split at h
        · cases h
        · rename_i hpos
          cases hf : b.free with
          | cons a rest =>
            simp only [Bucket.malloc, hf] at h
            injection h with h; subst h
            have hperm : (Arena.blocks bs { s with buckets := s.buckets.set i { b with free := rest }, live := s.live ++ [(a, n)] }).Perm (s.blocks bs) := by
              have h1 := flatMap_set_perm Bucket.parts hb { b with free := rest }
              have h2 : b.parts = (a, partSize b.size) :: Bucket.parts { b with free := rest } := by simp [Bucket.parts, hf]
              rw [h2] at h1
              have h3 : ((s.buckets.set i { b with free := rest }).flatMap Bucket.parts ++ [(a, partSize b.size)]).Perm (s.buckets.flatMap Bucket.parts) := by
                refine (List.perm_append_right_iff (Bucket.parts { b with free := rest })).1 ?_
                rw [List.append_assoc]; exact h1
              simp only [Arena.blocks, List.map_append, List.map_cons, List.map_nil, hgiven]
              rw [← List.append_assoc]
              refine List.perm_append_comm.trans ?_
              rw [← List.append_assoc]
              exact ((List.perm_append_comm).trans h3).append_right _
            refine ⟨?_, ?_, ?_, ?_, ?_, ?_⟩
            · refine (sizes_set hb ?_).trans hi.sizes; rfl
            · exact (hperm.pairwise_iff Apart.symm).2 hi.disj
            · intro x hx
              obtain ⟨y, h1, h2⟩ := hi.inside x (hperm.mem_iff.1 hx)
              refine ⟨y, (areas_set_same hb ?_ ?_).2 h1, h2⟩ <;> rfl
            · intro c hc a' ha'
              rcases mem_set hc with rfl | hc
              · exact (hi.free b (List.mem_of_getElem? hb) a' (by rw [hf]; exact List.mem_cons_of_mem _ ha')).mono rfl fun _ h => h
              · exact hi.free c hc a' ha'
            · intro x hx
              rw [List.mem_append] at hx
              rcases hx with hx | hx
              · exact live_set hb (by rfl) (by exact fun _ h => h) (hi.live x hx)
              · rw [List.mem_singleton] at hx; subst hx
                simp only [hfrom]
                exact ⟨_, List.getElem?_set_self hilt, (hi.free b (List.mem_of_getElem? hb) a (by rw [hf]; exact List.mem_cons_self)).mono rfl fun _ h => h⟩
            · show s.heap.Perm _
              rw [List.filter_append, List.filter_cons_of_neg (by simp [hfrom]), List.filter_nil, List.append_nil]; exact hi.heap
          | nil =>
            cases ans with
            | none => simp only [Bucket.malloc, hf] at h; injection h with h; subst h; exact hi
            | some g =>
              obtain ⟨base, k⟩ := g
              simp only [hf, decide_eq_true_eq] at hpos
              simp only [Bucket.malloc, hf] at h
              injection h with h; subst h
              obtain ⟨hal, hap⟩ := hpos
              have hnew : ∀ x ∈ (List.range (k + 1)).map (fun i => ((base + i * partSize b.size, partSize b.size) : Area)),
                  Inside x (base, chunkBytes b.size (k + 1)) := by
                intro x hx
                rw [List.mem_map] at hx
                obtain ⟨j, hj, rfl⟩ := hx
                rw [List.mem_range] at hj
                have : (j + 1) * partSize b.size ≤ (k + 1) * partSize b.size := Nat.mul_le_mul_right _ hj
                rw [Nat.add_mul j, Nat.one_mul] at this
                refine ⟨?_, ?_⟩ <;> simp only [chunkBytes] <;> omega
              have hperm : (Arena.blocks bs { s with
                  buckets := s.buckets.set i { b with free := (List.range k).map (fun i => base + (i + 1) * partSize b.size), chunks := b.chunks ++ [(base, k + 1)] },
                  live := s.live ++ [(base, n)] }).Perm
                  (s.blocks bs ++ (List.range (k + 1)).map (fun i => ((base + i * partSize b.size, partSize b.size) : Area))) := by
                have h1 := flatMap_set_perm Bucket.parts hb { b with free := (List.range k).map (fun i => base + (i + 1) * partSize b.size), chunks := b.chunks ++ [(base, k + 1)] }
                have h2 : b.parts = [] := by simp [Bucket.parts, hf]
                rw [h2, List.append_nil] at h1
                have h3 : Bucket.parts { b with free := (List.range k).map (fun i => base + (i + 1) * partSize b.size), chunks := b.chunks ++ [(base, k + 1)] } =
                    (List.range k).map (fun i => ((base + (i + 1) * partSize b.size, partSize b.size) : Area)) := by
                  simp [Bucket.parts, Function.comp_def]
                rw [h3] at h1
                simp only [Arena.blocks, List.map_append, List.map_cons, List.map_nil, hgiven]
                rw [← chunk_range]
                refine (h1.append_right _).trans ?_
                rw [List.append_assoc, List.append_assoc]
                refine List.Perm.append_left _ ?_
                refine List.perm_append_comm.trans ?_
                rw [List.append_assoc]
                exact List.Perm.refl _
              have hareas : ∀ x, x ∈ s.areas ∨ x = (base, chunkBytes b.size (k + 1)) →
                  x ∈ (Arena.mk (s.buckets.set i { b with free := (List.range k).map (fun i => base + (i + 1) * partSize b.size), chunks := b.chunks ++ [(base, k + 1)] })
                    s.heap (s.live ++ [(base, n)])).areas := by
                intro x hx
                simp only [Arena.areas, List.mem_append] at hx ⊢
                have h1 := (flatMap_set_perm (fun b : Bucket => b.chunks.map fun c => ((c.1, chunkBytes b.size c.2) : Area)) hb
                  { b with free := (List.range k).map (fun i => base + (i + 1) * partSize b.size), chunks := b.chunks ++ [(base, k + 1)] }).mem_iff (a := x)
                have h2 : ∀ y : Area, y ∈ b.chunks.map (fun c => ((c.1, chunkBytes b.size c.2) : Area)) ∨ y = (base, chunkBytes b.size (k + 1)) →
                    y ∈ (s.buckets.set i { b with free := (List.range k).map (fun i => base + (i + 1) * partSize b.size), chunks := b.chunks ++ [(base, k + 1)] }).flatMap
                      (fun b : Bucket => b.chunks.map fun c => ((c.1, chunkBytes b.size c.2) : Area)) := by
                  intro y hy
                  refine List.mem_flatMap.2 ⟨_, List.mem_of_getElem? (List.getElem?_set_self hilt), ?_⟩
                  simp only [List.map_append, List.map_cons, List.map_nil, List.mem_append, List.mem_singleton]
                  exact hy
                simp only [List.mem_append] at h1
                rcases hx with (hx | hx) | hx
                · rcases h1.2 (.inl hx) with h3 | h3
                  · exact .inl h3
                  · exact .inl (h2 x (.inl h3))
                · exact .inr hx
                · exact .inl (h2 x (.inr hx))
              refine ⟨?_, ?_, ?_, ?_, ?_, ?_⟩
              · refine (sizes_set hb ?_).trans hi.sizes; rfl
              · refine (hperm.pairwise_iff Apart.symm).2 ?_
                rw [List.pairwise_append]
                refine ⟨hi.disj, chunk_pairwise _ _ _, fun x hx y hy => ?_⟩
                obtain ⟨z, h1, h2⟩ := hi.inside x hx
                exact ((hap z h1).inside (hnew y hy) h2).symm
              · intro x hx
                rcases List.mem_append.1 (hperm.mem_iff.1 hx) with hx | hx
                · obtain ⟨y, h1, h2⟩ := hi.inside x hx
                  exact ⟨y, hareas y (.inl h1), h2⟩
                · exact ⟨_, hareas _ (.inr rfl), hnew x hx⟩
              · intro c hc a' ha'
                rcases mem_set hc with rfl | hc
                · simp only [List.mem_map, List.mem_range] at ha'
                  obtain ⟨j, hj, rfl⟩ := ha'
                  exact ⟨(base, k + 1), by simp, hal, j + 1, by dsimp only; omega, rfl⟩
                · exact hi.free c hc a' ha'
              · intro x hx
                rw [List.mem_append] at hx
                rcases hx with hx | hx
                · exact live_set hb (by rfl) (by exact fun _ h => by simp [h]) (hi.live x hx)
                · rw [List.mem_singleton] at hx; subst hx
                  simp only [hfrom]
                  exact ⟨_, List.getElem?_set_self hilt, (base, k + 1), by simp, hal, 0, by dsimp only; omega, by simp⟩
              · show s.heap.Perm _
                rw [List.filter_append, List.filter_cons_of_neg (by simp [hfrom]), List.filter_nil, List.append_nil]; exact hi.heap
    · rename_i hfrom
      split at h
      · injection h with h; subst h; exact hi
      · rename_i a k
        split at h
        · rename_i hfr
          injection h with h; subst h
          have hgiven : given bs n = n := by simp only [given, hfrom]
          have hblocks : Arena.blocks bs { s with heap := s.heap ++ [(a, n)], live := s.live ++ [(a, n)] } = s.blocks bs ++ [(a, n)] := by
            simp only [Arena.blocks, List.map_append, List.map_cons, List.map_nil, hgiven, List.append_assoc]
          refine ⟨hi.sizes, ?_, ?_, hi.free, ?_, ?_⟩
          · rw [hblocks, List.pairwise_append]
            refine ⟨hi.disj, List.pairwise_singleton _ _, fun x hx y hy => ?_⟩
            rw [List.mem_singleton] at hy; subst hy
            obtain ⟨z, h1, h2⟩ := hi.inside x hx
            exact ((hfr.2 z h1).inside ⟨Nat.le_refl _, Nat.le_refl _⟩ h2).symm
          · intro x hx
            rw [hblocks, List.mem_append] at hx
            rcases hx with hx | hx
            · obtain ⟨z, h1, h2⟩ := hi.inside x hx
              refine ⟨z, ?_, h2⟩
              simp only [Arena.areas, List.mem_append] at h1 ⊢
              rcases h1 with h1 | h1
              · exact .inl h1
              · exact .inr (.inl h1)
            · rw [List.mem_singleton] at hx; subst hx
              exact ⟨(a, n), by simp [Arena.areas], Nat.le_refl _, Nat.le_refl _⟩
          · intro x hx
            rw [List.mem_append] at hx
            rcases hx with hx | hx
            · exact hi.live x hx
            · rw [List.mem_singleton] at hx; subst hx
              simp only [hfrom]; exact hfr.1
          · show (s.heap ++ [(a, n)]).Perm _
            rw [List.filter_append, List.filter_cons_of_pos (by simp [hfrom]), List.filter_nil]
            exact hi.heap.append_right _
        · cases h
  | deallocate j =>
    simp only [Arena.step, hi.sizes, freeTo_eq] at h
    split at h
    · cases h
    · rename_i a n hj
      have hlive := eraseIdx_perm hj
      have hmem : ∀ x ∈ s.live.eraseIdx j, x ∈ s.live := fun x hx => List.mem_of_mem_eraseIdx hx
      split at h
      · rename_i i hfrom
        split at h
        · cases h
        · rename_i b hb
          injection h with h; subst h
          have hsize : bs[i]? = some b.size := by rw [← hi.sizes, List.getElem?_map, hb]; rfl
          have hgiven : given bs n = partSize b.size := by simp only [given, hfrom, hsize, Option.getD_some]
          have hilt : i < s.buckets.length := (List.getElem?_eq_some_iff.1 hb).1
          have hperm : (Arena.blocks bs { s with buckets := s.buckets.set i (b.release a), live := s.live.eraseIdx j }).Perm (s.blocks bs) := by
            have h1 := flatMap_set_perm Bucket.parts hb (b.release a)
            have h2 : (b.release a).parts = (a, partSize b.size) :: b.parts := rfl
            rw [h2] at h1
            have h3 : ((s.buckets.set i (b.release a)).flatMap Bucket.parts).Perm (s.buckets.flatMap Bucket.parts ++ [(a, partSize b.size)]) := by
              refine (List.perm_append_right_iff b.parts).1 ?_
              rw [List.append_assoc]; exact h1
            simp only [Arena.blocks]
            refine (h3.append_right _).trans ?_
            rw [List.append_assoc]
            refine List.Perm.append_left _ ?_
            have h4 := (hlive.map fun x : Area => ((x.1, given bs x.2) : Area)).symm
            simp only [List.map_cons, hgiven] at h4
            exact h4
          refine ⟨?_, ?_, ?_, ?_, ?_, ?_⟩
          · refine (sizes_set hb ?_).trans hi.sizes; rfl
          · exact (hperm.pairwise_iff Apart.symm).2 hi.disj
          · intro x hx
            obtain ⟨y, h1, h2⟩ := hi.inside x (hperm.mem_iff.1 hx)
            refine ⟨y, (areas_set_same hb ?_ ?_).2 h1, h2⟩ <;> rfl
          · intro c hc a' ha'
            rcases mem_set hc with rfl | hc
            · rcases List.mem_cons.1 ha' with rfl | ha'
              · have := hi.live _ (List.mem_of_getElem? hj)
                simp only [hfrom] at this
                obtain ⟨b2, h1, h2⟩ := this
                rw [hb] at h1; injection h1 with h1; subst h1
                exact h2.mono rfl fun _ h => h
              · exact (hi.free b (List.mem_of_getElem? hb) a' ha').mono rfl fun _ h => h
            · exact hi.free c hc a' ha'
          · intro x hx
            exact live_set hb (by rfl) (by exact fun _ h => h) (hi.live x (hmem x hx))
          · show s.heap.Perm _
            refine hi.heap.trans ?_
            have := hlive.filter fun x => decide (allocFrom 0 bs x.2 = .heap)
            rw [List.filter_cons_of_neg (by simp [hfrom])] at this
            exact this
      · rename_i hfrom
        injection h with h; subst h
        have hgiven : given bs n = n := by simp only [given, hfrom]
        have hn : 0 < n := by
          obtain ⟨c, hc⟩ := List.exists_mem_of_ne_nil bs hbs
          have := pool_heap_iff.1 hfrom c hc
          omega
        have hperm : (s.blocks bs).Perm ((a, n) :: Arena.blocks bs { s with heap := s.heap.erase (a, n), live := s.live.eraseIdx j }) := by
          simp only [Arena.blocks]
          have h4 := (hlive.map fun x : Area => ((x.1, given bs x.2) : Area))
          simp only [List.map_cons, hgiven] at h4
          exact (List.Perm.append_left _ h4).trans List.perm_middle
        have hdisj := (hperm.pairwise_iff Apart.symm).1 hi.disj
        rw [List.pairwise_cons] at hdisj
        have hpos : ∀ x ∈ s.blocks bs, 0 < x.2 := by
          intro x hx
          simp only [Arena.blocks, List.mem_append, List.mem_flatMap, List.mem_map, Bucket.parts] at hx
          rcases hx with ⟨b, _, a', _, rfl⟩ | ⟨y, _, rfl⟩
          · exact Nat.lt_of_lt_of_le (by omega) (partSize_pos b.size)
          · show 0 < given bs y.2
            unfold given
            split
            · exact Nat.lt_of_lt_of_le (by omega) (partSize_pos _)
            · rename_i hf
              obtain ⟨c, hc⟩ := List.exists_mem_of_ne_nil bs hbs
              have := pool_heap_iff.1 hf c hc
              omega
        refine ⟨hi.sizes, hdisj.2, ?_, hi.free, fun x hx => hi.live x (hmem x hx), ?_⟩
        · intro x hx
          have hx' := hperm.mem_iff.2 (List.mem_cons_of_mem _ hx)
          obtain ⟨y, h1, h2⟩ := hi.inside x hx'
          refine ⟨y, ?_, h2⟩
          have hne : y ≠ (a, n) := by
            rintro rfl
            have h3 := hdisj.1 x hx
            have h4 := hpos x hx'
            obtain ⟨h5, h6⟩ := h2
            dsimp only at h5 h6
            rcases h3 with h3 | h3 <;> dsimp only at h3 <;> omega
          simp only [Arena.areas, List.mem_append] at h1 ⊢
          rcases h1 with h1 | h1
          · exact .inl h1
          · exact .inr ((List.mem_erase_of_ne hne).2 h1)
        · show (s.heap.erase (a, n)).Perm _
          have := hlive.filter fun x => decide (allocFrom 0 bs x.2 = .heap)
          rw [List.filter_cons_of_pos (by simp [hfrom])] at this
          have := (hi.heap.trans this).erase (a, n)
          rwa [List.erase_cons_head] at this

theorem AInv.run {bs : List Nat} (hbs : bs ≠ []) : ∀ {os : List ArenaOp} {s s' : Arena}, AInv bs s → s.run os = some s' → AInv bs s'
  | [], s, s', hi, h => by simp [Arena.run] at h; subst h; exact hi
  | o :: os, s, s', hi, h => by
    simp only [Arena.run, Option.bind_eq_some_iff] at h
    obtain ⟨r, h1, h2⟩ := h
    exact AInv.run hbs (hi.step hbs h1) h2

theorem AInv.of {bs : List Nat} (hbs : bs ≠ []) {s : Arena} (h : ArenaReachable bs s) : AInv bs s := by
  obtain ⟨os, h⟩ := h; exact AInv.run hbs (AInv.init bs) h

theorem given_pos {bs : List Nat} (hbs : bs ≠ []) (n : Nat) : 0 < given bs n := by
  unfold given
  split
  · exact Nat.lt_of_lt_of_le (by omega) (partSize_pos _)
  · rename_i hf
    obtain ⟨c, hc⟩ := List.exists_mem_of_ne_nil bs hbs
    have := pool_heap_iff.1 hf c hc
    omega

theorem live_aligned {bs : List Nat} {s : Arena} (hi : AInv bs s) {al a n : Nat} (hal : al ∣ 16) (h : (a, n) ∈ s.live)
    (hp : ∀ i b, allocFrom 0 bs n = .bucket i → bs[i]? = some b → al ∣ partSize b) : al ∣ a := by
  have h1 := hi.live _ h
  dsimp only at h1
  split at h1
  · rename_i i hfrom
    obtain ⟨b, h2, c, _, h3, j, _, rfl⟩ := h1
    have h4 : bs[i]? = some b.size := by rw [← hi.sizes, List.getElem?_map, h2]; rfl
    exact Nat.dvd_add (Nat.dvd_trans hal h3) (Nat.dvd_trans (hp i b.size hfrom h4) (Nat.dvd_mul_left _ _))
  · exact Nat.dvd_trans hal h1

/-! ### Theorems -/

/-- Three blocks in two arenas and one from `new char[]`, of which one was deallocated and its memory used again. -/
def exampleArena : Arena :=
  ⟨[⟨8, [], []⟩, ⟨24, [4144, 4168], [(4096, 4)]⟩], [(8192, 100)], [(4096, 24), (8192, 100), (4120, 17)]⟩

example : ArenaReachable [8, 24] exampleArena :=
  ⟨[.allocate 24 (some (4096, 3)), .allocate 9 none, .allocate 100 (some (8192, 0)), .deallocate 1, .allocate 17 none], rfl⟩

/-- C83: blocks in use do not overlap and have different addresses, whatever was allocated and deallocated before and wherever `new` puts memory. -/
theorem arena_blocks_disjoint {bs : List Nat} (hbs : bs ≠ []) {s : Arena} (h : ArenaReachable bs s) {i j a n b m : Nat} (hij : i < j)
    (h1 : s.live[i]? = some (a, n)) (h2 : s.live[j]? = some (b, m)) : (a + n ≤ b ∨ b + m ≤ a) ∧ a ≠ b := by
  have hi := AInv.of hbs h
  have hd : (s.live.map fun x => ((x.1, given bs x.2) : Area)).Pairwise Apart := hi.disj.sublist (List.sublist_append_right _ _)
  rw [List.pairwise_map] at hd
  obtain ⟨h3, h4⟩ := List.getElem?_eq_some_iff.1 h1
  obtain ⟨h5, h6⟩ := List.getElem?_eq_some_iff.1 h2
  have := List.pairwise_iff_getElem.1 hd i j h3 h5 hij
  rw [h4, h6] at this
  have g1 := given_ge bs n
  have g2 := given_ge bs m
  have g3 := given_pos hbs n
  have g4 := given_pos hbs m
  rcases this with h | h <;> dsimp only at h
  · exact ⟨.inl (by omega), by omega⟩
  · exact ⟨.inr (by omega), by omega⟩

example : exampleArena.live[0]? = some (4096, 24) ∧ exampleArena.live[2]? = some (4120, 17) := ⟨rfl, rfl⟩

/-- C83: blocks in use lie in memory that was obtained from `new` and not given back, all `n` bytes of them. -/
theorem arena_blocks_inside {bs : List Nat} (hbs : bs ≠ []) {s : Arena} (h : ArenaReachable bs s) {a n : Nat} (hx : (a, n) ∈ s.live) :
    ∃ y ∈ s.areas, y.1 ≤ a ∧ a + n ≤ y.1 + y.2 := by
  obtain ⟨y, h1, h2, h3⟩ := (AInv.of hbs h).inside (a, given bs n) (List.mem_append_right _ (List.mem_map.2 ⟨(a, n), hx, rfl⟩))
  have := given_ge bs n
  exact ⟨y, h1, h2, by dsimp only at h3; omega⟩

example : (4120, 17) ∈ exampleArena.live ∧ (4096, chunkBytes 24 4) ∈ exampleArena.areas := by decide

/-- C83: a block in use can be deallocated: the arena that gets it has it as a partition of one of its chunks and not in its free list, and `delete[]`
gets the blocks from `new char[]` that it did not get before. -/
theorem arena_frees_legal {bs : List Nat} (hbs : bs ≠ []) {s : Arena} (h : ArenaReachable bs s) {a n : Nat} (hx : (a, n) ∈ s.live) :
    match freeTo 0 bs n with
    | .bucket i => ∃ b, s.buckets[i]? = some b ∧ (∃ c ∈ b.chunks, ∃ k < c.2, a = c.1 + k * partSize b.size) ∧ a ∉ b.free
    | .heap => (a, n) ∈ s.heap := by
  have hi := AInv.of hbs h
  rw [freeTo_eq]
  have h1 := hi.live _ hx
  dsimp only at h1
  split at h1
  · rename_i i hfrom
    obtain ⟨b, h2, c, h3, _, k, h4, h5⟩ := h1
    refine ⟨b, h2, ⟨c, h3, k, h4, h5⟩, fun hfree => ?_⟩
    have hd := (List.pairwise_append.1 hi.disj).2.2 (a, partSize b.size)
      (List.mem_flatMap.2 ⟨b, List.mem_of_getElem? h2, List.mem_map.2 ⟨a, hfree, rfl⟩⟩) (a, given bs n) (List.mem_map.2 ⟨(a, n), hx, rfl⟩)
    have g1 := given_pos hbs n
    have g2 := partSize_pos b.size
    rcases hd with h | h <;> dsimp only at h <;> omega
  · rename_i hfrom
    exact hi.heap.mem_iff.2 (List.mem_filter.2 ⟨hx, by simp [hfrom]⟩)

example : (8192, 100) ∈ exampleArena.live ∧ freeTo 0 [8, 24] 100 = .heap ∧ freeTo 0 [8, 24] 17 = .bucket 1 := by decide

/-- C83: the partitions that are not in use do not overlap what is in use, and no address is twice in a free list. -/
theorem arena_free_list_disjoint {bs : List Nat} (hbs : bs ≠ []) {s : Arena} (h : ArenaReachable bs s) {b : Bucket} (hb : b ∈ s.buckets) :
    b.free.Nodup ∧ ∀ a ∈ b.free, ∀ x ∈ s.live, a + b.size ≤ x.1 ∨ x.1 + x.2 ≤ a := by
  have hi := AInv.of hbs h
  have hd := List.pairwise_append.1 hi.disj
  refine ⟨?_, fun a ha x hx => ?_⟩
  · have h1 : b.parts.Pairwise Apart := by
      have := (List.pairwise_flatMap.1 hd.1).1 b hb
      exact this
    simp only [Bucket.parts, List.pairwise_map] at h1
    refine h1.imp fun {x y} hxy => ?_
    have := partSize_pos b.size
    rintro rfl
    rcases hxy with h | h <;> dsimp only at h <;> omega
  · have := hd.2.2 (a, partSize b.size) (List.mem_flatMap.2 ⟨b, hb, List.mem_map.2 ⟨a, ha, rfl⟩⟩) (x.1, given bs x.2) (List.mem_map.2 ⟨x, hx, rfl⟩)
    have g1 := given_ge bs x.2
    have g2 := partSize_ge b.size
    rcases this with h | h <;> dsimp only at h
    · exact .inl (by omega)
    · exact .inr (by omega)

example : (⟨24, [4144, 4168], [(4096, 4)]⟩ : Bucket) ∈ exampleArena.buckets := by decide

/-- C83: memory that was deallocated is used again: the next request for the same arena gets that very block and `new` is not called. -/
theorem arena_reuse {bs : List Nat} (hbs : bs ≠ []) {s s' : Arena} (h : ArenaReachable bs s) {j a n m i : Nat} {r : Option Nat} (hj : s.live[j]? = some (a, n))
    (hd : s.step (.deallocate j) = some (s', r)) (hn : allocFrom 0 bs n = .bucket i) (hm : allocFrom 0 bs m = .bucket i) (ans : Option (Nat × Nat)) :
    ∃ s'', s'.step (.allocate m ans) = some (s'', some a) ∧ s''.areas.Perm s.areas := by
  have hi := AInv.of hbs h
  have hi' := hi.step hbs hd
  simp only [Arena.step, hj, hi.sizes, freeTo_eq, hn] at hd
  cases hb : s.buckets[i]? with
  | none => simp [hb] at hd
  | some b =>
    simp only [hb, Option.some.injEq, Prod.mk.injEq] at hd
    obtain ⟨rfl, rfl⟩ := hd
    have hilt : i < s.buckets.length := (List.getElem?_eq_some_iff.1 hb).1
    have hs := hi'.sizes
    dsimp only at hs
    refine ⟨⟨s.buckets, s.heap, s.live.eraseIdx j ++ [(a, m)]⟩, ?_, ?_⟩
    · have h1 : (s.buckets.set i (b.release a)).set i b = s.buckets := by
        rw [List.set_set]
        apply List.ext_getElem?
        intro k
        rw [List.getElem?_set]
        split
        · rename_i hk; subst hk; simp only [List.length_set, hilt, if_true, hb]
        · rfl
      simp only [Arena.step, hs, hm, List.getElem?_set_self hilt]
      show some (Arena.mk ((s.buckets.set i (b.release a)).set i b) s.heap (s.live.eraseIdx j ++ [(a, m)]), some a) = _
      rw [h1]
    · exact List.Perm.refl _

example : exampleArena.step (.deallocate 0) =
      some (⟨[⟨8, [], []⟩, ⟨24, [4096, 4144, 4168], [(4096, 4)]⟩], [(8192, 100)], [(8192, 100), (4120, 17)]⟩, none) ∧
    allocFrom 0 [8, 24] 24 = .bucket 1 ∧ allocFrom 0 [8, 24] 20 = .bucket 1 := ⟨rfl, rfl, rfl⟩

/-- C83: objects whose alignment is at most that of a pointer are always aligned: `allocate(k)` for a type of size `sz` and alignment `al`. -/
theorem arena_aligned_partial {bs : List Nat} (hbs : bs ≠ []) {s : Arena} (h : ArenaReachable bs s) {al sz k a : Nat} (hal : al ∣ 8)
    (hx : (a, sz * k) ∈ s.live) : al ∣ a :=
  live_aligned (AInv.of hbs h) (Nat.dvd_trans hal ⟨2, rfl⟩) hx fun _ b _ _ => Nat.dvd_trans hal (partSize_dvd b)

/-- A type of size 24 and alignment 8. -/
example : 8 ∣ 8 ∧ (4096, 24 * 1) ∈ exampleArena.live := by decide

/-- C83: objects of every alignment that `new` supports are aligned if the sizes of the buckets are multiples of the alignment. -/
theorem arena_aligned_buckets_partial {bs : List Nat} (hbs : bs ≠ []) {s : Arena} (h : ArenaReachable bs s) {al sz k a : Nat} (hal : al ∣ 16)
    (hb : ∀ b ∈ bs, 0 < b ∧ al ∣ b ∧ 8 ∣ b) (hx : (a, sz * k) ∈ s.live) : al ∣ a :=
  live_aligned (AInv.of hbs h) hal hx fun _ b _ hm => by
    obtain ⟨h1, h2, h3⟩ := hb b (List.mem_of_getElem? hm)
    rw [partSize_eq h1 h3]; exact h2

/-- A type of size and alignment 16, with buckets of 16 and 64 bytes. -/
example : 16 ∣ 16 ∧ (∀ b ∈ [16, 64], 0 < b ∧ 16 ∣ b ∧ 8 ∣ b) ∧
    ∃ s, ArenaReachable [16, 64] s ∧ (4096, 16 * 2) ∈ s.live := ⟨by decide, by decide, _, ⟨[.allocate 32 (some (4096, 3))], rfl⟩, by decide⟩

/-- C83: and exactly then: what an arena gives out is aligned in every execution if and only if its size, rounded up to a multiple of 8, is a multiple of the
alignment. -/
theorem arena_aligned_iff {bs : List Nat} {al i b : Nat} (hal : al ∣ 16) (hb : bs[i]? = some b) (hi : allocFrom 0 bs b = .bucket i) :
    (∀ s, ArenaReachable bs s → ∀ a n, (a, n) ∈ s.live → allocFrom 0 bs n = .bucket i → al ∣ a) ↔ al ∣ partSize b := by
  have hbs : bs ≠ [] := by rintro rfl; simp at hb
  constructor
  · intro h
    have hsz : (Arena.init bs).buckets.map (·.size) = bs := (AInv.init bs).sizes
    have hbk : (Arena.init bs).buckets[i]? = some ⟨b, [], []⟩ := by simp [Arena.init, hb]
    have hilt : i < (Arena.init bs).buckets.length := (List.getElem?_eq_some_iff.1 hbk).1
    have hfresh : (Arena.init bs).fresh (16, chunkBytes b (1 + 1)) := by
      refine ⟨⟨1, rfl⟩, fun y hy => ?_⟩
      simp [Arena.areas, Arena.init] at hy
      obtain ⟨_, ⟨_, _, rfl⟩, _, _, h, _⟩ := hy
      cases h
    have h1 : (Arena.init bs).step (.allocate b (some (16, 1))) = some (⟨(Arena.init bs).buckets.set i ⟨b, [16 + partSize b], [(16, 2)]⟩, [], [(16, b)]⟩, some 16) := by
      simp only [Arena.step, hsz, hi, hbk, Bucket.malloc, hfresh, decide_true]
      simp [Arena.init]
    have h2 : Arena.step ⟨(Arena.init bs).buckets.set i ⟨b, [16 + partSize b], [(16, 2)]⟩, [], [(16, b)]⟩ (.allocate b none) =
        some (⟨(Arena.init bs).buckets.set i ⟨b, [], [(16, 2)]⟩, [], [(16, b), (16 + partSize b, b)]⟩, some (16 + partSize b)) := by
      have hsz' : ((Arena.init bs).buckets.set i ⟨b, [16 + partSize b], [(16, 2)]⟩).map (·.size) = bs := by rw [sizes_set hbk (by rfl)]; exact hsz
      simp only [Arena.step, hsz', hi, List.getElem?_set_self hilt, Bucket.malloc, List.set_set, List.cons_append, List.nil_append]
    have h3 := h _ ⟨[.allocate b (some (16, 1)), .allocate b none], by simp only [Arena.run, h1, h2, Option.bind_some]; rfl⟩ (16 + partSize b) b (by simp) hi
    exact (Nat.dvd_add_right hal).1 h3
  · intro h s hs a n hx hn
    refine live_aligned (AInv.of hbs hs) hal hx fun j c h1 h2 => ?_
    rw [hn] at h1; injection h1 with h1; subst h1
    rw [hb] at h2; injection h2 with h2; subst h2
    exact h

example : 16 ∣ 16 ∧ ([8, 24] : List Nat)[1]? = some 24 ∧ allocFrom 0 [8, 24] 24 = .bucket 1 ∧ partSize 20 = 24 := by decide

/-- C83 is false for alignments above that of a pointer: `pool_allocator<long double, 24>` (size and alignment 16) returns misaligned memory for the
second object. -/
theorem arena_aligned_refuted : ∃ s, ArenaReachable [24] s ∧ ∃ a, (a, 16 * 1) ∈ s.live ∧ ¬ 16 ∣ a :=
  ⟨_, ⟨[.allocate 16 (some (4096, 31)), .allocate 16 none], rfl⟩, 4120, by decide, by decide⟩

/-- C83 is false for over-aligned types wherever they are placed: a type of size and alignment 32 from a bucket of its own size, and from `new char[]`, where
`new` puts memory at a multiple of 16. -/
theorem arena_over_aligned_refuted : (∃ s, ArenaReachable [32] s ∧ ∃ a, (a, 32 * 1) ∈ s.live ∧ ¬ 32 ∣ a) ∧
    ∃ s, ArenaReachable [8] s ∧ ∃ a, (a, 32 * 1) ∈ s.live ∧ ¬ 32 ∣ a :=
  ⟨⟨_, ⟨[.allocate 32 (some (4112, 31))], rfl⟩, 4112, by decide, by decide⟩, _, ⟨[.allocate 32 (some (4112, 0))], rfl⟩, 4112, by decide, by decide⟩

end Verif.Pool
