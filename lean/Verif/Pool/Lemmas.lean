import Verif.Pool.Model
import Verif.Channel.Wake

namespace Verif.Pool

open Verif.Channel (lt_of_getElem? getElem?_set')

theorem freeTo_eq : ∀ (ix : Nat) (bs : List Nat) (n : Nat), freeTo ix bs n = allocFrom ix bs n
  | _, [], _ => rfl
  | ix, b :: rest, n => by simp only [freeTo, allocFrom, freeTo_eq (ix + 1) rest n]

/-- The result of the bucket search. -/
theorem allocFrom_spec : ∀ (bs : List Nat) (ix n : Nat),
    match allocFrom ix bs n with
    | .bucket j => ∃ (i : Nat) (c : Nat), j = ix + i ∧ bs[i]? = some c ∧ n ≤ c ∧ ∀ (i' : Nat) c', i' < i → bs[i']? = some c' → c' < n
    | .heap => ∀ c ∈ bs, c < n
  | [], ix, n => by simp [allocFrom]
  | b :: rest, ix, n => by
    simp only [allocFrom]
    by_cases h : n ≤ b
    · rw [if_pos h]
      exact ⟨0, b, rfl, rfl, h, by intro i' c' h; omega⟩
    · rw [if_neg h]
      have ih := allocFrom_spec rest (ix + 1) n
      split at ih
      · rename_i j hj
        obtain ⟨i, c, e1, e2, e3, e4⟩ := ih
        refine ⟨i + 1, c, by omega, by simpa using e2, e3, ?_⟩
        intro i' c' hlt hc
        cases i' with
        | zero => simp at hc; omega
        | succ i' => exact e4 i' c' (by omega) (by simpa using hc)
      · intro c hc
        simp at hc
        rcases hc with rfl | hc
        · omega
        · exact ih c hc

/-- The memory of the block still exists: it is on the heap or some allocator still refers to its pool. -/
def Valid (s : St) (b : Blk) : Prop := b.entry.src = .heap ∨ some (some b.pool) ∈ s.handles

structure Inv (M : Nat) (bs : List Nat) (s : St) : Prop where
  disj : s.issued.Pairwise Disj
  pos : ∀ e ∈ s.issued, 0 < e.cap
  blk : ∀ (k : Nat) b, s.blocks[k]? = some (some b) →
    b.entry.src = (allocFrom 0 bs ((b.sz * b.cnt) % M)).src b.pool ∧ (b.sz * b.cnt) % M ≤ b.entry.cap ∧ b.pool < s.npools ∧
    (Valid s b → b.entry ∈ s.issued)
  inj : ∀ (k k' : Nat) b b', s.blocks[k]? = some (some b) → s.blocks[k']? = some (some b') → Valid s b → Valid s b' →
    b.entry = b'.entry → k = k'
  held : ∀ e ∈ s.issued, ∃ (k : Nat) (b : Blk), s.blocks[k]? = some (some b) ∧ b.entry = e ∧ Valid s b
  hnd : ∀ p, some (some p) ∈ s.handles → p < s.npools

theorem inv_init {M bs} : Inv M bs init := by
  constructor <;> simp [init]

theorem disj_ne {a b : Entry} (h : Disj a b) (hp : 0 < b.cap) : a ≠ b := by
  intro e; subst e; rcases h with h | h <;> omega

theorem disj_symm {a b : Entry} (h : Disj a b) : Disj b a := Or.symm h

theorem pairwise_ne {l : List Entry} (h : l.Pairwise Disj) {a b : Entry} (ha : a ∈ l) (hb : b ∈ l) (hne : a ≠ b) :
    Disj a b := by
  induction h with
  | nil => cases ha
  | cons h1 _ ih =>
    simp at ha hb
    rcases ha with rfl | ha <;> rcases hb with rfl | hb
    · exact absurd rfl hne
    · exact h1 b hb
    · exact disj_symm (h1 a ha)
    · exact ih ha hb

/-- Changing the handles and collecting keeps the invariant, if the new handles refer only to pools that were referred
to before. -/
theorem inv_collect {M bs s} (hi : Inv M bs s) {hs : List (Option (Option Nat))}
    (h : ∀ p, some (some p) ∈ hs → some (some p) ∈ s.handles) : Inv M bs (St.collect { s with handles := hs }) := by
  have hv : ∀ b, Valid (St.collect { s with handles := hs }) b → Valid s b := by
    rintro b (hb | hb)
    · exact .inl hb
    · exact .inr (h _ hb)
  refine ⟨hi.disj.sublist List.filter_sublist, ?_, ?_, ?_, ?_, ?_⟩
  · intro e he; exact hi.pos e (List.mem_filter.1 he).1
  · intro k b hb
    obtain ⟨h1, h2, h3, h4⟩ := hi.blk k b hb
    refine ⟨h1, h2, h3, fun hvb => ?_⟩
    apply List.mem_filter.2
    refine ⟨h4 (hv b hvb), ?_⟩
    rcases hvb with hx | hx
    · simp [hx]
    · cases hsrc : b.entry.src with
      | heap => rfl
      | bucket p ix =>
        have : p = b.pool := by
          rw [hsrc] at h1
          cases hw : allocFrom 0 bs ((b.sz * b.cnt) % M) with
          | heap => rw [hw] at h1; cases h1
          | bucket j => rw [hw] at h1; injection h1
        subst this
        exact decide_eq_true hx
  · intro k k' b b' hb hb' v v' he
    exact hi.inj k k' b b' hb hb' (hv b v) (hv b' v') he
  · intro e he
    obtain ⟨he1, he2⟩ := List.mem_filter.1 he
    obtain ⟨k, b, hb, hbe, hvb⟩ := hi.held e he1
    refine ⟨k, b, hb, hbe, ?_⟩
    cases hsrc : e.src with
    | heap => exact .inl (by rw [hbe]; exact hsrc)
    | bucket p ix =>
      rw [hsrc] at he2
      simp only [decide_eq_true_eq] at he2
      have h1 := (hi.blk k b hb).1
      rw [hbe, hsrc] at h1
      cases hw : allocFrom 0 bs ((b.sz * b.cnt) % M) with
      | heap => rw [hw] at h1; cases h1
      | bucket j => rw [hw] at h1; injection h1 with h1; subst h1; exact .inr he2
  · intro p hp; exact hi.hnd p (h p hp)

/-- Changing the handles without losing or gaining a pool. -/
theorem inv_handles {M bs s} (hi : Inv M bs s) {hs : List (Option (Option Nat))}
    (h : ∀ p, some (some p) ∈ hs ↔ some (some p) ∈ s.handles) : Inv M bs { s with handles := hs } := by
  have hv : ∀ b, Valid { s with handles := hs } b ↔ Valid s b := by
    intro b; unfold Valid; rw [h]
  refine ⟨hi.disj, hi.pos, ?_, ?_, ?_, ?_⟩
  · intro k b hb
    obtain ⟨h1, h2, h3, h4⟩ := hi.blk k b hb
    exact ⟨h1, h2, h3, fun x => h4 ((hv b).1 x)⟩
  · intro k k' b b' hb hb' v v' he
    exact hi.inj k k' b b' hb hb' ((hv b).1 v) ((hv b').1 v') he
  · intro e he
    obtain ⟨k, b, hb, hbe, hvb⟩ := hi.held e he
    exact ⟨k, b, hb, hbe, (hv b).2 hvb⟩
  · intro p hp; exact hi.hnd p ((h p).1 hp)

theorem mem_set_of {β : Type} {l : List β} {i : Nat} {x y : β} (h : y ∈ l.set i x) : y = x ∨ y ∈ l :=
  (List.mem_or_eq_of_mem_set h).symm

theorem mem_set_self {β : Type} {l : List β} {i : Nat} {x : β} (h : i < l.length) : x ∈ l.set i x :=
  List.mem_of_getElem? (List.getElem?_set_self h)

theorem mem_set_ne {β : Type} {l : List β} {i : Nat} {x y z : β} (hz : l[i]? = some z) (h : y ∈ l) (hne : y ≠ z) :
    y ∈ l.set i x := by
  obtain ⟨j, hj⟩ := List.mem_iff_getElem?.1 h
  have : i ≠ j := by
    intro e; subst e; rw [hz] at hj; injection hj with hj; exact hne hj.symm
  exact List.mem_of_getElem? (by rw [List.getElem?_set_ne this]; exact hj)

theorem inv_step {M bs s o s'} (hi : Inv M bs s) (h : step M bs s o = some (.ok s')) : Inv M bs s' := by
  cases o with
  | make =>
    simp only [step] at h; injection h with h; injection h with h; subst h
    have hv : ∀ (k : Nat) b, s.blocks[k]? = some (some b) →
        (Valid { s with npools := s.npools + 1, handles := s.handles ++ [some (some s.npools)] } b ↔ Valid s b) := by
      intro k b hb
      have := (hi.blk k b hb).2.2.1
      unfold Valid
      have hne : b.pool ≠ s.npools := by omega
      simp [hne]
    refine ⟨hi.disj, hi.pos, ?_, ?_, ?_, ?_⟩
    · intro k b hb
      obtain ⟨h1, h2, h3, h4⟩ := hi.blk k b hb
      exact ⟨h1, h2, Nat.lt_succ_of_lt h3, fun x => h4 ((hv k b hb).1 x)⟩
    · intro k k' b b' hb hb' v v' he
      exact hi.inj k k' b b' hb hb' ((hv k b hb).1 v) ((hv k' b' hb').1 v') he
    · intro e he
      obtain ⟨k, b, hb, hbe, hvb⟩ := hi.held e he
      exact ⟨k, b, hb, hbe, (hv k b hb).2 hvb⟩
    · intro p hp
      simp at hp
      dsimp only
      rcases hp with hp | hp
      · have := hi.hnd p hp; omega
      · omega
  | copy hd =>
    simp only [step] at h
    split at h
    · rename_i p hp
      injection h with h; injection h with h; subst h
      apply inv_handles hi
      intro q
      simp
      intro e; subst e; exact List.mem_of_getElem? hp
    · cases h
  | move hd =>
    simp only [step] at h
    split at h
    · rename_i p hp
      injection h with h; injection h with h; subst h
      apply inv_handles hi
      intro q
      simp only [List.mem_append, List.mem_singleton]
      constructor
      · rintro (hq | hq)
        · rcases mem_set_of hq with hq | hq
          · simp at hq
          · exact hq
        · rw [hq]; exact List.mem_of_getElem? hp
      · intro hq
        by_cases e : some (some q) = some p
        · exact .inr e
        · exact .inl (mem_set_ne hp hq e)
    · cases h
  | copyAssign d hd =>
    simp only [step] at h
    split at h
    · rename_i p hdd hp
      injection h with h; injection h with h; subst h
      apply inv_collect hi
      intro q hq
      rcases mem_set_of hq with hq | hq
      · rw [hq]; exact List.mem_of_getElem? hp
      · exact hq
    · cases h
  | moveAssign d hd =>
    simp only [step] at h
    split at h
    · rename_i p hdd hp
      injection h with h; injection h with h; subst h
      apply inv_collect hi
      intro q hq
      rcases mem_set_of hq with hq | hq
      · rw [hq]; exact List.mem_of_getElem? hp
      · rcases mem_set_of hq with hq | hq
        · simp at hq
        · exact hq
    · cases h
  | swap a b =>
    simp only [step] at h
    split at h
    · rename_i p q ha hb
      injection h with h; injection h with h; subst h
      apply inv_handles hi
      intro x
      constructor
      · intro hx
        rcases mem_set_of hx with hx | hx
        · rw [hx]; exact List.mem_of_getElem? ha
        · rcases mem_set_of hx with hx | hx
          · rw [hx]; exact List.mem_of_getElem? hb
          · exact hx
      · intro hx
        have hla := lt_of_getElem? ha
        have hlb := lt_of_getElem? hb
        by_cases e1 : some (some x) = some p
        · rw [e1]; exact mem_set_self (by simpa using hlb)
        · by_cases e2 : a = b
          · subst e2
            rw [List.set_set]
            rw [ha] at hb; injection hb with hb; injection hb with hb; subst hb
            exact mem_set_ne ha hx e1
          · by_cases e3 : some (some x) = some q
            · rw [e3]
              apply List.mem_of_getElem? (i := a)
              rw [List.getElem?_set_ne (fun e => e2 e.symm), List.getElem?_set_self hla]
            · apply mem_set_ne (z := some q)
              · rw [List.getElem?_set_ne e2]; exact hb
              · exact mem_set_ne ha hx e1
              · exact e3
    · cases h
  | destroy hd =>
    simp only [step] at h
    split at h
    · injection h with h; injection h with h; subst h
      apply inv_collect hi
      intro q hq
      rcases mem_set_of hq with hq | hq
      · cases hq
      · exact hq
    · cases h
  | alloc hd cnt sz addr cap =>
    simp only [step] at h
    split at h
    · cases h
    · rename_i p hp
      split at h
      · rename_i hc
        injection h with h; injection h with h; subst h
        obtain ⟨hneed, hpos, hdis⟩ := hc
        have hcap : (sz * cnt) % M ≤ cap := by
          have hspec := allocFrom_spec bs 0 ((sz * cnt) % M)
          cases hw : allocFrom 0 bs ((sz * cnt) % M) with
          | heap => rw [hw] at hneed; exact hneed
          | bucket j =>
            rw [hw] at hneed hspec
            obtain ⟨i, c, e1, e2, e3, _⟩ := hspec
            simp only [Nat.zero_add] at e1
            subst e1
            simp only [Where.size, e2, Option.getD_some] at hneed
            omega
        generalize he : (⟨(allocFrom 0 bs ((sz * cnt) % M)).src p, addr, cap⟩ : Entry) = e at hdis
        have hecap : e.cap = cap := by rw [← he]
        have hesrc : e.src = (allocFrom 0 bs ((sz * cnt) % M)).src p := by rw [← he]
        have hnew : e ∉ s.issued := fun hm => disj_ne (hdis e hm) (by omega) rfl
        have hpm : some (some p) ∈ s.handles := List.mem_of_getElem? hp
        have hget : ∀ (k : Nat) b, (s.blocks ++ [some ⟨p, cnt, sz, e⟩])[k]? = some (some b) →
            s.blocks[k]? = some (some b) ∨ (k = s.blocks.length ∧ b = ⟨p, cnt, sz, e⟩) := by
          intro k b hk
          rw [List.getElem?_append] at hk
          split at hk
          · exact .inl hk
          · rw [List.getElem?_singleton] at hk
            split at hk <;> simp at hk
            exact .inr ⟨by omega, hk.symm⟩
        refine ⟨?_, ?_, ?_, ?_, ?_, hi.hnd⟩
        · rw [List.pairwise_append]
          exact ⟨hi.disj, List.pairwise_singleton _ _, fun a ha b hb => by simp at hb; subst hb; exact hdis a ha⟩
        · intro x hx
          simp at hx
          rcases hx with hx | rfl
          · exact hi.pos x hx
          · omega
        · intro k b hk
          rcases hget k b hk with hk | ⟨_, rfl⟩
          · obtain ⟨h1, h2, h3, h4⟩ := hi.blk k b hk
            exact ⟨h1, h2, h3, fun v => List.mem_append_left _ (h4 v)⟩
          · exact ⟨hesrc, by rw [hecap]; exact hcap, hi.hnd p hpm, fun _ => by simp⟩
        · intro k k' b b' hk hk' v v' hbe
          rcases hget k b hk with hk | ⟨hk1, rfl⟩ <;> rcases hget k' b' hk' with hk' | ⟨hk1', rfl⟩
          · exact hi.inj k k' b b' hk hk' v v' hbe
          · have := (hi.blk k b hk).2.2.2 v
            rw [hbe] at this; exact absurd this hnew
          · have := (hi.blk k' b' hk').2.2.2 v'
            rw [← hbe] at this; exact absurd this hnew
          · omega
        · intro x hx
          simp at hx
          rcases hx with hx | rfl
          · obtain ⟨k, b, hb, hbe, hvb⟩ := hi.held x hx
            refine ⟨k, b, ?_, hbe, hvb⟩
            rw [List.getElem?_append_left (lt_of_getElem? hb)]; exact hb
          · exact ⟨s.blocks.length, ⟨p, cnt, sz, x⟩, by simp, rfl, .inr hpm⟩
      · cases h
    · cases h
  | allocFails hd cnt sz =>
    simp only [step] at h
    split at h
    · cases h
    · injection h with h; injection h with h; subst h; exact hi
    · cases h
  | dealloc hd k =>
    simp only [step] at h
    split at h
    · rename_i p b hp hb
      split at h
      · rename_i hpb
        split at h
        · rename_i e hf
          injection h with h; injection h with h; subst h
          have hpm : some (some p) ∈ s.handles := List.mem_of_getElem? hp
          have hvb : Valid s b := .inr (by rw [← hpb]; exact hpm)
          obtain ⟨h1, h2, h3, h4⟩ := hi.blk k b hb
          have hbi := h4 hvb
          have hfm := List.mem_of_find?_eq_some hf
          have hfp := List.find?_some hf
          simp only [decide_eq_true_eq] at hfp
          -- the block found is the block issued
          have hee : e = b.entry := by
            apply Classical.byContradiction
            intro hne
            have hd1 := pairwise_ne hi.disj hfm hbi hne
            have c1 := hi.pos _ hfm
            have c2 := hi.pos _ hbi
            rcases hd1 with hd1 | hd1 <;> omega
          subst hee
          have hget : ∀ (k' : Nat) b', (s.blocks.set k none)[k']? = some (some b') → k' ≠ k ∧ s.blocks[k']? = some (some b') := by
            intro k' b' hk'
            rcases getElem?_set' hb hk' with ⟨rfl, hx⟩ | ⟨hne, hx⟩
            · cases hx
            · exact ⟨hne, hx⟩
          refine ⟨hi.disj.sublist List.erase_sublist, fun x hx => hi.pos x (List.mem_of_mem_erase hx), ?_, ?_, ?_, hi.hnd⟩
          · intro k' b' hk'
            obtain ⟨hne, hk'⟩ := hget k' b' hk'
            obtain ⟨g1, g2, g3, g4⟩ := hi.blk k' b' hk'
            refine ⟨g1, g2, g3, fun v => ?_⟩
            have hneq : b'.entry ≠ b.entry := fun he => hne (hi.inj k' k b' b hk' hb v hvb he)
            exact (List.mem_erase_of_ne hneq).2 (g4 v)
          · intro k1 k2 b1 b2 hk1 hk2 v1 v2 he
            exact hi.inj k1 k2 b1 b2 (hget k1 b1 hk1).2 (hget k2 b2 hk2).2 v1 v2 he
          · intro x hx
            obtain ⟨k', b', hb', hbe, hv'⟩ := hi.held x (List.mem_of_mem_erase hx)
            refine ⟨k', b', ?_, hbe, hv'⟩
            have : k ≠ k' := by
              intro e; subst e
              rw [hb] at hb'; injection hb' with hb'; injection hb' with hb'; subst hb'
              -- an issued block occurs only once
              rw [← hbe] at hx
              have hnd : s.issued.Nodup := by
                apply List.Pairwise.imp_of_mem _ hi.disj
                intro a c ha hc hac
                exact disj_ne hac (hi.pos c hc)
              exact absurd hx (List.Nodup.not_mem_erase hnd)
            rw [List.getElem?_set_ne this]; exact hb'
        · cases h
      · cases h
    · cases h

theorem inv_run {M bs} : ∀ {os : List Op} {s s' : St}, Inv M bs s → run M bs s os = some (.ok s') → Inv M bs s'
  | [], s, s', hi, h => by simp [run] at h; subst h; exact hi
  | o :: os, s, s', hi, h => by
    simp only [run] at h
    split at h
    · rename_i s1 h1
      exact inv_run (inv_step hi h1) h
    · rename_i hx
      exact absurd h (hx s')

theorem inv_reach {M bs s} (h : Reachable M bs s) : Inv M bs s := by
  obtain ⟨os, h⟩ := h
  exact inv_run inv_init h

end Verif.Pool
