import Verif.HB.Laws
import Verif.Channel.History

/-!
C80: what the channels synchronize. An execution is a log; every entry carries the positions of the entries that happen before it in the
sense of the C++ memory model.
-/
namespace Verif.HB

open Verif.Channel (Op Res Ev Act inserted removed inserted_append removed_append)

variable {α S : Type}

/-! ### Specification -/

/-- Entry number `p` of the log happens before entry number `q`. -/
def Before (l : List (Entry α)) (p q : Nat) : Prop := p ≠ q ∧ ∃ e, l[q]? = some e ∧ p ∈ e.know

/-- Entry number `p` is `x`, done by thread `t`. -/
def At (l : List (Entry α)) (p t : Nat) (x : What α) : Prop := ∃ k, l[p]? = some ⟨t, x, k⟩

/-- Inserting `v` took effect. -/
def Inserts (l : List (Entry α)) (p t : Nat) (v : α) : Prop :=
  At l p t (.ev (.lin t (.push v) (.bool true))) ∨ At l p t (.ev (.lin t (.tryPush v) (.bool true)))

/-- Removing `v` took effect. -/
def Removes (l : List (Entry α)) (p t : Nat) (v : α) : Prop :=
  At l p t (.ev (.lin t .pop (.val (some v)))) ∨ At l p t (.ev (.lin t .tryPop (.val (some v))))

/-- `close()` took effect. -/
def Closes (l : List (Entry α)) (p t : Nat) : Prop := At l p t (.ev (.lin t .close .unit))

/-- How many values have been inserted or removed before entry number `p`. -/
def insertions (l : List (Entry α)) (p : Nat) : Nat := (inserted (histOf (l.take p))).length
def removals (l : List (Entry α)) (p : Nat) : Nat := (removed (histOf (l.take p))).length

/-! ### Executions for the examples -/

/-- Steps of a thread that read store number `i`. -/
def steps (t i k : Nat) : List (WAct α) := List.replicate k (.act (.step t none) i)

/-- Thread 0 writes to memory, then pushes 5, then tries to push 7; thread 1 pops, then reads; thread 1 pushes 8; thread 0 closes; thread 1 sees
that, and its push is rejected; thread 0 pops twice. -/
def demo : List (WAct Nat) :=
  [.user 0, .act (.call 0 (.push 5)) 0] ++ steps 0 0 7 ++ [.act (.call 0 (.tryPush 7)) 0] ++ steps 0 0 5 ++ [.act (.call 1 .pop) 0] ++ steps 1 0 7 ++
  [.user 1, .act (.call 1 (.push 8)) 0] ++ steps 1 0 7 ++ [.act (.call 0 .close) 0] ++ steps 0 0 6 ++
  [.closed 1 1, .act (.call 1 (.push 6)) 0] ++ steps 1 1 2 ++ [.act (.call 0 .pop) 0] ++ steps 0 1 7 ++ [.act (.call 0 .pop) 0] ++ steps 0 1 5

/-- The end of it, for a channel of capacity 1 with 2 threads. -/
def demoW : W (Channel.St Nat) Nat :=
  (wrun (chan Nat ⟨1, false, false⟩) ⟨Channel.init Nat 2, .init Nat⟩ demo).getD ⟨Channel.init Nat 2, .init Nat⟩

/-- The same for an exchange channel, without trying to push. -/
def demoX : List (WAct Nat) :=
  [.user 0, .act (.call 0 (.push 5)) 0] ++ steps 0 0 6 ++ [.act (.call 1 .pop) 0] ++ steps 1 0 6 ++
  [.user 1, .act (.call 0 .close) 0] ++ steps 0 0 5 ++
  [.closed 1 1, .act (.call 1 (.push 6)) 0] ++ steps 1 1 2 ++ [.act (.call 0 .pop) 0] ++ steps 0 1 5

/-- The end of it. -/
def demoXW : W (Exchange.St Nat) Nat :=
  (wrun (exch Nat ⟨false, false⟩) ⟨Exchange.init Nat 2, .init Nat⟩ demoX).getD ⟨Exchange.init Nat 2, .init Nat⟩

theorem demo_reach : WReachable (chan Nat ⟨1, false, false⟩) (Channel.init Nat 2) demoW := ⟨demo, rfl⟩
theorem demoX_reach : WReachable (exch Nat ⟨false, false⟩) (Exchange.init Nat 2) demoXW := ⟨demoX, rfl⟩

/-! ### Lemmas -/

theorem hist_split {l : List (Entry α)} {p : Nat} {e : Entry α} {v : Ev α} (h : l[p]? = some e) (hv : e.what = .ev v) :
    histOf l = histOf (l.take p) ++ v :: histOf (l.drop (p + 1)) := by
  have hlt := getElem?_lt h
  have : l = l.take p ++ l[p] :: l.drop (p + 1) := by
    rw [← List.drop_eq_getElem_cons hlt, List.take_append_drop]
  have he : l[p] = e := by rw [List.getElem?_eq_getElem hlt] at h; exact Option.some.inj h
  rw [he] at this
  conv => lhs; rw [this]
  rw [histOf_append]
  simp [histOf, hv]

theorem hist_take_succ {l : List (Entry α)} {p : Nat} {e : Entry α} {v : Ev α} (h : l[p]? = some e) (hv : e.what = .ev v) :
    histOf (l.take (p + 1)) = histOf (l.take p) ++ [v] := by
  rw [List.take_add_one, h, histOf_append]
  simp [histOf, hv]

theorem hist_take_le (l : List (Entry α)) {p q : Nat} (h : p ≤ q) : ∃ r, histOf (l.take q) = histOf (l.take p) ++ r := by
  refine ⟨histOf ((l.take q).drop p), ?_⟩
  rw [← histOf_append]
  congr 1
  have : l.take p = (l.take q).take p := by rw [List.take_take, Nat.min_eq_left h]
  rw [this, List.take_append_drop]

theorem insertions_le (l : List (Entry α)) {p q : Nat} (h : p ≤ q) : insertions l p ≤ insertions l q := by
  obtain ⟨r, hr⟩ := hist_take_le l h
  simp only [insertions, hr, inserted_append, List.length_append]; omega

theorem removals_le (l : List (Entry α)) {p q : Nat} (h : p ≤ q) : removals l p ≤ removals l q := by
  obtain ⟨r, hr⟩ := hist_take_le l h
  simp only [removals, hr, removed_append, List.length_append]; omega

theorem mem_histOf {l : List (Entry α)} {v : Ev α} (h : v ∈ histOf l) : ∃ (p : Nat) (e : Entry α), l[p]? = some e ∧ e.what = .ev v := by
  simp only [histOf, List.mem_filterMap] at h
  obtain ⟨e, he, hv⟩ := h
  obtain ⟨p, hp⟩ := List.getElem?_of_mem he
  refine ⟨p, e, hp, ?_⟩
  cases hw : e.what <;> simp [hw] at hv
  rw [hv]

theorem getElem?_take_some {β : Type} {l : List β} {p q : Nat} {x : β} (h : (l.take q)[p]? = some x) : p < q ∧ l[p]? = some x := by
  rw [List.getElem?_take] at h
  split at h
  · next hp => exact ⟨hp, h⟩
  · cases h

theorem mem_hist_take {l : List (Entry α)} {q : Nat} {v : Ev α} (h : v ∈ histOf (l.take q)) :
    ∃ p, p < q ∧ ∃ e : Entry α, l[p]? = some e ∧ e.what = .ev v := by
  obtain ⟨p, e, hp, hv⟩ := mem_histOf h
  obtain ⟨h1, h2⟩ := getElem?_take_some hp
  exact ⟨p, h1, e, h2, hv⟩

theorem locked_of {e : Entry α} {t : Nat} {op : Op α} {r : Res α} (he : e.what = .ev (.lin t op r)) (hop : op ≠ .isClosed) (hr : r ≠ .bool false) :
    Locked e := by
  refine ⟨_, he, ⟨t, op, r, rfl, hop⟩, ?_⟩
  rintro (⟨_, _, h⟩ | ⟨_, _, h⟩) <;> cases h <;> exact hr rfl

theorem histOf_nil : histOf ([] : List (Entry α)) = [] := rfl

theorem histOf_eq {v : Ev α} {h1 h2 : List (Ev α)} : ∀ {l : List (Entry α)}, histOf l = h1 ++ v :: h2 →
    ∃ (p : Nat) (e : Entry α), l[p]? = some e ∧ e.what = .ev v ∧ histOf (l.take p) = h1 ∧ histOf (l.drop (p + 1)) = h2
  | [], h => by simp [histOf] at h
  | e :: l, h => by
    cases hw : e.what with
    | ev v' =>
      have hc : histOf (e :: l) = v' :: histOf l := by simp [histOf, hw]
      rw [hc] at h
      cases h1 with
      | nil =>
        simp only [List.nil_append, List.cons.injEq] at h
        exact ⟨0, e, rfl, by rw [hw, h.1], rfl, h.2⟩
      | cons x h1 =>
        simp only [List.cons_append, List.cons.injEq] at h
        obtain ⟨p, e', hp, hv, ht, hd⟩ := histOf_eq h.2
        refine ⟨p + 1, e', hp, hv, ?_, hd⟩
        simp only [List.take_succ_cons]
        rw [← ht, h.1.symm]; simp [histOf, hw]
    | closed b =>
      have hc : histOf (e :: l) = histOf l := by simp [histOf, hw]
      rw [hc] at h
      obtain ⟨p, e', hp, hv, ht, hd⟩ := histOf_eq h
      exact ⟨p + 1, e', hp, hv, by simp only [List.take_succ_cons]; rw [← ht]; simp [histOf, hw], hd⟩
    | user =>
      have hc : histOf (e :: l) = histOf l := by simp [histOf, hw]
      rw [hc] at h
      obtain ⟨p, e', hp, hv, ht, hd⟩ := histOf_eq h
      exact ⟨p + 1, e', hp, hv, by simp only [List.take_succ_cons]; rw [← ht]; simp [histOf, hw], hd⟩

/-- The insertion number `k` of a history. -/
theorem inserted_split {k : Nat} : ∀ {h : List (Ev α)}, k < (inserted h).length → ∃ h1 t v op h2, h = h1 ++ .lin t op (.bool true) :: h2 ∧
    (op = .push v ∨ op = .tryPush v) ∧ (inserted h1).length = k := by
  intro h
  induction h using List.reverseRecOn with
  | nil => intro h; simp [inserted] at h
  | append_singleton h e ih =>
    intro hk
    rcases Nat.lt_or_ge k (inserted h).length with h1 | h1
    · obtain ⟨a, t, v, op, b, rfl, hop, hl⟩ := ih h1
      exact ⟨a, t, v, op, b ++ [e], by simp, hop, hl⟩
    · rw [inserted_append, List.length_append] at hk
      have : ∃ t v op, e = .lin t op (.bool true) ∧ (op = .push v ∨ op = .tryPush v) ∧ (inserted [e]).length = 1 := by
        cases e with
        | call => simp [inserted] at hk; omega
        | ret => simp [inserted] at hk; omega
        | lin t op r =>
          cases op <;> cases r <;> (try simp [inserted] at hk) <;> (try omega)
          · rename_i v b
            cases b
            · simp [inserted] at hk; omega
            · exact ⟨t, v, _, rfl, .inl rfl, rfl⟩
          · rename_i v b
            cases b
            · simp [inserted] at hk; omega
            · exact ⟨t, v, _, rfl, .inr rfl, rfl⟩
      obtain ⟨t, v, op, rfl, hop, hlen⟩ := this
      exact ⟨h, t, v, op, [], rfl, hop, by omega⟩

/-- Everything with an effect is ordered by happens-before. -/
theorem WInv.ordered {M : Machine S α} {Good : S → Prop} {w : W S α} (h : WInv M Good w) {p q : Nat} {e e' : Entry α} (hp : w.m.log[p]? = some e)
    (hq : w.m.log[q]? = some e') (hpq : p < q) (hl : Locked e) (hl' : Locked e') : Before w.m.log p q := by
  refine ⟨Nat.ne_of_lt hpq, e', hq, ?_⟩
  obtain ⟨v, hv, hlin, hrej⟩ := hl'
  rcases h.mem.lin q e' v hq hv hlin with h1 | ⟨h1, -⟩
  · exact h1 p hpq e hp hl
  · exact absurd h1 hrej

theorem WInv.close_at {M : Machine S α} {Good : S → Prop} {w : W S α} (h : WInv M Good w) {p : Nat} {e : Entry α} (hp : w.m.log[p]? = some e)
    (hc : IsClose e) : ∃ t, Closes w.m.log p t := by
  obtain ⟨t, ht⟩ := hc
  have := h.tids e (List.mem_of_getElem? hp) _ ht
  obtain ⟨et, ew, ek⟩ := e
  dsimp only at ht this
  subst ht
  simp only [Channel.Ev.tid] at this
  subst this
  exact ⟨t, ek, hp⟩

/-- A rejected insertion knows of a `close()`, unless all earlier effects happen before it. -/
theorem WInv.rejected {M : Machine S α} {Good : S → Prop} {w : W S α} (h : WInv M Good w) {q : Nat} {e : Entry α} {v : Ev α}
    (hq : w.m.log[q]? = some e) (hv : e.what = .ev v) (hl : IsLin v) :
    (∀ p e', p < q → w.m.log[p]? = some e' → Locked e' → Before w.m.log p q) ∨ ∃ p t, Closes w.m.log p t ∧ Before w.m.log p q := by
  rcases h.mem.lin q e v hq hv hl with h1 | ⟨h1, p, hp, e', he', hc⟩
  · exact .inl fun p e' hpq he' hl' => ⟨Nat.ne_of_lt hpq, e, hq, h1 p hpq e' he' hl'⟩
  · right
    obtain ⟨t, ht⟩ := h.close_at he' hc
    refine ⟨p, t, ht, ?_, e, hq, hp⟩
    rintro rfl
    rw [hq] at he'
    cases he'
    obtain ⟨u, hu⟩ := hc
    rw [hv] at hu
    injection hu with hu
    exact h1.notClose hu

/-- The order on the log is a partial order that contains the program order of every thread. -/
theorem WInv.order {M : Machine S α} {Good : S → Prop} {w : W S α} (h : WInv M Good w) :
    (∀ p q, Before w.m.log p q → p < q) ∧ (∀ p q r, Before w.m.log p q → Before w.m.log q r → Before w.m.log p r) ∧
    (∀ p q t x y, At w.m.log p t x → At w.m.log q t y → p < q → Before w.m.log p q) := by
  have lt : ∀ p q, Before w.m.log p q → p < q := by
    rintro p q ⟨hne, e, he, hp⟩
    have := h.mem.le_self q e he p hp
    omega
  refine ⟨lt, ?_, ?_⟩
  · intro p q r h1 h2
    have a := lt _ _ h1
    have b := lt _ _ h2
    obtain ⟨-, e, he, hp⟩ := h1
    obtain ⟨-, e', he', hq⟩ := h2
    exact ⟨by omega, e', he', h.mem.trans r e' he' q hq e he hp⟩
  · rintro p q t x y ⟨k, hp⟩ ⟨k', hq⟩ hpq
    exact ⟨by omega, _, hq, h.mem.prog p q _ _ hp hq hpq rfl⟩

theorem WInv.closed_true {M : Machine S α} {Good : S → Prop} {w : W S α} (h : WInv M Good w) {q t : Nat} (hq : At w.m.log q t (.closed true)) :
    ∃ p u, Closes w.m.log p u ∧ Before w.m.log p q := by
  obtain ⟨k, hq⟩ := hq
  obtain ⟨p, hp, e', he', hc⟩ := h.mem.closed_true q _ hq rfl
  obtain ⟨u, hu⟩ := h.close_at he' hc
  refine ⟨p, u, hu, ?_, _, hq, hp⟩
  rintro rfl
  rw [hq] at he'
  cases he'
  obtain ⟨_, hc⟩ := hc
  cases hc

theorem WInv.closed_false {M : Machine S α} {Good : S → Prop} {w : W S α} (h : WInv M Good w) {p q t u : Nat} {b : Bool} (hq : At w.m.log q t (.closed b))
    (hp : Closes w.m.log p u ∨ At w.m.log p u (.closed true)) (hb : Before w.m.log p q) : b = true := by
  cases b with
  | true => rfl
  | false =>
    exfalso
    obtain ⟨k, hq⟩ := hq
    obtain ⟨-, e, he, hpk⟩ := hb
    rw [hq] at he
    cases he
    rcases hp with ⟨k', hp⟩ | ⟨k', hp⟩
    · exact h.mem.closed_false q _ hq rfl p hpk _ hp (.inl ⟨_, rfl⟩)
    · exact h.mem.closed_false q _ hq rfl p hpk _ hp (.inr rfl)

/-- Every step of the machine can be taken, with loads that read the last store. -/
theorem WInv.steps {M : Machine S α} {Good : S → Prop} (L : Lawful M Good) {w : W S α} (h : WInv M Good w) {a : Act α} {s' : S} (hr : replaced a = false)
    (hn : M.next w.s a = some s') : ∃ i m, wnext M w (.act a i) = some ⟨s', m⟩ := by
  refine ⟨w.m.writes.length - 1, ?_⟩
  simp only [wnext, hr]
  cases hl : M.load w.s a with
  | none => simp only [hn, Option.map_some]; exact ⟨_, rfl⟩
  | some acq =>
    have hlt := h.mem.seen_lt _ (.inl ⟨tid a, rfl⟩)
    have hc : w.m.canRead (tid a) (w.m.writes.length - 1) = true := canRead_iff.2 ⟨by omega, by omega⟩
    have hf : flagAt (w.m.writes.length - 1) = M.closed w.s := by
      rw [h.flag, flagAt]; congr 1; apply propext; omega
    simp only [hc, hf, L.set_self, hn, Option.map_some]
    refine ⟨_, congrArg some (congrArg (W.mk · _) ?_)⟩
    rw [← L.keeps w.s a s' h.good hn (by simp [hl]), L.set_self]

/-- Synchronization outside of the channel. -/
theorem WInv.sync {M : Machine S α} {Good : S → Prop} {w w1 w2 : W S α} (h : WInv M Good w) {t t' : Nat} (h1 : wnext M w (.sync t t') = some w1)
    (h2 : wnext M w1 (.user t') = some w2) {p : Nat} {x : What α} (hp : At w.m.log p t x) : Before w2.m.log p w.m.log.length := by
  obtain ⟨k, hp⟩ := hp
  have hlt := getElem?_lt hp
  have ho := h.mem.order p _ hp
  simp only [wnext] at h1
  cases ht : M.idle w.s t with
  | false => simp [ht] at h1
  | true =>
    cases ht' : M.idle w.s t' with
    | false => simp [ht, ht'] at h1
    | true =>
      simp only [ht, ht', Option.some.injEq] at h1
      subst h1
      simp only [wnext, ht', Option.some.injEq] at h2
      subst h2
      refine ⟨by omega, ⟨t', .user, w.m.log.length :: ((w.m.sync t t').view t').know⟩, by simp [Mem.record, Mem.sync, Mem.setView], ?_⟩
      refine List.mem_cons_of_mem _ ?_
      simp only [Mem.sync, Mem.setView, if_true]
      exact View.right_sub _ _ ho

/-! ### channel -/

section channel
open Verif.Channel (Cfg St init)

variable {cfg : Cfg} {n : Nat} {w : W (St α) α}

theorem chan_inv (h : WReachable (chan α cfg) (init α n) w) : WInv (chan α cfg) (Channel.Reachable cfg n) w :=
  h.inv (Chan.lawful cfg n) ⟨[], rfl⟩ rfl rfl rfl

/-- The state of the atomic queue in which an operation takes effect. -/
theorem chan_atomic (h : WReachable (chan α cfg) (init α n) w) {q : Nat} {e : Entry α} {t : Nat} {op : Op α} {r : Res α} (hq : w.m.log[q]? = some e)
    (hv : e.what = .ev (.lin t op r)) :
    ∃ s s', Channel.Explains cfg.cap (histOf (w.m.log.take q)) s ∧ Channel.Atomic cfg.cap s op r s' := by
  have hi := chan_inv h
  have he := Channel.explains_reach hi.good
  have : histOf w.m.log = w.s.hist := hi.hist
  rw [← this, hist_split hq hv] at he
  rw [show histOf (w.m.log.take q) ++ Ev.lin t op r :: histOf (w.m.log.drop (q + 1)) =
    (histOf (w.m.log.take q) ++ [Ev.lin t op r]) ++ histOf (w.m.log.drop (q + 1)) from by simp] at he
  obtain ⟨s1, he1⟩ := he.prefix
  obtain ⟨s, hs, hs'⟩ := he1.snoc_inv
  rcases hs' with ⟨hn, -⟩ | ⟨_, _, _, heq, ha⟩
  · exact absurd rfl (hn _ _ _)
  · cases heq; exact ⟨s, s1, hs, ha⟩

theorem chan_insert (h : WReachable (chan α cfg) (init α n) w) {q t : Nat} {v : α} (hq : Inserts w.m.log q t v) :
    ∃ e, w.m.log[q]? = some e ∧ e.tid = t ∧ Locked e ∧ inserted (histOf (w.m.log.take (q + 1))) = inserted (histOf (w.m.log.take q)) ++ [v] ∧
      insertions w.m.log q < removals w.m.log q + cfg.cap := by
  rcases hq with ⟨k, hq⟩ | ⟨k, hq⟩
  all_goals
    refine ⟨_, hq, rfl, locked_of rfl (by simp) (by simp), ?_, ?_⟩
    · rw [hist_take_succ hq rfl, inserted_append]; rfl
    · obtain ⟨s, s', he, ha⟩ := chan_atomic h hq rfl
      have hf := congrArg List.length he.fifo
      cases ha
      rename_i hlt
      simp only [List.length_append] at hf
      simp only [insertions, removals]; omega

theorem chan_remove (h : WReachable (chan α cfg) (init α n) w) {q t : Nat} {x : α} (hq : Removes w.m.log q t x) :
    ∃ e, w.m.log[q]? = some e ∧ e.tid = t ∧ Locked e ∧
      ∃ rest, inserted (histOf (w.m.log.take q)) = removed (histOf (w.m.log.take q)) ++ x :: rest := by
  rcases hq with ⟨k, hq⟩ | ⟨k, hq⟩
  all_goals
    refine ⟨_, hq, rfl, locked_of rfl (by simp) (by simp), ?_⟩
    obtain ⟨s, s', he, ha⟩ := chan_atomic h hq rfl
    have hf := he.fifo
    cases ha
    exact ⟨_, hf⟩

/-- C80: an execution with all the freedom the memory model leaves to loads of the flag is one of the executions in which loads with the mutex
held give the current value. All that is proved about those holds for it. -/
theorem chan_weak (h : WReachable (chan α cfg) (init α n) w) : Channel.Reachable cfg n w.s ∧ histOf w.m.log = w.s.hist :=
  ⟨(chan_inv h).good, (chan_inv h).hist⟩

example : Channel.Reachable ⟨1, false, false⟩ 2 demoW.s ∧ histOf demoW.m.log = demoW.s.hist := chan_weak demo_reach

/-- C80: happens-before is a partial order and contains the program order. -/
theorem chan_order (h : WReachable (chan α cfg) (init α n) w) :
    (∀ p q, Before w.m.log p q → p < q) ∧ (∀ p q r, Before w.m.log p q → Before w.m.log q r → Before w.m.log p r) ∧
    (∀ p q t x y, At w.m.log p t x → At w.m.log q t y → p < q → Before w.m.log p q) := (chan_inv h).order

example : Before demoW.m.log 0 8 :=
  (chan_order demo_reach).2.1 0 2 8 ((chan_order demo_reach).2.2 0 2 0 _ _ ⟨_, rfl⟩ ⟨_, rfl⟩ (by decide)) ⟨by decide, _, rfl, by decide⟩

/-- C80: the insertion of a value happens before its removal: if as many values were removed before the removal as were inserted before the insertion,
then both are about the same value, and happen in this order. -/
theorem chan_insert_remove (h : WReachable (chan α cfg) (init α n) w) {p q t u : Nat} {v x : α} (hp : Inserts w.m.log p t v)
    (hq : Removes w.m.log q u x) (hk : insertions w.m.log p = removals w.m.log q) : v = x ∧ Before w.m.log p q := by
  obtain ⟨e, he, -, hl, hi, -⟩ := chan_insert h hp
  obtain ⟨e', he', -, hl', rest, hr⟩ := chan_remove h hq
  have hpq : p < q := by
    rcases Nat.lt_or_ge p q with h1 | h1
    · exact h1
    · have := insertions_le w.m.log h1
      have h2 := congrArg List.length hr
      simp only [List.length_append, List.length_cons] at h2
      simp only [insertions, removals] at this hk
      omega
  refine ⟨?_, (chan_inv h).ordered he he' hpq hl hl'⟩
  obtain ⟨r, hr'⟩ := hist_take_le w.m.log (Nat.succ_le_of_lt hpq)
  have h3 : inserted (histOf (w.m.log.take q)) = inserted (histOf (w.m.log.take p)) ++ v :: inserted r := by
    rw [hr', inserted_append, show p.succ = p + 1 from rfl, hi, List.append_assoc]; rfl
  rw [h3] at hr
  have := List.append_inj hr hk
  exact (List.cons.inj this.2).1

example : Before demoW.m.log 12 22 := (chan_insert_remove (p := 12) (q := 22) (v := 8) (x := 8) demo_reach (.inl ⟨_, rfl⟩) (.inl ⟨_, rfl⟩) rfl).2

/-- C80: every value removed was inserted, by an insertion that happens before the removal, and as many values had been inserted before as had been
removed. -/
theorem chan_removed_from (h : WReachable (chan α cfg) (init α n) w) {q u : Nat} {x : α} (hq : Removes w.m.log q u x) :
    ∃ p t, Inserts w.m.log p t x ∧ insertions w.m.log p = removals w.m.log q ∧ Before w.m.log p q := by
  obtain ⟨e', he', -, hl', rest, hr⟩ := chan_remove h hq
  have hk : removals w.m.log q < (inserted (histOf (w.m.log.take q))).length := by
    rw [hr]; simp only [removals, List.length_append, List.length_cons]; omega
  obtain ⟨h1, t, v, op, h2, heq, hop, hlen⟩ := inserted_split hk
  obtain ⟨p, e, hp, hv, ht, -⟩ := histOf_eq heq
  obtain ⟨hpq, hp⟩ := getElem?_take_some hp
  have htid := (chan_inv h).tids e (List.mem_of_getElem? hp) _ hv
  obtain ⟨et, ew, ek⟩ := e
  dsimp only at hv htid
  subst hv
  simp only [Channel.Ev.tid] at htid
  subst htid
  have hins : Inserts w.m.log p t v := by
    rcases hop with rfl | rfl
    · exact .inl ⟨ek, hp⟩
    · exact .inr ⟨ek, hp⟩
  have hk' : insertions w.m.log p = removals w.m.log q := by
    rw [← hlen, ← ht, List.take_take, Nat.min_eq_left (Nat.le_of_lt hpq)]; rfl
  obtain ⟨rfl, hb⟩ := chan_insert_remove h hins hq hk'
  exact ⟨p, t, hins, hk', hb⟩

example : ∃ p t, Inserts demoW.m.log p t 8 ∧ insertions demoW.m.log p = removals demoW.m.log 22 ∧ Before demoW.m.log p 22 :=
  chan_removed_from demo_reach (.inl ⟨_, rfl⟩)

/-- C80: so what a thread did before it inserted a value happens before what the thread that removed the value does afterwards. -/
theorem chan_publish (h : WReachable (chan α cfg) (init α n) w) {p q t u : Nat} {v x : α} (hp : Inserts w.m.log p t v)
    (hq : Removes w.m.log q u x) (hk : insertions w.m.log p = removals w.m.log q) {a b : Nat} {y z : What α} (ha : At w.m.log a t y) (hap : a < p)
    (hb : At w.m.log b u z) (hqb : q < b) : Before w.m.log a b := by
  obtain ⟨-, htr, hpo⟩ := chan_order h
  have h1 : Before w.m.log a p := by rcases hp with hp | hp <;> exact hpo a p t _ _ ha hp hap
  have h2 : Before w.m.log q b := by rcases hq with hq | hq <;> exact hpo q b u _ _ hq hb hqb
  exact htr _ _ _ h1 (htr _ _ _ (chan_insert_remove h hp hq hk).2 h2)

example : Before demoW.m.log 0 10 :=
  chan_publish (p := 2) (q := 8) (v := 5) (x := 5) demo_reach (.inl ⟨_, rfl⟩) (.inl ⟨_, rfl⟩) rfl ⟨_, rfl⟩ (by decide) ⟨_, rfl⟩ (by decide)

/-- C80: the removal that makes room for a value happens before its insertion. -/
theorem chan_remove_insert (h : WReachable (chan α cfg) (init α n) w) {p q t u : Nat} {v x : α} (hp : Removes w.m.log p u x)
    (hq : Inserts w.m.log q t v) (hk : removals w.m.log p + cfg.cap = insertions w.m.log q) : Before w.m.log p q := by
  obtain ⟨e, he, -, hl, -, hi⟩ := chan_insert h hq
  obtain ⟨e', he', -, hl', -⟩ := chan_remove h hp
  have hpq : p < q := by
    rcases Nat.lt_or_ge p q with h1 | h1
    · exact h1
    · have := removals_le w.m.log h1
      omega
  exact (chan_inv h).ordered he' he hpq hl' hl

example : Before demoW.m.log 8 12 := chan_remove_insert (p := 8) (q := 12) (v := 8) (x := 5) demo_reach (.inl ⟨_, rfl⟩) (.inl ⟨_, rfl⟩) rfl

/-- An earlier `close()` whose effect happens before. -/
theorem chan_close_of (h : WReachable (chan α cfg) (init α n) w) {q : Nat} {e : Entry α} {t : Nat} {op : Op α} {r : Res α}
    (hq : w.m.log[q]? = some e) (hv : e.what = .ev (.lin t op r)) (hop : op ≠ .isClosed) {s} (he : Channel.Explains cfg.cap (histOf (w.m.log.take q)) s)
    (hs : s.2 = true) : ∃ p u, Closes w.m.log p u ∧ Before w.m.log p q := by
  rcases (chan_inv h).rejected hq hv ⟨t, op, r, rfl, hop⟩ with h1 | h1
  · obtain ⟨u, hu⟩ := he.close_mem hs
    obtain ⟨p, hpq, e', he', hw⟩ := mem_hist_take hu
    obtain ⟨u', hc⟩ := (chan_inv h).close_at he' ⟨u, hw⟩
    exact ⟨p, u', hc, h1 p e' hpq he' (IsClose.locked ⟨u, hw⟩)⟩
  · exact h1

/-- C80: when `push` returns `false`, a `close()` happens before. -/
theorem chan_push_false (h : WReachable (chan α cfg) (init α n) w) {q t : Nat} {v : α} (hq : At w.m.log q t (.ev (.lin t (.push v) (.bool false)))) :
    ∃ p u, Closes w.m.log p u ∧ Before w.m.log p q := by
  obtain ⟨k, hq⟩ := hq
  obtain ⟨s, s', he, ha⟩ := chan_atomic h hq rfl
  cases ha
  exact chan_close_of h hq rfl (by simp) he rfl

example : ∃ p u, Closes demoW.m.log p u ∧ Before demoW.m.log p 19 := chan_push_false demo_reach (v := 6) ⟨_, rfl⟩

/-- C80: when `try_push` returns `false`, a `close()` happens before, or the channel was full, and all insertions and removals so far happen before. -/
theorem chan_try_push_false (h : WReachable (chan α cfg) (init α n) w) {q t : Nat} {v : α}
    (hq : At w.m.log q t (.ev (.lin t (.tryPush v) (.bool false)))) :
    (∃ p u, Closes w.m.log p u ∧ Before w.m.log p q) ∨
    (insertions w.m.log q = removals w.m.log q + cfg.cap ∧ ∀ p u x, p < q → Inserts w.m.log p u x ∨ Removes w.m.log p u x → Before w.m.log p q) := by
  obtain ⟨k, hq⟩ := hq
  obtain ⟨s, s', he, ha⟩ := chan_atomic h hq rfl
  cases ha with
  | tryPushClosed => exact .inl (chan_close_of h hq rfl (by simp) he rfl)
  | tryPushFull hfull =>
    rcases (chan_inv h).rejected hq rfl ⟨t, _, _, rfl, by simp⟩ with h1 | h1
    · right
      have hf := congrArg List.length he.fifo
      have hb := he.bound
      simp only [List.length_append] at hf
      refine ⟨by simp only [insertions, removals]; dsimp only at hb hfull hf; omega, ?_⟩
      rintro p u x hpq (hx | hx)
      · obtain ⟨e, he, -, hl, -⟩ := chan_insert h hx
        exact h1 p e hpq he hl
      · obtain ⟨e, he, -, hl, -⟩ := chan_remove h hx
        exact h1 p e hpq he hl
    · exact .inl h1

example : insertions demoW.m.log 5 = removals demoW.m.log 5 + 1 := by
  rcases chan_try_push_false demo_reach (q := 5) (v := 7) ⟨_, rfl⟩ with ⟨p, u, ⟨k, hp⟩, hb⟩ | h
  · have := (chan_order demo_reach).1 _ _ hb
    match p, this, hp with
    | 0, _, hp | 1, _, hp | 2, _, hp | 3, _, hp | 4, _, hp => cases hp
  · exact h.1

/-- C80: when `pop` returns nothing, a `close()` and all insertions and removals so far happen before, and all values have been removed. -/
theorem chan_pop_none (h : WReachable (chan α cfg) (init α n) w) {q t : Nat} (hq : At w.m.log q t (.ev (.lin t .pop (.val none)))) :
    (∃ p u, Closes w.m.log p u ∧ Before w.m.log p q) ∧ insertions w.m.log q = removals w.m.log q ∧
    ∀ p u x, p < q → Inserts w.m.log p u x ∨ Removes w.m.log p u x → Before w.m.log p q := by
  obtain ⟨k, hq⟩ := hq
  obtain ⟨s, s', he, ha⟩ := chan_atomic h hq rfl
  cases ha
  refine ⟨chan_close_of h hq rfl (by simp) he rfl, ?_, ?_⟩
  · have hf := congrArg List.length he.fifo
    simpa [insertions, removals] using hf
  · have hl := locked_of (e := ⟨t, .ev (.lin t .pop (.val none)), k⟩) (α := α) rfl (by simp) (by simp)
    rintro p u x hpq (hx | hx)
    · obtain ⟨e, he, -, hl', -⟩ := chan_insert h hx
      exact (chan_inv h).ordered he hq hpq hl' hl
    · obtain ⟨e, he, -, hl', -⟩ := chan_remove h hx
      exact (chan_inv h).ordered he hq hpq hl' hl

example : insertions demoW.m.log 25 = removals demoW.m.log 25 := (chan_pop_none demo_reach (q := 25) ⟨_, rfl⟩).2.1

/-- C80: when `closed()` returns `true`, a `close()` happens before; and it returns `true` if a `close()`, or a `closed()` that returned `true`, happens before. -/
theorem chan_closed (h : WReachable (chan α cfg) (init α n) w) {q t : Nat} {b : Bool} (hq : At w.m.log q t (.closed b)) :
    (b = true → ∃ p u, Closes w.m.log p u ∧ Before w.m.log p q) ∧
    (∀ p u, Closes w.m.log p u ∨ At w.m.log p u (.closed true) → Before w.m.log p q → b = true) :=
  ⟨fun hb => (chan_inv h).closed_true (hb ▸ hq), fun _ _ hp hb => (chan_inv h).closed_false hq hp hb⟩

example : ∃ p u, Closes demoW.m.log p u ∧ Before demoW.m.log p 17 := (chan_closed demo_reach ⟨_, rfl⟩).1 rfl

/-- C80: nothing is left out: every step of an execution in which loads give the current value is possible. -/
theorem chan_steps (h : WReachable (chan α cfg) (init α n) w) {a : Act α} {s' : St α} (hr : replaced a = false) (hn : Channel.next cfg w.s a = some s') :
    ∃ i m, wnext (chan α cfg) w (.act a i) = some ⟨s', m⟩ := (chan_inv h).steps (Chan.lawful cfg n) hr hn

example : ∃ i m, wnext (chan Nat ⟨1, false, false⟩) demoW (.act (.call 1 .tryPop) i) =
    some ⟨{ demoW.s with pcs := demoW.s.pcs.set 1 .qLock, hist := demoW.s.hist ++ [.call 1 .tryPop] }, m⟩ := chan_steps demo_reach rfl rfl

/-- C80, why `closed()` is about what happens before: one thread's `close()` has returned, and another thread's `closed()`, later in the execution, returns
`false`. -/
theorem chan_closed_late : ∃ w, WReachable (chan Nat ⟨1, false, false⟩) (Channel.init Nat 2) w ∧ Closes w.m.log 1 0 ∧ At w.m.log 2 0 (.ev (.ret 0 .unit)) ∧
    At w.m.log 3 1 (.closed false) :=
  ⟨(wrun (chan Nat ⟨1, false, false⟩) ⟨Channel.init Nat 2, .init Nat⟩ ([.act (.call 0 .close) 0] ++ steps 0 0 6 ++ [.closed 1 0])).getD
    ⟨Channel.init Nat 2, .init Nat⟩, ⟨[.act (.call 0 .close) 0] ++ steps 0 0 6 ++ [.closed 1 0], rfl⟩, ⟨_, rfl⟩, ⟨_, rfl⟩, ⟨_, rfl⟩⟩

/-- C80: synchronization outside of the channel is part of it: after it, what thread `t` did happens before what thread `t'` does. -/
theorem chan_sync (h : WReachable (chan α cfg) (init α n) w) {w1 w2 : W (St α) α} {t t' : Nat} (h1 : wnext (chan α cfg) w (.sync t t') = some w1)
    (h2 : wnext (chan α cfg) w1 (.user t') = some w2) {p : Nat} {x : What α} (hp : At w.m.log p t x) : Before w2.m.log p w.m.log.length :=
  (chan_inv h).sync h1 h2 hp

example : Before (((demoW.m).sync 0 1).record 1 .user).log 3 demoW.m.log.length := chan_sync demo_reach (w1 := ⟨demoW.s, demoW.m.sync 0 1⟩)
  (w2 := ⟨demoW.s, (demoW.m.sync 0 1).record 1 .user⟩) (t := 0) (t' := 1) rfl rfl (p := 3) ⟨_, rfl⟩

end channel

/-! ### exchange_channel -/

section exchange
open Verif.Exchange (Cfg St init)

variable {cfg : Cfg} {n : Nat} {w : W (St α) α}

theorem exch_inv (h : WReachable (exch α cfg) (init α n) w) : WInv (exch α cfg) (Exchange.Reachable cfg n) w :=
  h.inv (Exch.lawful cfg n) ⟨[], rfl⟩ rfl rfl rfl

theorem exch_prefix {h1 h2 : List (Ev α)} {s'} (he : Exchange.Explains (h1 ++ h2) s') : ∃ s, Exchange.Explains h1 s := by
  induction h2 using List.reverseRecOn generalizing s' with
  | nil => rw [List.append_nil] at he; exact ⟨_, he⟩
  | append_singleton h e ih =>
    rw [← List.append_assoc] at he
    obtain ⟨s, hs, _⟩ := he.snoc_inv
    exact ih hs

theorem exch_close_mem {h : List (Ev α)} {s} (he : Exchange.Explains h s) (hc : s.2 = true) : ∃ t, Ev.lin t .close .unit ∈ h := by
  induction he with
  | nil => cases hc
  | call _ ih => obtain ⟨t, h⟩ := ih hc; exact ⟨t, by simp [h]⟩
  | ret _ ih => obtain ⟨t, h⟩ := ih hc; exact ⟨t, by simp [h]⟩
  | @lin _ _ _ t _ _ _ ha ih =>
    cases ha
    case close => exact ⟨t, by simp⟩
    all_goals (obtain ⟨u, h⟩ := ih hc; exact ⟨u, by simp [h]⟩)

/-- What is in the slot was put there by the last insertion, and not removed since. -/
theorem exch_slot {h : List (Ev α)} {s} (he : Exchange.Explains h s) : ∀ x, s.1 = some x → ∃ h1 t h2, h = h1 ++ .lin t (.push x) (.bool true) :: h2 ∧
    inserted h2 = [] ∧ removed h2 = [] := by
  induction he with
  | nil => intro x hx; cases hx
  | call _ ih =>
    intro x hx
    obtain ⟨h1, t, h2, rfl, a, b⟩ := ih x hx
    exact ⟨h1, t, h2 ++ [_], by rw [List.append_assoc]; rfl, by rw [inserted_append, a]; rfl, by rw [removed_append, b]; rfl⟩
  | ret _ ih =>
    intro x hx
    obtain ⟨h1, t, h2, rfl, a, b⟩ := ih x hx
    exact ⟨h1, t, h2 ++ [_], by rw [List.append_assoc]; rfl, by rw [inserted_append, a]; rfl, by rw [removed_append, b]; rfl⟩
  | @lin h s s' t op r _ ha ih =>
    intro x hx
    have keep : s.1 = some x → inserted [Ev.lin t op r] = [] → removed [Ev.lin t op r] = [] →
        ∃ h1 t' h2, h ++ [.lin t op r] = h1 ++ .lin t' (.push x) (.bool true) :: h2 ∧ inserted h2 = [] ∧ removed h2 = [] := by
      intro hs hi hr
      obtain ⟨h1, t', h2, rfl, a, b⟩ := ih x hs
      exact ⟨h1, t', h2 ++ [_], by rw [List.append_assoc]; rfl, by rw [inserted_append, a, hi]; rfl, by rw [removed_append, b, hr]; rfl⟩
    cases ha
    case pushOk => cases hx; exact ⟨h, t, [], rfl, rfl, rfl⟩
    all_goals first
      | exact keep hx rfl rfl
      | cases hx

theorem exch_atomic (h : WReachable (exch α cfg) (init α n) w) {q : Nat} {e : Entry α} {t : Nat} {op : Op α} {r : Res α} (hq : w.m.log[q]? = some e)
    (hv : e.what = .ev (.lin t op r)) :
    ∃ s s', Exchange.Explains (histOf (w.m.log.take q)) s ∧ Exchange.Atomic s op r s' := by
  have hi := exch_inv h
  have he := Exchange.explains_reach hi.good
  have : histOf w.m.log = w.s.hist := hi.hist
  rw [← this, hist_split hq hv] at he
  rw [show histOf (w.m.log.take q) ++ Ev.lin t op r :: histOf (w.m.log.drop (q + 1)) =
    (histOf (w.m.log.take q) ++ [Ev.lin t op r]) ++ histOf (w.m.log.drop (q + 1)) from by simp] at he
  obtain ⟨s1, he1⟩ := exch_prefix he
  obtain ⟨s, hs, hs'⟩ := he1.snoc_inv
  rcases hs' with ⟨hn, -⟩ | ⟨_, _, _, heq, ha⟩
  · exact absurd rfl (hn _ _ _)
  · cases heq; exact ⟨s, s1, hs, ha⟩

theorem exch_slot_at (h : WReachable (exch α cfg) (init α n) w) {q u : Nat} {x : α} (hq : Removes w.m.log q u x) :
    ∃ e, w.m.log[q]? = some e ∧ Locked e ∧ ∃ c, Exchange.Explains (histOf (w.m.log.take q)) (some x, c) := by
  rcases hq with ⟨k, hq⟩ | ⟨k, hq⟩
  all_goals
    refine ⟨_, hq, locked_of rfl (by simp) (by simp), ?_⟩
    obtain ⟨s, s', he, ha⟩ := exch_atomic h hq rfl
    cases ha
    exact ⟨_, he⟩

/-- C80: as for `channel`: all executions the memory model permits are executions in which loads with the mutex held give the current value. -/
theorem exch_weak (h : WReachable (exch α cfg) (init α n) w) : Exchange.Reachable cfg n w.s ∧ histOf w.m.log = w.s.hist :=
  ⟨(exch_inv h).good, (exch_inv h).hist⟩

example : Exchange.Reachable ⟨false, false⟩ 2 demoXW.s ∧ histOf demoXW.m.log = demoXW.s.hist := exch_weak demoX_reach

/-- C80: happens-before is a partial order and contains the program order. -/
theorem exch_order (h : WReachable (exch α cfg) (init α n) w) :
    (∀ p q, Before w.m.log p q → p < q) ∧ (∀ p q r, Before w.m.log p q → Before w.m.log q r → Before w.m.log p r) ∧
    (∀ p q t x y, At w.m.log p t x → At w.m.log q t y → p < q → Before w.m.log p q) := (exch_inv h).order

example : Before demoXW.m.log 0 5 :=
  (exch_order demoX_reach).2.1 0 2 5 ((exch_order demoX_reach).2.2 0 2 0 _ _ ⟨_, rfl⟩ ⟨_, rfl⟩ (by decide)) ⟨by decide, _, rfl, by decide⟩

/-- C80: every value removed was inserted by an insertion that happens before the removal, and there is no other insertion or removal between them. -/
theorem exch_removed_from (h : WReachable (exch α cfg) (init α n) w) {q u : Nat} {x : α} (hq : Removes w.m.log q u x) :
    ∃ p t, Inserts w.m.log p t x ∧ Before w.m.log p q ∧ insertions w.m.log q = insertions w.m.log p + 1 ∧ removals w.m.log q = removals w.m.log p := by
  obtain ⟨e', he', hl', c, hx⟩ := exch_slot_at h hq
  obtain ⟨h1, t, h2, heq, hi, hr⟩ := exch_slot hx x rfl
  obtain ⟨p, e, hp, hv, ht, -⟩ := histOf_eq heq
  obtain ⟨hpq, hp⟩ := getElem?_take_some hp
  have htid := (exch_inv h).tids e (List.mem_of_getElem? hp) _ hv
  obtain ⟨et, ew, ek⟩ := e
  dsimp only at hv htid
  subst hv
  simp only [Channel.Ev.tid] at htid
  subst htid
  rw [List.take_take, Nat.min_eq_left (Nat.le_of_lt hpq)] at ht
  refine ⟨p, t, .inl ⟨ek, hp⟩, (exch_inv h).ordered hp he' hpq (locked_of rfl (by simp) (by simp)) hl', ?_, ?_⟩
  · simp only [insertions, heq, ht, inserted_append, inserted, hi, List.length_append, List.length_cons, List.length_nil]
  · simp only [removals, heq, ht, removed_append, removed, hr, List.length_append, List.length_nil, Nat.add_zero]

example : ∃ p t, Inserts demoXW.m.log p t 5 ∧ Before demoXW.m.log p 5 ∧ insertions demoXW.m.log 5 = insertions demoXW.m.log p + 1 ∧
    removals demoXW.m.log 5 = removals demoXW.m.log p := exch_removed_from demoX_reach (.inl ⟨_, rfl⟩)

/-- C80: so what the thread that inserted the value did before happens before what the thread that removed it does afterwards. -/
theorem exch_publish (h : WReachable (exch α cfg) (init α n) w) {q u : Nat} {x : α} (hq : Removes w.m.log q u x) :
    ∃ p t, Inserts w.m.log p t x ∧ p < q ∧ ∀ (a b : Nat) (y z : What α), At w.m.log a t y → a < p → At w.m.log b u z → q < b → Before w.m.log a b := by
  obtain ⟨p, t, hi, hb, -, -⟩ := exch_removed_from h hq
  obtain ⟨hlt, htr, hpo⟩ := exch_order h
  refine ⟨p, t, hi, hlt _ _ hb, ?_⟩
  intro a b y z ha hap hb' hqb
  have h1 : Before w.m.log a p := by rcases hi with hp | hp <;> exact hpo a p t _ _ ha hp hap
  have h2 : Before w.m.log q b := by rcases hq with hq | hq <;> exact hpo q b u _ _ hq hb' hqb
  exact htr _ _ _ h1 (htr _ _ _ hb h2)

example : Before demoXW.m.log 0 7 := by
  obtain ⟨p, t, hi, hlt, hb⟩ := exch_publish demoX_reach (q := 5) (u := 1) (x := 5) (.inl ⟨_, rfl⟩)
  match p, hlt, hi with
  | 0, _, .inl ⟨_, hi⟩ | 1, _, .inl ⟨_, hi⟩ | 3, _, .inl ⟨_, hi⟩ | 4, _, .inl ⟨_, hi⟩ => cases hi
  | 0, _, .inr ⟨_, hi⟩ | 1, _, .inr ⟨_, hi⟩ | 2, _, .inr ⟨_, hi⟩ | 3, _, .inr ⟨_, hi⟩ | 4, _, .inr ⟨_, hi⟩ => cases hi
  | 2, _, .inl ⟨_, hi⟩ => cases hi; exact hb 0 7 .user .user ⟨_, rfl⟩ (by decide) ⟨_, rfl⟩ (by decide)

theorem exch_close_of (h : WReachable (exch α cfg) (init α n) w) {q : Nat} {e : Entry α} {t : Nat} {op : Op α} {r : Res α}
    (hq : w.m.log[q]? = some e) (hv : e.what = .ev (.lin t op r)) (hop : op ≠ .isClosed) {s} (he : Exchange.Explains (histOf (w.m.log.take q)) s)
    (hs : s.2 = true) : ∃ p u, Closes w.m.log p u ∧ Before w.m.log p q := by
  rcases (exch_inv h).rejected hq hv ⟨t, op, r, rfl, hop⟩ with h1 | h1
  · obtain ⟨u, hu⟩ := exch_close_mem he hs
    obtain ⟨p, hpq, e', he', hw⟩ := mem_hist_take hu
    obtain ⟨u', hc⟩ := (exch_inv h).close_at he' ⟨u, hw⟩
    exact ⟨p, u', hc, h1 p e' hpq he' (IsClose.locked ⟨u, hw⟩)⟩
  · exact h1

/-- C80: when `push` returns `false`, a `close()` happens before. -/
theorem exch_push_false (h : WReachable (exch α cfg) (init α n) w) {q t : Nat} {v : α} (hq : At w.m.log q t (.ev (.lin t (.push v) (.bool false)))) :
    ∃ p u, Closes w.m.log p u ∧ Before w.m.log p q := by
  obtain ⟨k, hq⟩ := hq
  obtain ⟨s, s', he, ha⟩ := exch_atomic h hq rfl
  cases ha
  exact exch_close_of h hq rfl (by simp) he rfl

example : ∃ p u, Closes demoXW.m.log p u ∧ Before demoXW.m.log p 13 := exch_push_false demoX_reach (v := 6) ⟨_, rfl⟩

/-- C80: when `pop` returns nothing, a `close()` and all insertions and removals so far happen before. -/
theorem exch_pop_none (h : WReachable (exch α cfg) (init α n) w) {q t : Nat} (hq : At w.m.log q t (.ev (.lin t .pop (.val none)))) :
    (∃ p u, Closes w.m.log p u ∧ Before w.m.log p q) ∧ ∀ p u x, p < q → Inserts w.m.log p u x ∨ Removes w.m.log p u x → Before w.m.log p q := by
  obtain ⟨k, hq⟩ := hq
  obtain ⟨s, s', he, ha⟩ := exch_atomic h hq rfl
  cases ha
  refine ⟨exch_close_of h hq rfl (by simp) he rfl, ?_⟩
  have hl := locked_of (e := ⟨t, .ev (.lin t .pop (.val none)), k⟩) (α := α) rfl (by simp) (by simp)
  rintro p u x hpq (hx | hx)
  · rcases hx with ⟨k', hx⟩ | ⟨k', hx⟩ <;> exact (exch_inv h).ordered hx hq hpq (locked_of rfl (by simp) (by simp)) hl
  · rcases hx with ⟨k', hx⟩ | ⟨k', hx⟩ <;> exact (exch_inv h).ordered hx hq hpq (locked_of rfl (by simp) (by simp)) hl

example : ∃ p u, Closes demoXW.m.log p u ∧ Before demoXW.m.log p 16 := (exch_pop_none demoX_reach ⟨_, rfl⟩).1

/-- C80: when `closed()` returns `true`, a `close()` happens before; and it returns `true` if a `close()`, or a `closed()` that returned `true`, happens before. -/
theorem exch_closed (h : WReachable (exch α cfg) (init α n) w) {q t : Nat} {b : Bool} (hq : At w.m.log q t (.closed b)) :
    (b = true → ∃ p u, Closes w.m.log p u ∧ Before w.m.log p q) ∧
    (∀ p u, Closes w.m.log p u ∨ At w.m.log p u (.closed true) → Before w.m.log p q → b = true) :=
  ⟨fun hb => (exch_inv h).closed_true (hb ▸ hq), fun _ _ hp hb => (exch_inv h).closed_false hq hp hb⟩

example : ∃ p u, Closes demoXW.m.log p u ∧ Before demoXW.m.log p 11 := (exch_closed demoX_reach ⟨_, rfl⟩).1 rfl

/-- C80: nothing is left out: every step of an execution in which loads give the current value is possible. -/
theorem exch_steps (h : WReachable (exch α cfg) (init α n) w) {a : Act α} {s' : St α} (hr : replaced a = false) (hn : Exchange.next cfg w.s a = some s') :
    ∃ i m, wnext (exch α cfg) w (.act a i) = some ⟨s', m⟩ := (exch_inv h).steps (Exch.lawful cfg n) hr hn

example : ∃ i m, wnext (exch Nat ⟨false, false⟩) demoXW (.act (.call 1 .tryPop) i) =
    some ⟨{ demoXW.s with pcs := demoXW.s.pcs.set 1 .qLock, hist := demoXW.s.hist ++ [.call 1 .tryPop] }, m⟩ := exch_steps demoX_reach rfl rfl

/-- C80, why `closed()` is about what happens before: one thread's `close()` has returned, and another thread's `closed()`, later in the execution, returns
`false`. -/
theorem exch_closed_late : ∃ w, WReachable (exch Nat ⟨false, false⟩) (Exchange.init Nat 2) w ∧ Closes w.m.log 1 0 ∧ At w.m.log 2 0 (.ev (.ret 0 .unit)) ∧
    At w.m.log 3 1 (.closed false) :=
  ⟨(wrun (exch Nat ⟨false, false⟩) ⟨Exchange.init Nat 2, .init Nat⟩ ([.act (.call 0 .close) 0] ++ steps 0 0 5 ++ [.closed 1 0])).getD
    ⟨Exchange.init Nat 2, .init Nat⟩, ⟨[.act (.call 0 .close) 0] ++ steps 0 0 5 ++ [.closed 1 0], rfl⟩, ⟨_, rfl⟩, ⟨_, rfl⟩, ⟨_, rfl⟩⟩

/-- C80: synchronization outside of the channel is part of it: after it, what thread `t` did happens before what thread `t'` does. -/
theorem exch_sync (h : WReachable (exch α cfg) (init α n) w) {w1 w2 : W (St α) α} {t t' : Nat} (h1 : wnext (exch α cfg) w (.sync t t') = some w1)
    (h2 : wnext (exch α cfg) w1 (.user t') = some w2) {p : Nat} {x : What α} (hp : At w.m.log p t x) : Before w2.m.log p w.m.log.length :=
  (exch_inv h).sync h1 h2 hp

example : Before (((demoXW.m).sync 0 1).record 1 .user).log 3 demoXW.m.log.length := exch_sync demoX_reach (w1 := ⟨demoXW.s, demoXW.m.sync 0 1⟩)
  (w2 := ⟨demoXW.s, (demoXW.m.sync 0 1).record 1 .user⟩) (t := 0) (t' := 1) rfl rfl (p := 3) ⟨_, rfl⟩

end exchange

end Verif.HB
