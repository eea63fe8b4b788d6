import Verif.Reentry.Lemmas

/-!
Property C116: element types whose own code uses channels.
-/
namespace Verif.Reentry

/-! ### Without deadlock, if channels are used in order -/

/-- Channel 0 is a queue, channel 1 an exchange channel. The element of channel 0 reports to channel 1 when it is constructed, and takes another
element out of channel 0 when the result is made. -/
def demo : List Call := [.emplace true 0 [.emplace false 1 [] [] [] [] []] [.closed 0] [.pop false 1] [.pop false 0] [.close 0], .pop true 0]

def demoPlan : Plan := ⟨2, fun c => c == 1, fun _ => none⟩

/-- **C116 (order).** Let the code that elements run with the mutex of a channel use later channels only (in any order of the channels that
exists), without waiting for elements or space; what runs after the mutex is released may use any channel, even the same one, and
wait. Then threads never wait for mutexes for ever: if no thread can go on, all mutexes are free, and every thread is done or waits
for an element in an empty channel that is not closed or for space in a full channel that is not closed. -/
theorem element_code_no_deadlock {P : Plan} {cs : List (Bool × Nat)} {progs : List (List Call)} {sched : List Nat} {s : State}
    (hn : cs.length = P.n) (hx : ∀ c k, cs[c]? = some k → k.1 = P.exch c) (hp : ∀ p ∈ progs, okAll P none p = true)
    (h : exec (start cs progs) sched = some s) (hstuck : ∀ i, step s i = none) :
    (∀ (c : Nat) (ch : Chan), s.chans[c]? = some ch → ch.owner = none) ∧
    ∀ (i : Nat) (is : List Instr), s.thr[i]? = some is → is = [] ∨ ∃ x rest ch, (is = .call x :: rest ∨ is = .inside x :: rest) ∧
      s.chans[x.chan]? = some ch ∧ Blocked ch x := by
  have hI := inv_exec (inv_start hn hx hp) h
  have chanOf : ∀ {x : Call} {o}, x.ok P o = true → ∃ ch, s.chans[x.chan]? = some ch := by
    intro x o ho
    have : x.chan < P.n := by cases x <;> simp [Call.ok, Call.chan] at ho ⊢ <;> omega
    exact ⟨_, List.getElem?_eq_getElem (by rw [hI.len]; exact this)⟩
  -- what stands at the front of a stuck thread
  have front : ∀ (i : Nat) (is : List Instr), s.thr[i]? = some is → is = [] ∨ ∃ x rest ch, (is = .call x :: rest ∨ is = .inside x :: rest) ∧
      s.chans[x.chan]? = some ch ∧ enter i rest ch x = none ∧ x.ok P (top is) = true := by
    intro i is hi
    have hg := hI.good _ _ hi
    have hs := hstuck i
    unfold step at hs
    rw [hi] at hs
    match is, hg, hs with
    | [], _, _ => exact .inl rfl
    | .call x :: rest, hg, hs =>
      right
      obtain ⟨ch, hc⟩ := chanOf hg.1
      refine ⟨x, rest, ch, .inl rfl, hc, ?_, hg.1⟩
      simp only [hc] at hs
      cases x with
      | emplace => simp at hs
      | _ => simpa using hs
    | .inside x :: rest, hg, hs =>
      right
      obtain ⟨ch, hc⟩ := chanOf hg.1
      refine ⟨x, rest, ch, .inr rfl, hc, ?_, hg.1⟩
      simp only [hc] at hs
      simpa using hs
    | .add c e :: rest, _, hs => simp at hs
    | .unlock c :: rest, _, hs => simp at hs
  -- the highest mutex that is owned cannot be owned
  have free : ∀ (k c : Nat) (ch : Chan), P.n - c ≤ k → s.chans[c]? = some ch → ch.owner = none := by
    intro k
    induction k with
    | zero =>
      intro c ch hk hc
      have := (List.getElem?_eq_some_iff.1 hc).1
      rw [hI.len] at this
      omega
    | succ k ih =>
      intro c ch hk hc
      cases ho : ch.owner with
      | none => rfl
      | some i =>
        exfalso
        obtain ⟨is, hi, hm⟩ := hI.own c ch i hc ho
        obtain ⟨t, ht, hle⟩ := held_le (hI.good _ _ hi) c hm
        rcases front i is hi with rfl | ⟨x, rest, xh, _, hxc, hen, hok⟩
        · simp [held] at hm
        · rw [ht] at hok
          by_cases hcl : ∃ d, x = .closed d
          · obtain ⟨d, rfl⟩ := hcl
            simp [enter] at hen
          · have habove : t < x.chan := by
              cases x <;> simp_all [Call.ok, above, Call.chan]
            refine enter_free (ih x.chan xh ?_ hxc) (hI.exch _ _ hxc) hok hen
            have := (List.getElem?_eq_some_iff.1 hxc).1
            rw [hI.len] at this
            omega
  refine ⟨fun c ch => free _ c ch (Nat.le_refl _), fun i is hi => ?_⟩
  rcases front i is hi with rfl | ⟨x, rest, ch, hx, hxc, hen, _⟩
  · exact .inl rfl
  · refine .inr ⟨x, rest, ch, hx, hxc, ?_⟩
    rcases enter_none hen with h | h
    · exact absurd (free _ _ ch (Nat.le_refl _) hxc) h
    · exact h

example : okAll demoPlan none demo = true ∧ (∀ c k, ([(false, 2), (true, 1)] : List (Bool × Nat))[c]? = some k → k.1 = demoPlan.exch c) :=
  ⟨by decide +kernel, fun c k h => by
    match c with
    | 0 => simp at h; subst h; rfl
    | 1 => simp at h; subst h; rfl
    | c + 2 => simp at h⟩

/-- One thread, from start to end. -/
example : ((exec (start [(false, 2), (true, 1)] [demo]) (List.replicate 15 0)).any fun s =>
    s.thr.all (·.isEmpty) && s.chans.all fun c => c.owner.isNone && c.buf.isEmpty) = true := by decide +kernel

/-- **C116 (end).** Element code of finite depth ends: any number of threads together make a bounded number of steps (at most seven for each call
in their programs and in the code of their elements), in every schedule. So if the order above is kept, every execution ends with
all threads done or waiting for elements or space. -/
theorem element_code_bounded {sched : List Nat} {s t : State} (h : exec s sched = some t) : sched.length + t.size ≤ s.size := by
  induction sched generalizing s with
  | nil => simp [exec] at h; subst h; simp
  | cons i is ih =>
    simp only [exec] at h
    cases hs : step s i with
    | none => simp [hs] at h
    | some u =>
      simp only [hs, Option.bind_some] at h
      have := ih h
      have := step_size hs
      simp only [List.length_cons]
      omega

example : (start [(false, 2), (true, 1)] [demo]).size = 19 := by decide +kernel

/-! ### The own channel -/

/-- Does the call lock the mutex of the channel? -/
def locks (ch : Chan) : Call → Bool
  | .closed _ => false
  | .emplace .. => !ch.closed
  | .guard wait .. => wait
  | _ => true

/-- Element code that a call runs with the mutex of its channel. -/
def withMutex (ch : Chan) : Call → List Call
  | .emplace _ _ make .. => if ch.exch then (ch.buf.map (·.d1)).flatten ++ make else make
  | .pop .. => match ch.buf with
    | e :: _ => if ch.exch then e.m1 ++ e.d1 ++ e.m2 ++ e.d2 else e.m1 ++ e.d1
    | [] => []
  | .guard _ _ body => body
  | _ => []

/-- Mutexes are owned by the threads that will release them, once. -/
structure Owned (s : State) : Prop where
  hold : ∀ (i : Nat) (is : List Instr) (c : Nat), s.thr[i]? = some is → c ∈ held is → ∃ ch, s.chans[c]? = some ch ∧ ch.owner = some i
  once : ∀ (i : Nat) (is : List Instr), s.thr[i]? = some is → (held is).Nodup

theorem enter_owner {i rest ch x ch' is'} (h : enter i rest ch x = some (ch', is')) :
    (ch'.owner = ch.owner ∧ held is' = held rest) ∨ (ch.owner = none ∧ ch'.owner = some i ∧ held is' = x.chan :: held rest) := by
  cases x with
  | closed c =>
    simp only [enter, Option.some.injEq, Prod.mk.injEq] at h
    obtain ⟨rfl, rfl⟩ := h
    exact .inl ⟨rfl, rfl⟩
  | close c =>
    simp only [enter] at h
    split at h
    · simp only [Option.some.injEq, Prod.mk.injEq] at h
      obtain ⟨rfl, rfl⟩ := h
      exact .inl ⟨rfl, rfl⟩
    · cases h
  | emplace wait c make m1 d1 m2 d2 =>
    simp only [enter] at h
    split at h
    · cases h
    rename_i hown
    have hown : ch.owner = none := by simpa using hown
    split at h
    · simp only [Option.some.injEq, Prod.mk.injEq] at h
      obtain ⟨rfl, rfl⟩ := h
      exact .inl ⟨rfl, rfl⟩
    split at h
    · simp only [Option.some.injEq, Prod.mk.injEq] at h
      obtain ⟨rfl, rfl⟩ := h
      exact .inr ⟨hown, rfl, by rw [held_calls]; rfl⟩
    split at h
    · simp only [Option.some.injEq, Prod.mk.injEq] at h
      obtain ⟨rfl, rfl⟩ := h
      exact .inr ⟨hown, rfl, by rw [held_calls]; rfl⟩
    split at h
    · cases h
    · simp only [Option.some.injEq, Prod.mk.injEq] at h
      obtain ⟨rfl, rfl⟩ := h
      exact .inl ⟨rfl, rfl⟩
  | pop wait c =>
    simp only [enter] at h
    split at h
    · cases h
    rename_i hown
    have hown : ch.owner = none := by simpa using hown
    split at h
    · split at h
      all_goals
        simp only [Option.some.injEq, Prod.mk.injEq] at h
        obtain ⟨rfl, rfl⟩ := h
        exact .inr ⟨hown, rfl, by rw [held_calls]; simp [held, held_calls, Call.chan]⟩
    · split at h
      · simp only [Option.some.injEq, Prod.mk.injEq] at h
        obtain ⟨rfl, rfl⟩ := h
        exact .inl ⟨rfl, rfl⟩
      · cases h
  | guard wait c body =>
    simp only [enter] at h
    split at h
    · split at h
      · cases h
      · simp only [Option.some.injEq, Prod.mk.injEq] at h
        obtain ⟨rfl, rfl⟩ := h
        exact .inl ⟨rfl, rfl⟩
    · rename_i hown
      have hown : ch.owner = none := by simpa using hown
      simp only [Option.some.injEq, Prod.mk.injEq] at h
      obtain ⟨rfl, rfl⟩ := h
      exact .inr ⟨hown, rfl, by rw [held_calls]; rfl⟩

theorem owned_set {s : State} (hI : Owned s) {i : Nat} {is is' : List Instr} (hi : s.thr[i]? = some is)
    {c : Nat} {ch ch' : Chan} (hc : s.chans[c]? = some ch)
    (ho : (ch'.owner = ch.owner ∧ held is' = held is) ∨ (ch.owner = none ∧ ch'.owner = some i ∧ held is' = c :: held is) ∨
      (ch'.owner = none ∧ held is = c :: held is')) :
    Owned ⟨s.chans.set c ch', s.thr.set i is'⟩ where
  once j js hj := by
    simp only [getElem?_set' hi] at hj
    split at hj
    · injection hj with hj; subst hj
      have hn := hI.once _ _ hi
      rcases ho with ⟨_, o2⟩ | ⟨o1, _, o3⟩ | ⟨_, o2⟩
      · rw [o2]; exact hn
      · rw [o3, List.nodup_cons]
        refine ⟨fun hm => ?_, hn⟩
        obtain ⟨dh, hd, ho'⟩ := hI.hold _ _ c hi hm
        rw [hc] at hd; injection hd with hd; subst hd
        rw [o1] at ho'; cases ho'
      · rw [o2, List.nodup_cons] at hn; exact hn.2
    · exact hI.once _ _ hj
  hold j js d hj hm := by
    simp only [getElem?_set' hi] at hj
    simp only [getElem?_set' hc]
    split at hj
    · rename_i e; subst e
      injection hj with hj; subst hj
      rcases ho with ⟨o1, o2⟩ | ⟨o1, o2, o3⟩ | ⟨o1, o2⟩
      · rw [o2] at hm
        obtain ⟨dh, hd, ho'⟩ := hI.hold _ _ d hi hm
        by_cases hdc : d = c
        · subst hdc
          rw [hc] at hd; injection hd with hd
          exact ⟨ch', by simp, by rw [o1, hd]; exact ho'⟩
        · exact ⟨dh, by simp [hdc, hd], ho'⟩
      · rw [o3] at hm
        by_cases hdc : d = c
        · subst hdc
          exact ⟨ch', by simp, o2⟩
        · obtain ⟨dh, hd, ho'⟩ := hI.hold _ _ d hi ((List.mem_cons.1 hm).resolve_left hdc)
          exact ⟨dh, by simp [hdc, hd], ho'⟩
      · obtain ⟨dh, hd, ho'⟩ := hI.hold _ _ d hi (by rw [o2]; exact List.mem_cons_of_mem _ hm)
        have hn := hI.once _ _ hi
        rw [o2, List.nodup_cons] at hn
        have hdc : d ≠ c := fun e => hn.1 (e ▸ hm)
        exact ⟨dh, by simp [hdc, hd], ho'⟩
    · rename_i hji
      obtain ⟨dh, hd, ho'⟩ := hI.hold _ _ d hj hm
      by_cases hdc : d = c
      · subst hdc
        rw [hc] at hd; injection hd with hd
        subst hd
        rcases ho with ⟨o1, _⟩ | ⟨o1, _⟩ | ⟨_, o2⟩
        · exact ⟨ch', by simp, o1 ▸ ho'⟩
        · rw [o1] at ho'; cases ho'
        · obtain ⟨dh, hd', ho''⟩ := hI.hold _ _ d hi (by rw [o2]; exact List.mem_cons_self)
          rw [hc] at hd'; injection hd' with hd'
          subst hd'
          rw [ho'] at ho''
          injection ho'' with ho''
          exact absurd ho'' hji
      · exact ⟨dh, by simp [hdc, hd], ho'⟩

theorem owned_step {s t : State} {i : Nat} (hI : Owned s) (h : step s i = some t) : Owned t := by
  obtain ⟨is, is', hi, ht, hk⟩ := step_cases h
  obtain ⟨tc, tt⟩ := t
  subst ht
  rcases hk with ⟨c, ch, ch', hc, htc, hk⟩ | ⟨htc, hk⟩
  · simp only at htc
    subst htc
    refine owned_set hI hi hc ?_
    rcases hk with ⟨x, rest, hx, rfl, he, hne⟩ | ⟨e, rfl, rfl⟩ | ⟨rfl, rfl⟩
    · have hr : held is = held rest := by rcases hx with rfl | rfl <;> rfl
      rcases enter_owner he with ⟨a, b⟩ | ⟨a, b, c⟩
      · exact .inl ⟨a, by rw [b, hr]⟩
      · exact .inr (.inl ⟨a, b, by rw [c, hr]⟩)
    · exact .inl ⟨rfl, rfl⟩
    · exact .inr (.inr ⟨rfl, rfl⟩)
  · simp only at htc
    subst htc
    have same : held is' = held is := by
      rcases hk with ⟨c, e, rfl, hn⟩ | ⟨c, rfl, hn⟩ | ⟨x, rest, rfl, hx⟩
      · rfl
      · obtain ⟨ch, hc, _⟩ := hI.hold _ _ c hi List.mem_cons_self
        rw [hn] at hc; cases hc
      · rcases hx with rfl | ⟨rfl, _⟩ <;> rfl
    refine ⟨fun j js d hj hm => ?_, fun j js hj => ?_⟩
    · simp only [getElem?_set' hi] at hj
      split at hj
      · rename_i e; subst e
        injection hj with hj; subst hj
        exact hI.hold _ _ d hi (same ▸ hm)
      · exact hI.hold _ _ d hj hm
    · simp only [getElem?_set' hi] at hj
      split at hj
      · injection hj with hj; subst hj
        rw [same]; exact hI.once _ _ hi
      · exact hI.once _ _ hj

theorem owned_exec : ∀ {is : List Nat} {s t : State}, Owned s → exec s is = some t → Owned t
  | [], s, t, hI, h => by simp [exec] at h; exact h ▸ hI
  | i :: is, s, t, hI, h => by
    simp only [exec] at h
    cases hs : step s i with
    | none => simp [hs] at h
    | some u =>
      simp only [hs, Option.bind_some] at h
      exact owned_exec (owned_step hI hs) h

theorem owned_start (cs : List (Bool × Nat)) (progs : List (List Call)) : Owned (start cs progs) := by
  have : ∀ (i : Nat) (is : List Instr), (start cs progs).thr[i]? = some is → held is = [] := by
    intro i is h
    simp only [start, List.getElem?_map, Option.map_eq_some_iff] at h
    obtain ⟨k, hk, rfl⟩ := h
    have := held_calls k []
    simpa [held] using this
  exact ⟨fun i is c h hm => by rw [this i is h] at hm; simp at hm, fun i is h => by rw [this i is h]; exact List.nodup_nil⟩

/-- A thread that owns the mutex of channel `c` and is about to lock it. -/
def Caught (i c : Nat) (y : Call) (rest : List Instr) (s : State) : Prop :=
  Owned s ∧ (s.thr[i]? = some (.call y :: rest) ∨ s.thr[i]? = some (.inside y :: rest)) ∧ y.chan = c ∧ c ∈ held rest ∧
    ∃ ch, s.chans[c]? = some ch ∧ ch.owner = some i ∧ locks ch y = true

theorem enter_owned {i rest ch y j} (ho : ch.owner = some j) (hl : locks ch y = true) : enter i rest ch y = none := by
  cases y <;> simp_all [enter, locks]

theorem caught_step {i c : Nat} {y : Call} {rest : List Instr} {s t : State} {j : Nat} (h : Caught i c y rest s)
    (hs : step s j = some t) : Caught i c y rest t := by
  obtain ⟨hO, hthr, hy, hm, ch, hc, ho, hl⟩ := h
  refine ⟨owned_step hO hs, ?_⟩
  obtain ⟨is, is', hj, ht, hk⟩ := step_cases hs
  obtain ⟨tc, tt⟩ := t
  subst ht
  subst hy
  by_cases hji : j = i
  · subst hji
    have hchan : tc = s.chans ∧ is' = .inside y :: rest := by
      rcases hthr with h | h <;> rw [hj] at h <;> injection h with h <;> subst h
      · rcases hk with ⟨d, dh, dh', hd, htc, ⟨x, rest', hx, rfl, he, hne⟩ | ⟨e, he, _⟩ | ⟨he, _⟩⟩ | ⟨htc, ⟨_, _, he, _⟩ | ⟨_, he, _⟩ | ⟨x, rest', hx, hx'⟩⟩
        · rcases hx with hx | hx
          · injection hx with h1 h2
            injection h1 with h1
            subst h1; subst h2
            rw [hc] at hd; injection hd with hd; subst hd
            rw [enter_owned ho hl] at he; cases he
          · cases hx
        · cases he
        · cases he
        · cases he
        · cases he
        · injection hx with h1 h2
          injection h1 with h1
          subst h1; subst h2
          refine ⟨htc, ?_⟩
          rcases hx' with rfl | ⟨rfl, _⟩
          · exfalso
            -- only an `emplace` on a closed channel is over after its first test
            simp only [step, hj, hc] at hs
            cases y with
            | emplace w c mk a b d e =>
              have hcl : ch.closed = false := by simpa [locks] using hl
              simp only [hcl, Option.some.injEq, State.mk.injEq] at hs
              have := congrArg (fun l : List (List Instr) => l[j]?) hs.2
              simp only [getElem?_set' hj] at this
              simp at this
            | closed d => simp [locks] at hl
            | close d => simp only [enter_owned ho hl] at hs; simp at hs
            | pop w d => simp only [enter_owned ho hl] at hs; simp at hs
            | guard w d b => simp only [enter_owned ho hl] at hs; simp at hs
          · rfl
      · rcases hk with ⟨d, dh, dh', hd, htc, ⟨x, rest', hx, rfl, he, hne⟩ | ⟨e, he, _⟩ | ⟨he, _⟩⟩ | ⟨htc, ⟨_, _, he, _⟩ | ⟨_, he, _⟩ | ⟨x, rest', hx, hx'⟩⟩
        · rcases hx with hx | hx
          · cases hx
          · injection hx with h1 h2
            injection h1 with h1
            subst h1; subst h2
            rw [hc] at hd; injection hd with hd; subst hd
            rw [enter_owned ho hl] at he; cases he
        · cases he
        · cases he
        · cases he
        · cases he
        · cases hx
    obtain ⟨rfl, rfl⟩ := hchan
    exact ⟨.inr (by rw [getElem?_set' hj]; simp), rfl, hm, ch, hc, ho, hl⟩
  · refine ⟨?_, rfl, hm, ?_⟩
    · simp only [getElem?_set' hj]
      rw [if_neg (Ne.symm hji)]
      exact hthr
    · rcases hk with ⟨d, dh, dh', hd, htc, hk⟩ | ⟨htc, _⟩
      · simp only at htc
        subst htc
        simp only [getElem?_set' hd]
        by_cases hdc : y.chan = d
        · subst hdc
          rw [hc] at hd; injection hd with hd; subst hd
          refine ⟨dh', by simp, ?_⟩
          rcases hk with ⟨x, rest', hx, hxc, he, hne⟩ | ⟨e, rfl, rfl⟩ | ⟨rfl, rfl⟩
          · -- another thread can only ask whether the channel is closed
            cases x with
            | closed d =>
              simp only [enter, Option.some.injEq, Prod.mk.injEq] at he
              rw [← he.1]; exact ⟨ho, hl⟩
            | close d => rw [enter_owned ho (by rfl)] at he; cases he
            | pop w d => rw [enter_owned ho (by rfl)] at he; cases he
            | emplace w d mk a b e f => simp [enter, ho] at he
            | guard w d b =>
              cases w with
              | true => rw [enter_owned ho (by rfl)] at he; cases he
              | false =>
                simp only [enter, ho] at he
                simp at he
                rw [← he.1]; exact ⟨ho, hl⟩
          · exact ⟨ho, by cases y <;> simp_all [locks]⟩
          · exfalso
            obtain ⟨ch2, hc2, ho2⟩ := hO.hold _ _ _ hj List.mem_cons_self
            rw [hc] at hc2; injection hc2 with hc2; subst hc2
            rw [ho] at ho2
            injection ho2 with ho2
            exact hji ho2.symm
        · rw [if_neg hdc]
          exact ⟨ch, hc, ho, hl⟩
      · simp only at htc
        subst htc
        exact ⟨ch, hc, ho, hl⟩

theorem caught_exec {i c : Nat} {y : Call} {rest : List Instr} : ∀ {sched : List Nat} {s t : State}, Caught i c y rest s →
    exec s sched = some t → Caught i c y rest t
  | [], s, t, hI, h => by simp [exec] at h; exact h ▸ hI
  | j :: js, s, t, hI, h => by
    simp only [exec] at h
    cases hs : step s j with
    | none => simp [hs] at h
    | some u =>
      simp only [hs, Option.bind_some] at h
      exact caught_exec (caught_step hI hs) h

/-- What a call does if it runs element code with the mutex. -/
theorem enter_withMutex {i rest ch x ch' is' y ys} (h : enter i rest ch x = some (ch', is')) (hcl : ∀ w c mk a b d e, x = .emplace w c mk a b d e → ch.closed = false)
    (hfull : ∀ w c mk a b d e, x = .emplace w c mk a b d e → ch.exch = true ∨ ch.buf.length < ch.cap)
    (hfree : ch.owner = none) (hw : withMutex ch x = y :: ys) :
    ∃ l, is' = .call y :: (l ++ rest) ∧ x.chan ∈ held l ∧ ch'.owner = some i ∧ ch'.closed = ch.closed := by
  cases x with
  | closed c => simp [withMutex] at hw
  | close c => simp [withMutex] at hw
  | emplace wait c make m1 d1 m2 d2 =>
    simp only [withMutex] at hw
    have hcl := hcl _ _ _ _ _ _ _ rfl
    have hfull := hfull _ _ _ _ _ _ _ rfl
    simp only [enter, hcl] at h
    split at h
    · cases h
    · split at hw
      · rename_i hex
        simp only [hex, hw] at h
        simp only [Bool.false_eq_true, if_false, if_true, Option.some.injEq, Prod.mk.injEq] at h
        obtain ⟨rfl, rfl⟩ := h
        refine ⟨calls ys ++ [.add c ⟨m1, d1, m2, d2⟩, .unlock c], by simp [calls], ?_, rfl, hcl ▸ rfl⟩
        rw [held_calls]; simp [held, Call.chan]
      · rename_i hex
        have hlt := hfull.resolve_left hex
        simp only [hex, hw, hlt] at h
        simp only [Bool.false_eq_true, if_false, if_true, Option.some.injEq, Prod.mk.injEq] at h
        obtain ⟨rfl, rfl⟩ := h
        refine ⟨calls ys ++ [.add c ⟨m1, d1, m2, d2⟩, .unlock c], by simp [calls], ?_, rfl, hcl ▸ rfl⟩
        rw [held_calls]; simp [held, Call.chan]
  | pop wait c =>
    simp only [withMutex] at hw
    split at hw
    · rename_i e es hb
      simp only [enter, hb] at h
      split at h
      · cases h
      · split at hw
        · rename_i hex
          simp only [hex, hw] at h
          simp only [if_true, Option.some.injEq, Prod.mk.injEq] at h
          obtain ⟨rfl, rfl⟩ := h
          refine ⟨calls ys ++ [.unlock c], by simp [calls], ?_, rfl, rfl⟩
          rw [held_calls]; simp [held, Call.chan]
        · rename_i hex
          simp only [hex, hw] at h
          simp only [Bool.false_eq_true, if_false, Option.some.injEq, Prod.mk.injEq] at h
          obtain ⟨rfl, rfl⟩ := h
          refine ⟨calls ys ++ .unlock c :: calls (e.m2 ++ e.d2), by simp [calls], ?_, rfl, rfl⟩
          rw [held_calls]; simp [held, Call.chan]
    · cases hw
  | guard wait c body =>
    simp only [withMutex] at hw
    subst hw
    simp only [enter] at h
    split at h
    · rename_i ho; exact absurd hfree ho
    · simp only [Option.some.injEq, Prod.mk.injEq] at h
      obtain ⟨rfl, rfl⟩ := h
      refine ⟨calls ys ++ [.unlock c], by simp [calls], ?_, rfl, rfl⟩
      rw [held_calls]; simp [held, Call.chan]

/-- **C116 (own channel).** If the code that a call runs with the mutex of its channel begins with a call that locks the same channel, then
the call never returns, and the mutex stays locked: no later step of any thread changes that. With the mutex run: the construction in
`emplace`, the move out of the buffer and the destruction there in `pop`; in an exchange channel also the destruction of the replaced
value, the move to the result and the destruction of the local variable. The same with a `mutex` that is locked again while its guard
lives. -/
theorem own_channel_never_returns {cs : List (Bool × Nat)} {progs : List (List Call)} {before after : List Nat} {s t u : State}
    {i : Nat} {x y : Call} {ys : List Call} {rest : List Instr} {ch : Chan}
    (hb : exec (start cs progs) before = some s)
    (hi : s.thr[i]? = some (.inside x :: rest) ∨ (s.thr[i]? = some (.call x :: rest) ∧ ∃ w c, x = .pop w c ∨ ∃ b, x = .guard w c b))
    (hc : s.chans[x.chan]? = some ch) (hfree : ch.owner = none) (hopen : ∀ w c mk a b d e, x = .emplace w c mk a b d e → ch.closed = false)
    (hspace : ∀ w c mk a b d e, x = .emplace w c mk a b d e → ch.exch = true ∨ ch.buf.length < ch.cap)
    (hw : withMutex ch x = y :: ys) (hy : y.chan = x.chan) (hl : locks ch y = true)
    (hs : step s i = some t) (ha : exec t after = some u) :
    (∃ l, u.thr[i]? = some (l ++ rest) ∧ x.chan ∈ held l) ∧ ∃ ch', u.chans[x.chan]? = some ch' ∧ ch'.owner = some i := by
  have hO := owned_exec (owned_start cs progs) hb
  have hO' := owned_step hO hs
  have hst : ∃ r, enter i rest ch x = some r ∧ t = ⟨s.chans.set x.chan r.1, s.thr.set i r.2⟩ := by
    rcases hi with hi | ⟨hi, w, c, rfl | ⟨b, rfl⟩⟩
    · simp only [step, hi, hc, Option.map_eq_some_iff] at hs
      obtain ⟨r, hr, rfl⟩ := hs
      exact ⟨r, hr, rfl⟩
    · simp only [step, hi, hc, Option.map_eq_some_iff] at hs
      obtain ⟨r, hr, rfl⟩ := hs
      exact ⟨r, hr, rfl⟩
    · simp only [step, hi, hc, Option.map_eq_some_iff] at hs
      obtain ⟨r, hr, rfl⟩ := hs
      exact ⟨r, hr, rfl⟩
  obtain ⟨⟨ch1, is1⟩, he, rfl⟩ := hst
  obtain ⟨l, h1, h2, h3, h4⟩ := enter_withMutex he hopen hspace hfree hw
  subst h1
  have hi' : ∃ is, s.thr[i]? = some is := by
    rcases hi with hi | ⟨hi, _⟩ <;> exact ⟨_, hi⟩
  obtain ⟨is, hi'⟩ := hi'
  have hcaught : Caught i x.chan y (l ++ rest) ⟨s.chans.set x.chan ch1, s.thr.set i (.call y :: (l ++ rest))⟩ := by
    refine ⟨hO', .inl (by simp [getElem?_set' hi']), hy, ?_, ch1, by simp [getElem?_set' hc], h3, ?_⟩
    · have app : ∀ a b : List Instr, held (a ++ b) = held a ++ held b := by
        intro a b
        induction a with
        | nil => rfl
        | cons x xs ih => cases x <;> simp [held, ih]
      rw [app]
      exact List.mem_append_left _ h2
    · cases y <;> simp_all [locks]
  obtain ⟨_, hthr, _, _, ch', hc', ho', _⟩ := caught_exec hcaught ha
  refine ⟨?_, ch', hc', ho'⟩
  rcases hthr with h | h
  · exact ⟨.call y :: l, h, by simpa [held] using h2⟩
  · exact ⟨.inside y :: l, h, by simpa [held] using h2⟩

/-- Popping an element whose move asks the channel for another element: the program hangs (5 steps, then nothing). -/
example : ((exec (start [(false, 2)] [[.emplace true 0 [] [.pop false 0] [] [] [], .pop true 0]]) [0, 0, 0, 0, 0]).any fun s =>
    (step s 0).isNone && s.chans.all (·.owner.isSome)) = true := by decide +kernel

/-- **C116 (difference between the channels).** The same element, whose move to the result uses the channel it comes from: it can be
popped from a `channel`, but hangs in an `exchange_channel`. -/
theorem result_move_in_exchange_channel_refuted :
    ((exec (start [(false, 1)] [[.emplace true 0 [] [] [] [.pop false 0] [], .pop true 0]]) (List.replicate 7 0)).any fun s =>
      s.thr.all (·.isEmpty)) = true ∧
    ((exec (start [(true, 1)] [[.emplace true 0 [] [] [] [.pop false 0] [], .pop true 0]]) (List.replicate 5 0)).any fun s =>
      (step s 0).isNone && s.thr.all (!·.isEmpty)) = true := by decide +kernel

/-- **C116 (refuted without order).** Elements of two channels, each of which uses the other channel when constructed, in two threads:
both wait for ever. -/
theorem opposite_order_refuted :
    ((exec (start [(false, 1), (false, 1)] [[.emplace false 0 [.pop false 1] [] [] [] []], [.emplace false 1 [.pop false 0] [] [] [] []]])
      [0, 0, 1, 1]).any fun s => (step s 0).isNone && (step s 1).isNone && s.thr.all (!·.isEmpty) && s.chans.all (·.owner.isSome)) = true := by
  decide +kernel

/-- **C116 (refuted with waiting).** Channels in order, but code with a mutex waits for an element of another channel: who would close
that channel or push to it may need the first one before, and waits for ever. -/
theorem waiting_with_mutex_refuted :
    ((exec (start [(false, 1), (false, 1)] [[.emplace false 0 [.pop true 1] [] [] [] []], [.pop false 0, .close 1]])
      [0, 0]).any fun s => (step s 0).isNone && (step s 1).isNone && s.thr.all (!·.isEmpty)) = true := by
  decide +kernel

/-! ### Guards and channels -/

/-- Statements of a program with mutexes and channels of plain values. -/
inductive Stmt
  | closed (c : Nat)
  | close (c : Nat)
  | push (wait : Bool) (c : Nat)
  | pop (wait : Bool) (c : Nat)
  /-- a block with a guard of mutex `m`, from `lock` or (not `wait`) `try_lock` -/
  | guard (wait : Bool) (m : Nat) (body : List Stmt)

mutual
/-- As calls; mutexes come first, then channels. -/
def Stmt.code (k : Nat) : Stmt → Call
  | .closed c => .closed (k + c)
  | .close c => .close (k + c)
  | .push w c => .emplace w (k + c) [] [] [] [] []
  | .pop w c => .pop w (k + c)
  | .guard w m body => .guard w m (codes k body)
/-- All of them. -/
def codes (k : Nat) : List Stmt → List Call
  | [] => []
  | a :: as => a.code k :: codes k as
end

mutual
/-- Within guards, only later mutexes are locked, and channels are used without waiting: `k` mutexes, the channels are exchange channels or not. -/
def Stmt.polite (k : Nat) (exch : List Bool) : Option Nat → Stmt → Bool
  | _, .closed c => decide (c < exch.length)
  | _, .close c => decide (c < exch.length)
  | h, .push w c => decide (c < exch.length) && (h.isNone || !w || exch[c]?.getD false)
  | h, .pop w c => decide (c < exch.length) && (h.isNone || !w)
  | h, .guard _ m body => decide (m < k) && (match h with | none => true | some g => decide (g < m)) && polites k exch (some m) body
/-- All of them. -/
def polites (k : Nat) (exch : List Bool) : Option Nat → List Stmt → Bool
  | _, [] => true
  | h, a :: as => a.polite k exch h && polites k exch h as
end

/-- The plan for mutexes first, then channels. -/
def mixPlan (k : Nat) (exch : List Bool) : Plan :=
  ⟨k + exch.length, fun c => (List.replicate k false ++ exch)[c]?.getD false, fun _ => some k⟩

theorem mix_exch (k : Nat) (exch : List Bool) (c : Nat) : (mixPlan k exch).exch (k + c) = exch[c]?.getD false := by
  simp [mixPlan, List.getElem?_append_right]

mutual
theorem polite_ok (k : Nat) (exch : List Bool) : ∀ (h : Option Nat), (∀ g, h = some g → g < k) → ∀ a : Stmt, a.polite k exch h = true →
    (a.code k).ok (mixPlan k exch) h = true
  | h, hk, .closed c, hp => by
    simp only [Stmt.polite, decide_eq_true_eq] at hp
    simp [Stmt.code, Call.ok, mixPlan, hp]
  | h, hk, .close c, hp => by
    simp only [Stmt.polite, decide_eq_true_eq] at hp
    have : above h (k + c) = true := by
      cases h with
      | none => rfl
      | some g => have := hk g rfl; simp [above]; omega
    simp only [Stmt.code, Call.ok, this]
    simp [mixPlan, hp]
  | h, hk, .push w c, hp => by
    simp only [Stmt.polite, Bool.and_eq_true, decide_eq_true_eq] at hp
    have ha : above h (k + c) = true := by
      cases h with
      | none => rfl
      | some g => have := hk g rfl; simp [above]; omega
    simp only [Stmt.code, Call.ok, ha, mix_exch, okAll, Bool.and_true, Bool.and_eq_true, decide_eq_true_eq]
    exact ⟨by simp [mixPlan, hp.1], hp.2⟩
  | h, hk, .pop w c, hp => by
    simp only [Stmt.polite, Bool.and_eq_true, decide_eq_true_eq] at hp
    have ha : above h (k + c) = true ∧ le h (some k) = true := by
      cases h with
      | none => exact ⟨rfl, rfl⟩
      | some g => have := hk g rfl; simp [above, le]; omega
    simp only [Stmt.code, Call.ok, ha.1, Bool.and_true, Bool.and_eq_true, decide_eq_true_eq]
    exact ⟨⟨by simp [mixPlan, hp.1], hp.2⟩, by simp [mixPlan, ha.2]⟩
  | h, hk, .guard w m body, hp => by
    simp only [Stmt.polite, Bool.and_eq_true, decide_eq_true_eq] at hp
    simp only [Stmt.code, Call.ok, Bool.and_eq_true, decide_eq_true_eq]
    refine ⟨⟨by simp [mixPlan]; omega, ?_⟩, polites_ok k exch (some m) (fun g hg => by injection hg with hg; omega) body hp.2⟩
    cases h with
    | none => rfl
    | some g => simpa [above] using hp.1.2
theorem polites_ok (k : Nat) (exch : List Bool) : ∀ (h : Option Nat), (∀ g, h = some g → g < k) → ∀ as : List Stmt,
    polites k exch h as = true → okAll (mixPlan k exch) h (codes k as) = true
  | h, hk, [], _ => by simp [codes, okAll]
  | h, hk, a :: as, hp => by
    simp only [polites, Bool.and_eq_true] at hp
    simp only [codes, okAll, Bool.and_eq_true]
    exact ⟨polite_ok k exch h hk a hp.1, polites_ok k exch h hk as hp.2⟩
end

/-- Channel 0 of capacity 1, mutexes 0 and 1: a producer that pushes while it has both guards (without waiting), and afterwards waits. -/
def mixDemo : List Stmt := [.guard true 0 [.guard true 1 [.push false 0], .pop false 0], .push true 0, .pop true 0]

/-- **C117.** Any number of threads use mutexes and channels. If guards are taken in order and no thread waits for an element or for
space while it has a guard, then no thread waits for a mutex for ever: if no thread can go on, all mutexes are free and every thread
is done or waits for an element of an empty channel or for space in a full one, which are not closed. -/
theorem guards_and_channels_no_deadlock {k : Nat} {cs : List (Bool × Nat)} {progs : List (List Stmt)} {sched : List Nat} {s : State}
    (hp : ∀ p ∈ progs, polites k (cs.map (·.1)) none p = true)
    (h : exec (start (List.replicate k (false, 0) ++ cs) (progs.map (codes k))) sched = some s) (hstuck : ∀ i, step s i = none) :
    (∀ (c : Nat) (ch : Chan), s.chans[c]? = some ch → ch.owner = none) ∧
    ∀ (i : Nat) (is : List Instr), s.thr[i]? = some is → is = [] ∨ ∃ x rest ch, (is = .call x :: rest ∨ is = .inside x :: rest) ∧
      s.chans[x.chan]? = some ch ∧ Blocked ch x := by
  refine element_code_no_deadlock (P := mixPlan k (cs.map (·.1))) ?_ ?_ ?_ h hstuck
  · simp [mixPlan]
  · intro c x hc
    simp only [mixPlan]
    by_cases hck : c < k
    · rw [List.getElem?_append_left (by simpa using hck)] at hc ⊢
      simp [hck] at hc ⊢
      rw [← hc]
    · rw [List.getElem?_append_right (by simpa using hck)] at hc ⊢
      simp only [List.length_replicate, List.getElem?_map] at hc ⊢
      rw [hc]; rfl
  · intro p hm
    obtain ⟨q, hq, rfl⟩ := List.mem_map.1 hm
    exact polites_ok _ _ none (by simp) q (hp q hq)

example : polites 2 [false] none mixDemo = true ∧
    ((exec (start (List.replicate 2 (false, 0) ++ [(false, 1)]) [codes 2 mixDemo]) (List.replicate 16 0)).any fun s =>
      s.thr.all (·.isEmpty)) = true := by decide +kernel

/-- **C117 (refuted with waiting).** A thread that waits for an element while it has a guard that the producer needs: both wait for
ever, although there is one mutex only. -/
theorem pop_with_guard_refuted :
    ((exec (start [(false, 0), (false, 1)] [codes 1 [.guard true 0 [.pop true 0]], codes 1 [.guard true 0 [.push true 0]]]) [0]).any fun s =>
      (step s 0).isNone && (step s 1).isNone && s.thr.all (!·.isEmpty)) = true := by decide +kernel

end Verif.Reentry
