import Verif.Macro.Model

/-! Lemmas about the preprocessor of `Verif/Macro/Model.lean`. -/
namespace Verif.Macro

variable {env : Env}

theorem sequence_mono {β γ : Type} (f g : β → Option γ) (h : ∀ b c, f b = some c → g b = some c) :
    ∀ (l : List β) (r : List γ), sequence (l.map f) = some r → sequence (l.map g) = some r := by
  intro l
  induction l with
  | nil => intro r hr; exact hr
  | cons b l ih =>
    intro r hr
    simp only [List.map_cons] at hr ⊢
    cases hf : f b with
    | none => rw [hf] at hr; cases hr
    | some c =>
      rw [hf] at hr
      rw [h b c hf]
      unfold sequence at hr ⊢
      cases hs : sequence (l.map f) with
      | none => rw [hs] at hr; cases hr
      | some q => rw [hs] at hr; rw [ih q hs]; exact hr

theorem expand_succ (n : Nat) : ∀ (l o : List Tok), expand env n l = some o → expand env (n + 1) l = some o := by
  induction n with
  | zero => intro l o h; simp [expand] at h
  | succ n ih =>
    intro l o h
    cases l with
    | nil => simpa [expand] using h
    | cons t l =>
      have keep : ∀ o, (expand env n l).map (t :: ·) = some o → (expand env (n + 1) l).map (t :: ·) = some o := by
        intro o h
        cases he : expand env n l with
        | none => rw [he] at h; cases h
        | some q => rw [he] at h; rw [ih l q he]; exact h
      rw [expand] at h ⊢
      split at h
      · rename_i hi
        rw [if_pos hi]
        split at h
        · exact keep o h
        · rename_i d he
          split at h
          · rename_i hp
            try rw [hp]
            try dsimp only
            split at h
            · rename_i r hs; (try rw [hs]); exact ih _ _ h
            · cases h
          · rename_i k hp
            try rw [hp]
            try dsimp only
            split at h
            · exact keep o h
            · rename_i u l'
              try dsimp only
              split at h
              · rename_i hu
                rw [if_pos hu]
                split at h
                · cases h
                · rename_i as rest ha
                  try rw [ha]
                  try dsimp only
                  split at h
                  · cases h
                  · rename_i raw va hb
                    try rw [hb]
                    try dsimp only
                    split at h
                    · rename_i full va' h1 h2
                      rw [sequence_mono _ _ (fun b c => ih b c) _ _ h1, ih _ _ h2]
                      try dsimp only
                      split at h
                      · rename_i r hs; (try rw [hs]); exact ih _ _ h
                      · cases h
                    · cases h
              · rename_i hu
                rw [if_neg hu]; exact keep o h
      · rename_i hi
        rw [if_neg hi]; exact keep o h

theorem expand_mono {n m : Nat} (hnm : n ≤ m) {l o : List Tok} (h : expand env n l = some o) : expand env m l = some o := by
  induction hnm with
  | refl => exact h
  | step _ ih => exact expand_succ _ _ _ ih

/-- There is at most one expansion. -/
theorem Expands.det {l o o' : List Tok} (h : Expands env l o) (h' : Expands env l o') : o = o' := by
  obtain ⟨n, h⟩ := h
  obtain ⟨m, h'⟩ := h'
  have a := expand_mono (Nat.le_max_left n m) h
  have b := expand_mono (Nat.le_max_right n m) h'
  rw [a] at b
  exact Option.some.inj b

/-- A token that is not expanded any more, whatever follows (rescanning, macro_util.hpp:27). -/
def Inert (env : Env) (t : Tok) : Prop := t.kind ≠ .ident ∨ t.text ∈ t.hide ∨ env t.text = none

theorem Expands.nil : Expands env [] [] := ⟨1, rfl⟩

theorem Expands.keep {t : Tok} {l o : List Tok} (ht : Inert env t) (h : Expands env l o) : Expands env (t :: l) (t :: o) := by
  obtain ⟨n, h⟩ := h
  refine ⟨n + 1, ?_⟩
  rw [expand]
  simp only [h, Option.map_some]
  split
  · rename_i hi
    rcases ht with ht | ht | ht
    · exact absurd hi.1 ht
    · exact absurd ht hi.2
    · rw [ht]
  · rfl

theorem Expands.keeps {a l o : List Tok} (ha : ∀ t ∈ a, Inert env t) (h : Expands env l o) : Expands env (a ++ l) (a ++ o) := by
  induction a with
  | nil => exact h
  | cons t a ih => exact .keep (ha t (by simp)) (ih fun u hu => ha u (by simp [hu]))

theorem Expands.obj {t : Tok} {d : Def} {l o r : List Tok} (hk : t.kind = .ident) (hh : t.text ∉ t.hide) (he : env t.text = some d)
    (hp : d.params = none) (hs : subst [] [] [] d.body = some r) (h : Expands env (mark (t.text :: t.hide) r ++ l) o) :
    Expands env (t :: l) o := by
  obtain ⟨n, h⟩ := h
  refine ⟨n + 1, ?_⟩
  rw [expand]
  simp only [hk, hh, he, hp, hs, not_false_eq_true, and_self, if_true]
  exact h

/-- Two lists of the same length whose elements are related one by one (arguments of macro_util.hpp:27 and their expansions). -/
inductive Each {β γ : Type} (R : β → γ → Prop) : List β → List γ → Prop where
  | nil : Each R [] []
  | cons {b c l m} : R b c → Each R l m → Each R (b :: l) (c :: m)

theorem sequence_expands {raw full : List (List Tok)} (h : Each (Expands env) raw full) :
    ∃ n, ∀ m, n ≤ m → sequence (raw.map (expand env m)) = some full := by
  induction h with
  | nil => exact ⟨0, fun _ _ => rfl⟩
  | cons h1 _ ih =>
    obtain ⟨n, hn⟩ := h1
    obtain ⟨k, hk⟩ := ih
    refine ⟨max n k, fun m hm => ?_⟩
    rw [List.map_cons, expand_mono (show n ≤ m by omega) hn, sequence, hk m (by omega)]

/-- The opening and closing parenthesis (arguments of macro_util.hpp:27). -/
def lp : Tok := p "("
/-- The closing parenthesis (arguments of macro_util.hpp:27). -/
def rp : Tok := p ")"
/-- The comma between arguments (macro_util.hpp:27). -/
def comma : Tok := p ","

/-- The token is written like `u` (a parenthesis or a comma, arguments of macro_util.hpp:27). -/
def Like (t u : Tok) : Prop := t.kind = u.kind ∧ t.text = u.text

theorem Expands.fn {t u : Tok} {d : Def} {k : Nat} {l' rest o r va va' : List Tok} {as raw full : List (List Tok)}
    (hk : t.kind = .ident) (hh : t.text ∉ t.hide) (he : env t.text = some d) (hp : d.params = some k)
    (ha : args l' 0 [] [] = some (as, rest)) (hb : bindArgs k d.variadic as = some (raw, va))
    (hf : Each (Expands env) raw full) (hv : Expands env va va') (hs : subst raw full va' d.body = some r)
    (h : Expands env (mark (t.text :: t.hide) r ++ rest) o) (hu : Like u lp := by exact ⟨rfl, rfl⟩) :
    Expands env (t :: u :: l') o := by
  obtain ⟨n1, h⟩ := h
  obtain ⟨n2, hv⟩ := hv
  obtain ⟨n3, hf⟩ := sequence_expands hf
  refine ⟨max n1 (max n2 n3) + 1, ?_⟩
  have e1 := expand_mono (show n1 ≤ max n1 (max n2 n3) by omega) h
  have e2 := expand_mono (show n2 ≤ max n1 (max n2 n3) by omega) hv
  have e3 := hf (max n1 (max n2 n3)) (by omega)
  rw [expand]
  simp only [hk, hh, he, hp, not_false_eq_true, and_self, if_true, show u.kind = .punct from hu.1, show u.text = "(" from hu.2, ha, hb, e2, e3,
    hs, e1]

/-- An invocation with a wrong number of arguments is an error. -/
theorem not_expands_arity {t u : Tok} {d : Def} {k : Nat} {l' rest : List Tok} {as : List (List Tok)}
    (hk : t.kind = .ident) (hh : t.text ∉ t.hide) (he : env t.text = some d) (hp : d.params = some k)
    (ha : args l' 0 [] [] = some (as, rest)) (hb : bindArgs k d.variadic as = none) (o : List Tok)
    (hu : Like u lp := by exact ⟨rfl, rfl⟩) : ¬ Expands env (t :: u :: l') o := by
  rintro ⟨n, h⟩
  cases n with
  | zero => simp [expand] at h
  | succ n =>
    rw [expand] at h
    simp only [hk, hh, he, hp, not_false_eq_true, and_self, if_true, show u.kind = .punct from hu.1, show u.text = "(" from hu.2, ha, hb] at h
    cases h

/-! ### Arguments -/

/-- The token is neither a parenthesis nor a comma (arguments of macro_util.hpp:27). -/
def Plain (t : Tok) : Prop := ¬ (t.kind = .punct ∧ (t.text = "(" ∨ t.text = ")" ∨ t.text = ","))

/-- Token sequences in which every parenthesis has its partner (arguments of macro_util.hpp:27). -/
inductive Bal : List Tok → Prop where
  | nil : Bal []
  | plain {t l} : Plain t → Bal l → Bal (t :: l)
  | comma {t l} : Like t comma → Bal l → Bal (t :: l)
  | paren {t u a l} : Like t lp → Bal a → Like u rp → Bal l → Bal (t :: a ++ u :: l)

/-- The same without a comma outside of parentheses: what can be one argument of a macro (macro_util.hpp:27). -/
inductive OneArg : List Tok → Prop where
  | nil : OneArg []
  | plain {t l} : Plain t → OneArg l → OneArg (t :: l)
  | paren {t u a l} : Like t lp → Bal a → Like u rp → OneArg l → OneArg (t :: a ++ u :: l)

theorem OneArg.bal {l : List Tok} (h : OneArg l) : Bal l := by
  induction h with
  | nil => exact .nil
  | plain h _ ih => exact .plain h ih
  | paren h1 h2 h3 _ ih => exact .paren h1 h2 h3 ih

theorem args_lp {t : Tok} (h : Like t lp) (l cur : List Tok) (done : List (List Tok)) (d : Nat) :
    args (t :: l) d cur done = args l (d + 1) (cur ++ [t]) done := by
  obtain ⟨h1, h2⟩ := h
  rw [args.eq_def]
  dsimp only
  rw [if_pos ⟨h1, h2⟩]

theorem args_rp {t : Tok} (h : Like t rp) (l cur : List Tok) (done : List (List Tok)) (d : Nat) :
    args (t :: l) (d + 1) cur done = args l d (cur ++ [t]) done := by
  obtain ⟨h1, h2⟩ := h
  rw [args.eq_def]
  dsimp only
  rw [if_neg (by rw [h2]; simp [rp, p]), if_pos ⟨h1, h2⟩]

theorem args_close' {t : Tok} (h : Like t rp) (l cur : List Tok) (done : List (List Tok)) :
    args (t :: l) 0 cur done = some (done ++ [cur], l) := by
  obtain ⟨h1, h2⟩ := h
  rw [args.eq_def]
  dsimp only
  rw [if_neg (by rw [h2]; simp [rp, p]), if_pos ⟨h1, h2⟩]

theorem args_close (l cur : List Tok) (done : List (List Tok)) : args (rp :: l) 0 cur done = some (done ++ [cur], l) := by
  rw [args.eq_def]
  dsimp only
  rw [if_neg (by simp [rp, p]), if_pos ⟨rfl, rfl⟩]

theorem args_plain {t : Tok} (h : Plain t) (l cur : List Tok) (done : List (List Tok)) (d : Nat) :
    args (t :: l) d cur done = args l d (cur ++ [t]) done := by
  rw [args.eq_def]
  dsimp only
  rw [if_neg (fun x => h ⟨x.1, .inl x.2⟩), if_neg (fun x => h ⟨x.1, .inr (.inl x.2)⟩),
    if_neg (fun x => h ⟨x.1, .inr (.inr x.2.1)⟩)]

theorem args_comma {t : Tok} (h : Like t comma) (l cur : List Tok) (done : List (List Tok)) (d : Nat) :
    args (t :: l) (d + 1) cur done = args l (d + 1) (cur ++ [t]) done := by
  obtain ⟨h1, h2⟩ := h
  rw [args.eq_def]
  dsimp only
  rw [if_neg (by rw [h2]; simp [comma, p]), if_neg (by rw [h2]; simp [comma, p]), if_neg (by simp)]

theorem args_comma0 {t : Tok} (h : Like t comma) (l cur : List Tok) (done : List (List Tok)) :
    args (t :: l) 0 cur done = args l 0 [] (done ++ [cur]) := by
  obtain ⟨h1, h2⟩ := h
  rw [args.eq_def]
  dsimp only
  rw [if_neg (by rw [h2]; simp [comma, p]), if_neg (by rw [h2]; simp [comma, p]), if_pos ⟨h1, h2, rfl⟩]

theorem args_bal {a : List Tok} (h : Bal a) : ∀ (l cur : List Tok) (done : List (List Tok)) (d : Nat),
    args (a ++ l) (d + 1) cur done = args l (d + 1) (cur ++ a) done := by
  induction h with
  | nil => intros; simp
  | plain ht _ ih => intro l cur done d; rw [List.cons_append, args_plain ht, ih]; simp
  | comma ht _ ih => intro l cur done d; rw [List.cons_append, args_comma ht, ih]; simp
  | paren h1 _ h2 _ ih1 ih2 =>
    intro l cur done d
    simp only [List.cons_append, List.append_assoc]
    rw [args_lp h1, ih1, args_rp h2, ih2]; simp

theorem args_one {a : List Tok} (h : OneArg a) : ∀ (l cur : List Tok) (done : List (List Tok)),
    args (a ++ l) 0 cur done = args l 0 (cur ++ a) done := by
  induction h with
  | nil => intros; simp
  | plain ht _ ih => intro l cur done; rw [List.cons_append, args_plain ht, ih]; simp
  | paren h1 h2 h3 _ ih =>
    intro l cur done
    simp only [List.cons_append, List.append_assoc]
    rw [args_lp h1, args_bal h2, args_rp h3, ih]; simp

/-- Several arguments (of macro_util.hpp:27), written with commas between them. -/
def commas : List (List Tok) → List Tok
  | [] => []
  | [a] => a
  | a :: l => a ++ comma :: commas l

theorem args_many : ∀ (as : List (List Tok)), as ≠ [] → (∀ a ∈ as, OneArg a) → ∀ (rest : List Tok) (done : List (List Tok)),
    args (commas as ++ rp :: rest) 0 [] done = some (done ++ as, rest) := by
  intro as
  induction as with
  | nil => intro h; exact absurd rfl h
  | cons a l ih =>
    intro _ h rest done
    cases l with
    | nil => simp only [commas]; rw [args_one (h a (by simp)), args_close]; simp
    | cons b l =>
      simp only [commas, List.append_assoc, List.cons_append]
      rw [args_one (h a (by simp)), args_comma0 ⟨rfl, rfl⟩, ih (by simp) (fun c hc => h c (by simp [hc]))]
      simp

/-- A sequence with partners for its parentheses is one argument or has a comma outside of them. -/
theorem Bal.split {a : List Tok} (h : Bal a) : OneArg a ∨ ∃ b t c, a = b ++ t :: c ∧ OneArg b ∧ Like t Macro.comma ∧ Bal c := by
  induction h with
  | nil => exact .inl .nil
  | @plain t l ht _ ih =>
    rcases ih with ih | ⟨b, u, c, rfl, hb, hu, hc⟩
    · exact .inl (.plain ht ih)
    · exact .inr ⟨t :: b, u, c, rfl, .plain ht hb, hu, hc⟩
  | @comma t l ht hl _ => exact .inr ⟨[], t, l, rfl, .nil, ht, hl⟩
  | @paren t u a l h1 h2 h3 _ _ ih =>
    rcases ih with ih | ⟨b, x, c, rfl, hb, hu, hc⟩
    · exact .inl (.paren h1 h2 h3 ih)
    · exact .inr ⟨t :: a ++ u :: b, x, c, by simp, .paren h1 h2 h3 hb, hu, hc⟩

/-- There are at least so many arguments. -/
theorem args_more {a : List Tok} (h : Bal a) : ∀ (rest cur : List Tok) (done : List (List Tok)),
    ∃ as, as ≠ [] ∧ args (a ++ rp :: rest) 0 cur done = some (done ++ as, rest) := by
  induction h with
  | nil => intro rest cur done; exact ⟨[cur], by simp, args_close _ _ _⟩
  | plain ht _ ih => intro rest cur done; rw [List.cons_append, args_plain ht]; exact ih _ _ _
  | comma ht _ ih =>
    intro rest cur done
    rw [List.cons_append, args_comma0 ht]
    obtain ⟨as, h1, h2⟩ := ih rest [] (done ++ [cur])
    exact ⟨cur :: as, by simp, by rw [h2]; simp⟩
  | paren h1 h2 h3 _ _ ih =>
    intro rest cur done
    simp only [List.cons_append, List.append_assoc]
    rw [args_lp h1, args_bal h2, args_rp h3]
    exact ih _ _ _

end Verif.Macro
