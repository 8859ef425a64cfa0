import Verif.LexFile.Lemmas

set_option linter.unusedSectionVars false

/-!
# The statements of actions
-/

namespace Verif.LexFile

open Verif.Auto Verif.LexSyn Verif.Read

variable {tok num : Text → Nat}

/-- The text stands for these statements. -/
def Means (tok num : Text → Nat) (t : Text) (ss : List Stmt) : Prop := ∃ f ≤ t.length + 1, statements tok num f t = some ss

theorem statements_mono : ∀ {f g : Nat} {t : Text} {ss : List Stmt}, f ≤ g → statements tok num f t = some ss → statements tok num g t = some ss := by
  intro f
  induction f with
  | zero => intro g t ss _ h; cases h
  | succ f ih =>
    intro g t ss hg h
    obtain ⟨g, rfl⟩ : ∃ k, g = k + 1 := ⟨g - 1, by omega⟩
    cases t with
    | nil => exact h
    | cons c t =>
      simp only [statements] at h ⊢
      split at h
      · rename_i hb; rw [if_pos hb]; exact ih (by omega) h
      · rename_i hb
        rw [if_neg hb]
        cases hs : statement tok num (c :: t) with
        | none => rw [hs] at h; cases h
        | some r =>
          rw [hs] at h
          simp only [Option.bind_some, Option.map_eq_some_iff] at h ⊢
          obtain ⟨l, h1, h2⟩ := h
          exact ⟨l, ih (by omega) h1, h2⟩

theorem Means.meaning {t : Text} {ss : List Stmt} (h : Means tok num t ss) : meaning tok num t = some ss := by
  obtain ⟨f, hf, h⟩ := h
  exact statements_mono hf h

theorem means_nil : Means tok num [] [] := ⟨1, by simp, rfl⟩

theorem means_blank {c : Nat} {t : Text} {ss : List Stmt} (hc : c = 10 ∨ c = 32 ∨ c = 59) (h : Means tok num t ss) : Means tok num (c :: t) ss := by
  obtain ⟨f, hf, h⟩ := h
  refine ⟨f + 1, by simpa using hf, ?_⟩
  simp only [statements]
  rw [if_pos (by rcases hc with rfl | rfl | rfl <;> rfl)]
  exact h

theorem means_quiet {c : Text} {t : Text} {ss : List Stmt} (hc : Spec.Quiet c) (h : Means tok num t ss) : Means tok num (c ++ t) ss := by
  induction c with
  | nil => exact h
  | cons x c ih => exact means_blank (hc x List.mem_cons_self) (ih fun y hy => hc y (List.mem_cons_of_mem _ hy))

theorem means_statement {c : Nat} {t t' : Text} {x : Stmt} {ss : List Stmt} (hc : isBlank c = false) (hs : statement tok num (c :: t) = some (x, t')) (hl : t'.length ≤ t.length)
    (h : Means tok num t' ss) : Means tok num (c :: t) (x :: ss) := by
  obtain ⟨f, hf, h⟩ := h
  refine ⟨f + 1, by simp only [List.length_cons]; omega, ?_⟩
  simp only [statements]
  rw [if_neg (by simp [hc]), hs]
  simp [h]

theorem behind_append (p t : Text) : behind p (p ++ t) = some t := by simp [behind]

theorem argMacro_eq {p : String} {x : Text → Stmt} {s t : Text} (h : 41 ∉ s) : argMacro p x (txt p ++ (s ++ 41 :: t)) = some (x s, t) := by
  have h1 : (s ++ 41 :: t).takeWhile (· != 41) = s := by
    induction s with
    | nil => rfl
    | cons a s ih =>
      simp only [List.mem_cons, not_or] at h
      rw [List.cons_append, List.takeWhile_cons_of_pos (by simpa using Ne.symm h.1), ih h.2]
  have h2 : (s ++ 41 :: t).dropWhile (· != 41) = 41 :: t := by
    induction s with
    | nil => rfl
    | cons a s ih =>
      simp only [List.mem_cons, not_or] at h
      rw [List.cons_append, List.dropWhile_cons_of_pos (by simpa using Ne.symm h.1)]
      exact ih h.2 (by rw [List.cons_append, List.takeWhile_cons_of_pos (by simpa using Ne.symm h.1)] at h1; exact List.cons.inj h1 |>.2)
  simp only [argMacro, behind_append, Option.bind_some, h2, h1]

theorem means_ret {s t : Text} {ss : List Stmt} (hs : 41 ∉ s) (h : Means tok num t ss) : Means tok num (txt "lxRETURN(" ++ (s ++ 41 :: t)) (.ret (tok s) :: ss) := by
  have e : statement tok num (txt "lxRETURN(" ++ (s ++ 41 :: t)) = some (.ret (tok s), t) := by
    simp only [statement, argMacro_eq hs, Option.some_or]; rfl
  exact means_statement (c := 108) (t := txt "xRETURN(" ++ (s ++ 41 :: t)) (by rfl) e (by simp; omega) h

theorem means_ruleSet {s t : Text} {ss : List Stmt} (hs : 41 ∉ s) (h : Means tok num t ss) :
    Means tok num (txt "lxSET_RULE_SET(" ++ (s ++ 41 :: t)) (.ruleSet (num s) :: ss) := by
  have e : statement tok num (txt "lxSET_RULE_SET(" ++ (s ++ 41 :: t)) = some (.ruleSet (num s), t) := by
    have h1 : argMacro "lxRETURN(" (.ret ∘ tok) (txt "lxSET_RULE_SET(" ++ (s ++ 41 :: t)) = none := rfl
    have h2 : argMacro "lxTOKEN(" (.token ∘ tok) (txt "lxSET_RULE_SET(" ++ (s ++ 41 :: t)) = none := rfl
    simp only [statement, h1, h2, argMacro_eq hs, Option.none_or, Option.some_or]; rfl
  exact means_statement (c := 108) (t := txt "xSET_RULE_SET(" ++ (s ++ 41 :: t)) (by rfl) e (by simp; omega) h

theorem means_ending (a : Act) (ha : Spec.Named a) : Means tok num (actText a) [match Spec.term tok a with | .tok x => .ret x | .skip => .skip | .more => .cont] := by
  cases a with
  | terminal s =>
    refine means_blank (t := txt "lxRETURN(" ++ s ++ [41, 10]) (Or.inl rfl) ?_
    have := means_ret (tok := tok) (num := num) (s := s) (t := [10]) (ss := []) ha (means_blank (Or.inl rfl) means_nil)
    simpa [Spec.term] using this
  | continue_ => exact ⟨14, by decide, rfl⟩
  | skip => exact ⟨9, by decide, rfl⟩

theorem digits_txt (m : Nat) : txt (toString (m : Int)) = (Nat.toDigits 10 m).map Char.toNat := by
  rw [txt, Int.toString_eq_repr]
  show (Nat.repr m).toList.map Char.toNat = _
  rw [Nat.toList_repr]

theorem stepMacro_eq (m : Nat) (t : Text) : stepMacro (txt "Iterator::plain() -= " ++ (txt (toString (m : Int)) ++ 59 :: t)) = some (.back m, 59 :: t) := by
  have hd : ∀ c ∈ txt (toString (m : Int)), isDigit c = true := by
    rw [digits_txt]
    intro c hc
    obtain ⟨x, hx, rfl⟩ := List.mem_map.1 hc
    have := Nat.isDigit_of_mem_toDigits (by decide) (by decide) hx
    simp only [Char.isDigit, Bool.and_eq_true, decide_eq_true_eq, ge_iff_le, UInt32.le_iff_toNat_le] at this
    simp only [isDigit, Bool.and_eq_true, decide_eq_true_eq]
    exact this
  have h1 : (txt (toString (m : Int)) ++ 59 :: t).takeWhile isDigit = txt (toString (m : Int)) := by
    rw [List.takeWhile_append_of_pos hd]; simp [isDigit]
  have h2 : (txt (toString (m : Int)) ++ 59 :: t).dropWhile isDigit = 59 :: t := by
    rw [List.dropWhile_append_of_pos hd]; simp [isDigit]
  simp only [stepMacro, behind_append, Option.bind_some, h1, h2]
  rw [digits_txt, if_neg (by simp)]
  have := Nat.ofDigitChars_ten_toDigits (n := m)
  rw [Nat.ofDigitChars_eq_foldl] at this
  rw [List.foldl_map]
  simp only [Option.some.injEq, Prod.mk.injEq, Stmt.back.injEq, and_true]
  exact this

theorem means_back {m : Nat} {t : Text} {ss : List Stmt} (h : Means tok num t ss) :
    Means tok num (txt "Iterator::plain() -= " ++ txt (toString (m : Int)) ++ txt "; " ++ t) (.back m :: ss) := by
  have e : statement tok num (txt "Iterator::plain() -= " ++ (txt (toString (m : Int)) ++ 59 :: 32 :: t)) = some (.back m, 59 :: 32 :: t) := by
    have : statement tok num (txt "Iterator::plain() -= " ++ (txt (toString (m : Int)) ++ 59 :: 32 :: t)) =
      stepMacro (txt "Iterator::plain() -= " ++ (txt (toString (m : Int)) ++ 59 :: 32 :: t)) := rfl
    rw [this, stepMacro_eq]
  have := means_statement (c := 73) (t := txt "terator::plain() -= " ++ (txt (toString (m : Int)) ++ 59 :: 32 :: t)) (by rfl) e (by simp; omega)
    (means_blank (Or.inr (Or.inr rfl)) (means_blank (Or.inr (Or.inl rfl)) h))
  rw [List.append_assoc, List.append_assoc]
  exact this

/-- The text of a rule stands for what the rule does. -/
theorem means_does {c : Text} {a : Act} {u : Rule} (h : Spec.Does tok num c a u) (ha : Spec.Named a) : Means tok num (c ++ actText a) (ruleStmts u) := by
  cases h with
  | stay hc => exact means_quiet hc (means_ending a ha)
  | @change c s c' a hc hc' hs =>
    have := means_quiet hc (means_ruleSet (num := num) hs (means_quiet hc' (means_ending (tok := tok) a ha)))
    generalize Spec.term tok a = T at this ⊢
    cases T <;> simpa [ruleStmts, txt, LexSyn.Spec.bytes] using this

theorem means_does_back {c : Text} {a : Act} {u : Rule} (h : Spec.Does tok num c a u) (ha : Spec.Named a) {m : Nat} (hm : 0 < m) :
    Means tok num (ruleText (some m) c a) (ruleStmts { u with ahead := m }) := by
  have h1 := means_back (m := m) (means_does h ha)
  have h0 : u.ahead = 0 := by cases h <;> rfl
  have : ruleStmts { u with ahead := m } = .back m :: ruleStmts u := by
    simp [ruleStmts, h0, Nat.ne_of_gt hm]
  rw [this]
  simpa [ruleText] using h1

end Verif.LexFile
