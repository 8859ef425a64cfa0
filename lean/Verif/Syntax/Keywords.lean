import Verif.Syntax.Scan

/-!
# The keywords of operator rules
-/

namespace Verif.Syntax

open Verif.GLex (Env St step select rulesOf bytes)

/-- The rules of the scanner for words with a percent sign. -/
def percents : List (Nat × String) := [(25, "%export_macro"), (26, "%export_macro_header"), (27, "%token"), (28, "%token_stream"), (29, "%namespace"), (30, "%parserclass"), (31, "%lexerclass"), (32, "%input_stream"), (33, "%ast_extra_members"), (34, "%parser_declaration_header"), (35, "%parser_bits_header"), (36, "%ast_header"), (37, "%lexer_declaration_header"), (38, "%lexer_bits_header"), (39, "%input_encoding"), (40, "%table_lexer"), (41, "%sequence_lexer"), (42, "%ast_base"), (43, "%parser_base"), (44, "%lexer_base"), (45, "%bin"), (46, "%pre"), (47, "%post"), (48, "%tern"), (49, "%paren"), (50, "%priority"), (51, "%<"), (52, "%>"), (53, "%left"), (54, "%right"), (55, "%isLeft"), (56, "%isRight"), (57, "%lexer")]

theorem percent_rule {s : List Nat} {j : Nat} {r' : GLex.Rule} {t' k' : Nat} (hr' : (rulesOf .initial)[j]? = some r') (hm : (t', k') ∈ r'.cands (37 :: s)) (h0 : 0 < t') :
    t' = 1 ∨ ∃ v, (j, v) ∈ percents ∧ k' = t' ∧ t' = (bytes v).length ∧ (37 :: s).take t' = bytes v := by
  have hj : j ∈ GLex.startIdx .initial 37 := GLex.startIdx_mem hr' hm h0
  have hi : GLex.startIdx .initial 37 = [25, 26, 27, 28, 29, 30, 31, 32, 33, 34, 35, 36, 37, 38, 39, 40, 41, 42, 43, 44, 45, 46, 47, 48, 49, 50, 51, 52, 53, 54, 55, 56, 57, 64, 65] := by decide +kernel
  rw [hi] at hj
  simp only [List.mem_cons, List.not_mem_nil, or_false] at hj
  rcases hj with rfl | rfl | rfl | rfl | rfl | rfl | rfl | rfl | rfl | rfl | rfl | rfl | rfl | rfl | rfl | rfl | rfl | rfl | rfl | rfl | rfl | rfl | rfl | rfl | rfl | rfl | rfl | rfl | rfl | rfl | rfl | rfl | rfl | rfl | rfl <;> cases hr'
  all_goals first
    | exact Or.inr ⟨_, by simp [percents], GLex.len_lit rfl rfl hm⟩
    | exact Or.inl (GLex.len_cls rfl rfl hm).1

/-- A word that neither begins another one nor begins with one. -/
theorem select_percent {w : String} {k : Nat} {a : GLex.Act} {c : List Nat} (hw : bytes w = 37 :: c) (hc : c ≠ []) (hr : (rulesOf .initial)[k]? = some { body := GLex.lit w, act := a })
    (hp : ∀ p ∈ percents, p.1 = k ∧ (bytes p.2).length = (bytes w).length ∨ (bytes p.2).take (bytes w).length ≠ (bytes w).take (bytes p.2).length) (s : List Nat) :
    select (rulesOf .initial) (bytes w ++ s) none = some ((bytes w).length, k, (bytes w).length) := by
  have hl : 2 ≤ (bytes w).length := by
    rw [hw]
    cases c with
    | nil => exact absurd rfl hc
    | cons => simp
  refine GLex.select_best hr ((GLex.mem_cands_none rfl).2 ⟨rfl, by rw [List.length_append]; omega, GLex.mat_lit.2 (List.take_left' rfl)⟩) (by omega) ?_
  intro j r' t' k' hr' hm h0
  rcases percent_rule (s := c ++ s) hr' (by rw [hw] at hm; exact hm) h0 with h | ⟨v, hv, rfl, rfl, e⟩
  · omega
  · rcases hp _ hv with ⟨h1, h2⟩ | h
    · right
      exact ⟨h2, Or.inr ⟨h1.symm, Nat.le_of_eq h2⟩⟩
    · refine absurd ?_ h
      rw [← List.cons_append, ← hw] at e
      show (bytes v).take _ = (bytes w).take (bytes v).length
      by_cases hle : (bytes w).length ≤ (bytes v).length
      · have := congrArg (List.take (bytes w).length) e
        rw [List.take_take, Nat.min_eq_left hle, List.take_left' rfl] at this
        rw [← this, List.take_of_length_le hle]
      · rw [List.take_append_of_le_length (by omega)] at e
        rw [e, List.take_of_length_le (by omega)]

/-- How the words are written. -/
def operatorWords : List (String × Tok) := [("%bin", .bin), ("%pre", .pre), ("%post", .post), ("%tern", .tern), ("%paren", .paren), ("%priority", .priority), ("%<", .lopr), ("%>", .ropr), ("%left", .left), ("%right", .right), ("%isLeft", .isLeft), ("%isRight", .isRight)]

/-- C88: the words of operator rules are read as what they say, whatever comes behind. -/
theorem C88_keywords {w : String} {tok : Tok} (h : (w, tok) ∈ operatorWords) (E : Env) {st : St} (hs : Ready st) (rest : List Nat) :
    ∃ a x st', step E st (bytes w ++ rest) = .ret a x st' rest ∧ ofLex (a, x) = some tok ∧ Ready st' := by
  have hr := hs.1
  simp only [operatorWords, List.mem_cons, Prod.mk.injEq, List.not_mem_nil, or_false] at h
  rcases h with ⟨rfl, rfl⟩ | ⟨rfl, rfl⟩ | ⟨rfl, rfl⟩ | ⟨rfl, rfl⟩ | ⟨rfl, rfl⟩ | ⟨rfl, rfl⟩ | ⟨rfl, rfl⟩ | ⟨rfl, rfl⟩ | ⟨rfl, rfl⟩ | ⟨rfl, rfl⟩ | ⟨rfl, rfl⟩ | ⟨rfl, rfl⟩
  · refine ⟨.named "T_BIN", [], GLex.feed st (bytes "%bin"), ?_, by decide +kernel, ⟨hs.1, rfl, hs.2.2⟩⟩
    exact GLex.step_ret (List.cons_ne_nil _ _) (by rw [hr]; exact select_percent (w := "%bin") (k := 45) rfl (by decide +kernel) rfl (by decide +kernel) rest)
      (r := { body := GLex.lit "%bin", act := .ret (.named "T_BIN") }) (by rw [hr]; rfl) (by simp) rfl
  · refine ⟨.named "T_PRE", [], GLex.feed st (bytes "%pre"), ?_, by decide +kernel, ⟨hs.1, rfl, hs.2.2⟩⟩
    exact GLex.step_ret (List.cons_ne_nil _ _) (by rw [hr]; exact select_percent (w := "%pre") (k := 46) rfl (by decide +kernel) rfl (by decide +kernel) rest)
      (r := { body := GLex.lit "%pre", act := .ret (.named "T_PRE") }) (by rw [hr]; rfl) (by simp) rfl
  · refine ⟨.named "T_POST", [], GLex.feed st (bytes "%post"), ?_, by decide +kernel, ⟨hs.1, rfl, hs.2.2⟩⟩
    exact GLex.step_ret (List.cons_ne_nil _ _) (by rw [hr]; exact select_percent (w := "%post") (k := 47) rfl (by decide +kernel) rfl (by decide +kernel) rest)
      (r := { body := GLex.lit "%post", act := .ret (.named "T_POST") }) (by rw [hr]; rfl) (by simp) rfl
  · refine ⟨.named "T_TERN", [], GLex.feed st (bytes "%tern"), ?_, by decide +kernel, ⟨hs.1, rfl, hs.2.2⟩⟩
    exact GLex.step_ret (List.cons_ne_nil _ _) (by rw [hr]; exact select_percent (w := "%tern") (k := 48) rfl (by decide +kernel) rfl (by decide +kernel) rest)
      (r := { body := GLex.lit "%tern", act := .ret (.named "T_TERN") }) (by rw [hr]; rfl) (by simp) rfl
  · refine ⟨.named "T_PAREN", [], GLex.feed st (bytes "%paren"), ?_, by decide +kernel, ⟨hs.1, rfl, hs.2.2⟩⟩
    exact GLex.step_ret (List.cons_ne_nil _ _) (by rw [hr]; exact select_percent (w := "%paren") (k := 49) rfl (by decide +kernel) rfl (by decide +kernel) rest)
      (r := { body := GLex.lit "%paren", act := .ret (.named "T_PAREN") }) (by rw [hr]; rfl) (by simp) rfl
  · refine ⟨.named "T_PRIORITY", [], GLex.feed st (bytes "%priority"), ?_, by decide +kernel, ⟨hs.1, rfl, hs.2.2⟩⟩
    exact GLex.step_ret (List.cons_ne_nil _ _) (by rw [hr]; exact select_percent (w := "%priority") (k := 50) rfl (by decide +kernel) rfl (by decide +kernel) rest)
      (r := { body := GLex.lit "%priority", act := .ret (.named "T_PRIORITY") }) (by rw [hr]; rfl) (by simp) rfl
  · refine ⟨.named "T_LOPR", [], { GLex.feed st (bytes "%<") with place := .body }, ?_, by decide +kernel, ⟨hs.1, rfl, by simp⟩⟩
    exact GLex.step_ret (List.cons_ne_nil _ _) (by rw [hr]; exact select_percent (w := "%<") (k := 51) rfl (by decide +kernel) rfl (by decide +kernel) rest)
      (r := { body := GLex.lit "%<", act := .place .body (.named "T_LOPR") }) (by rw [hr]; rfl) (by simp) rfl
  · refine ⟨.named "T_ROPR", [], { GLex.feed st (bytes "%>") with place := .footer }, ?_, by decide +kernel, ⟨hs.1, rfl, by simp⟩⟩
    exact GLex.step_ret (List.cons_ne_nil _ _) (by rw [hr]; exact select_percent (w := "%>") (k := 52) rfl (by decide +kernel) rfl (by decide +kernel) rest)
      (r := { body := GLex.lit "%>", act := .place .footer (.named "T_ROPR") }) (by rw [hr]; rfl) (by simp) rfl
  · refine ⟨.named "T_LEFT_ASSOC", [], GLex.feed st (bytes "%left"), ?_, by decide +kernel, ⟨hs.1, rfl, hs.2.2⟩⟩
    exact GLex.step_ret (List.cons_ne_nil _ _) (by rw [hr]; exact select_percent (w := "%left") (k := 53) rfl (by decide +kernel) rfl (by decide +kernel) rest)
      (r := { body := GLex.lit "%left", act := .ret (.named "T_LEFT_ASSOC") }) (by rw [hr]; rfl) (by simp) rfl
  · refine ⟨.named "T_RIGHT_ASSOC", [], GLex.feed st (bytes "%right"), ?_, by decide +kernel, ⟨hs.1, rfl, hs.2.2⟩⟩
    exact GLex.step_ret (List.cons_ne_nil _ _) (by rw [hr]; exact select_percent (w := "%right") (k := 54) rfl (by decide +kernel) rfl (by decide +kernel) rest)
      (r := { body := GLex.lit "%right", act := .ret (.named "T_RIGHT_ASSOC") }) (by rw [hr]; rfl) (by simp) rfl
  · refine ⟨.named "T_IS_LEFT_ASSOC", [], GLex.feed st (bytes "%isLeft"), ?_, by decide +kernel, ⟨hs.1, rfl, hs.2.2⟩⟩
    exact GLex.step_ret (List.cons_ne_nil _ _) (by rw [hr]; exact select_percent (w := "%isLeft") (k := 55) rfl (by decide +kernel) rfl (by decide +kernel) rest)
      (r := { body := GLex.lit "%isLeft", act := .ret (.named "T_IS_LEFT_ASSOC") }) (by rw [hr]; rfl) (by simp) rfl
  · refine ⟨.named "T_IS_RIGHT_ASSOC", [], GLex.feed st (bytes "%isRight"), ?_, by decide +kernel, ⟨hs.1, rfl, hs.2.2⟩⟩
    exact GLex.step_ret (List.cons_ne_nil _ _) (by rw [hr]; exact select_percent (w := "%isRight") (k := 56) rfl (by decide +kernel) rfl (by decide +kernel) rest)
      (r := { body := GLex.lit "%isRight", act := .ret (.named "T_IS_RIGHT_ASSOC") }) (by rw [hr]; rfl) (by simp) rfl

/-- At the beginning of a file. -/
example : ∃ a x st', step {} {} (bytes "%left 3") = .ret a x st' (bytes " 3") ∧ ofLex (a, x) = some .left ∧ Ready st' := C88_keywords (w := "%left") (by simp [operatorWords]) {} ⟨rfl, rfl, by simp⟩ (bytes " 3")

end Verif.Syntax
