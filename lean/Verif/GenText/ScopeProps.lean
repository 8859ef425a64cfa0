import Verif.GenText.OpNames
import Verif.Gen.CompleteProps

/-!
# C116: variables and labels in the text of the parse functions

`GenText.ScopeSpec` says what C++ demands of declarations, uses, labels and jumps.
-/

namespace Verif.GenText

open Verif.Grammar
open Verif.Gen (Ctx rulesOf)
open Spec

/-- C116: the names in the text of a parse function are in order: a variable is used in the block where it is declared, behind the declaration, and declared once in a block; each jump has its label in the function,
set once, and no declaration in force at the label is passed by a jump; each block that is opened is closed.

This is so unless the symbol has an operator rule and either no syntax tree is made or the first rule of the symbol is not an operator rule; then it is not so (`opStack` is not declared). -/
theorem C116_names_partial {o : Opts} {K : Ctx} {fuel s : Nat} {ts : Toks} (h : fullText o K fuel s = some ts) :
    Named ts ↔ ((∃ r ∈ rulesOf K.W s, ∃ i q, K.W.node r = some (.evolve i s) ∧ K.W.node i = some (.op q)) → o.ast = true ∧ ∃ r i q, K.W.searchRule s = some r ∧ K.W.node r = some (.evolve i s) ∧ K.W.node i = some (.op q)) := by
  rw [full_names h]
  have h1 : (∃ r ∈ rulesOf K.W s, OpRule K r) ↔ ∃ r ∈ rulesOf K.W s, ∃ i q, K.W.node r = some (.evolve i s) ∧ K.W.node i = some (.op q) := by
    refine exists_congr fun r => and_congr_right fun hr => ⟨fun ⟨i, s', q, e, hq⟩ => ?_, fun ⟨i, q, e, hq⟩ => ⟨i, s, q, e, hq⟩⟩
    have := (List.mem_filter.1 (List.mem_reverse.1 hr)).2
    rw [e] at this
    simp only [decide_eq_true_eq] at this
    exact ⟨i, q, this ▸ e, hq⟩
  have h2 : Check.isOpSym K.W s = true ↔ ∃ r i q, K.W.searchRule s = some r ∧ K.W.node r = some (.evolve i s) ∧ K.W.node i = some (.op q) := by
    constructor
    · intro h
      unfold Check.isOpSym at h
      split at h
      · cases h
      · next r e =>
        have hs := List.find?_some e
        split at h
        · next i s' e' =>
          split at h
          · next q hq =>
            rw [e'] at hs
            simp only [decide_eq_true_eq] at hs
            exact ⟨r, i, q, e, hs ▸ e', hq⟩
          · cases h
        · cases h
    · rintro ⟨r, i, q, e1, e2, e3⟩
      simp [Check.isOpSym, e1, e2, e3]
  rw [h1, h2]

/-- The functions of symbols without operator rules, as in C115. -/
theorem C116_plain {o : Opts} {K : Ctx} {fuel s : Nat} {ts : Toks} (h : funText o K fuel s = some ts) : Named ts := fun_fine o K h

/-! ### Examples -/

/-- The function with a recovering `try` block, a call and a variable for it in the block. -/
example : ∃ ts, funText {} Gen.tryCtx 20 7 = some ts ∧ Named ts ∧ .num .«__catch_» 1 ∈ ts ∧ [.kGoto, .num .«__catch_» 1] <:+: ts ∧ .num .«__node_» 0 ∈ ts :=
  ⟨(funText {} Gen.tryCtx 20 7).getD [], by decide +kernel, C116_plain (o := {}) (K := Gen.tryCtx) (fuel := 20) (s := 7) (by decide +kernel), by decide +kernel, by decide +kernel, by decide +kernel⟩

/-- `x ? x : x` and `x + x` in an operator rule: all is in order with a syntax tree. -/
example : ∃ ts, fullText {} Gen.ternCtx 20 7 = some ts ∧ Named ts ∧ .num .«opStack» 0 ∈ ts ∧ .num .«__node_» 1 ∈ ts :=
  ⟨(fullText {} Gen.ternCtx 20 7).getD [], by decide +kernel, (C116_names_partial (o := {}) (K := Gen.ternCtx) (fuel := 20) (s := 7) (by decide +kernel)).2 fun _ => ⟨rfl, 10, 9, { base := 8, bin := [2], tern := [(3, 4)] }, by decide +kernel⟩,
    by decide +kernel, by decide +kernel⟩

/-- C116 fails for `--no-ast` and an operator rule. -/
theorem C116_fails_no_ast : ∃ ts, fullText { ast := false } Gen.ternCtx 20 7 = some ts ∧ ¬ Named ts :=
  ⟨(fullText { ast := false } Gen.ternCtx 20 7).getD [], by decide +kernel, fun h =>
    nomatch ((C116_names_partial (o := { ast := false }) (K := Gen.ternCtx) (fuel := 20) (s := 7) (by decide +kernel)).1 h ⟨10, by decide +kernel, 9, { base := 8, bin := [2], tern := [(3, 4)] }, by decide +kernel⟩).1⟩

/-- `A -> s;  A -> e;  (operators: + on s) -> e;` with 1 `A`, 2 `+`, 5 `s`, 7 `e`. -/
def mixedWorld : World := rewrite {
  heap := [.zero, .term, .term, .term, .term, .sym, .evolve 1 5, .sym, .nonterm 5, .op { base := 8, bin := [2] }, .evolve 9 7, .term, .evolve 3 7]
  parsed := 0
  rules := [6, 12, 10]
  zero := 0
  terminals := [1, 2, 3, 4]
  start := [7]
  bnf := fun _ => none } [9]

/-- C116 fails if a rule of another kind comes before the operator rule of a symbol. -/
theorem C116_fails_mixed : ∃ ts, fullText {} (Gen.ctxOf mixedWorld 11) 20 7 = some ts ∧ ¬ Named ts :=
  ⟨(fullText {} (Gen.ctxOf mixedWorld 11) 20 7).getD [], by decide +kernel, fun h => by
    obtain ⟨-, r, i, q, h1, h2, h3⟩ := (C116_names_partial (o := {}) (K := Gen.ctxOf mixedWorld 11) (fuel := 20) (s := 7) (by decide +kernel)).1 h ⟨10, by decide +kernel, 9, { base := 8, bin := [2] }, by decide +kernel⟩
    rw [show (Gen.ctxOf mixedWorld 11).W.searchRule 7 = some 12 by decide +kernel] at h1
    cases h1
    rw [show (Gen.ctxOf mixedWorld 11).W.node 12 = some (.evolve 3 7) by decide +kernel] at h2
    cases h2
    rw [show (Gen.ctxOf mixedWorld 11).W.node 3 = some .term by decide +kernel] at h3
    cases h3⟩

private def bad (ts : Toks) : Bool := match Sc.scan .semi {} ts with
  | some st => !(st.scopes == [[]] && st.pending == [])
  | none => true

private theorem not_named {ts : Toks} (h : bad ts = true) : ¬ Named ts := by
  rintro ⟨st, h1, h2, h3⟩
  simp [bad, h1, h2, h3] at h

/-- The specification refuses a use before the declaration and behind the end of the block, -/
example : ¬ Named [.lb, .w .«delete», .num .«try_startState_» 1, .semi, .w .«ParserState», .w .«*», .num .«try_startState_» 1, .semi, .rb] := not_named (by decide +kernel)
example : ¬ Named [.lb, .lb, .w .«ParserState», .w .«*», .num .«try_startState_» 1, .semi, .rb, .w .«delete», .num .«try_startState_» 1, .semi, .rb] := not_named (by decide +kernel)
/-- a second declaration, a second label, a jump without label, -/
example : ¬ Named [.lb, .w .«bool», .num .«blockErrors_» 1, .semi, .w .«bool», .num .«blockErrors_» 1, .semi, .rb] := not_named (by decide +kernel)
example : ¬ Named [.lb, .num .«__catch_» 1, .colon, .semi, .num .«__catch_» 1, .colon, .semi, .rb] := not_named (by decide +kernel)
example : ¬ Named [.lb, .kGoto, .num .«__catch_» 1, .semi, .rb] := not_named (by decide +kernel)
/-- and a jump past a declaration; the same jump is allowed if the declaration is in a block of its own. -/
example : ¬ Named [.lb, .kGoto, .num .«__catch_» 1, .semi, .w .«bool», .num .«blockErrors_» 1, .semi, .num .«__catch_» 1, .colon, .semi, .rb] := not_named (by decide +kernel)
example : Named [.lb, .kGoto, .num .«__catch_» 1, .semi, .lb, .w .«bool», .num .«blockErrors_» 1, .semi, .rb, .num .«__catch_» 1, .colon, .semi, .rb] := ⟨_, rfl, rfl, rfl⟩

end Verif.GenText
