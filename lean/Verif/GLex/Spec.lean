import Verif.GLex.Model

/-!
# Specification: positions in a text, and the states the scanner reaches
-/

namespace Verif.GLex

/-- Number of line ends: LF, CR LF, or CR alone. -/
def lineNo : List Nat → Nat
  | [] => 0
  | c :: s => (if c = 10 ∨ (c = 13 ∧ s.head? ≠ some 10) then 1 else 0) + lineNo s

/-- The unfinished line at the end of a text. -/
def lastLine (s : List Nat) : List Nat := (s.reverse.takeWhile fun c => c != 10 && c != 13).reverse

/-- The column behind a text. -/
def column (s : List Nat) : Nat := (lastLine s).length

/-- Every CR is followed by LF. -/
def CrLf (s : List Nat) : Prop := ∀ a b, s = a ++ 13 :: b → b.head? = some 10

/-- The scanner gets to the state `st` with the text `s` still to be read, by steps which meet a condition on the state before, and the text before
and behind. -/
inductive Reached (E : Env) (P : St → List Nat → List Nat → Prop) (file : List Nat) : St → List Nat → Prop
  | start : Reached E P file {} file
  | go {st st' : St} {s s' : List Nat} : Reached E P file st s → P st s s' → step E st s = .go st' s' → Reached E P file st' s'
  | ret {st st' : St} {s s' x : List Nat} {t : Tok} : Reached E P file st s → P st s s' → step E st s = .ret t x st' s' → Reached E P file st' s'

/-- The scanner uses a rule with this action. -/
def Uses (st : St) (s : List Nat) (a : Act) : Prop :=
  ∃ m r, select (rulesOf st.cond) s none = some m ∧ (rulesOf st.cond)[m.2.1]? = some r ∧ r.act = a

/-- The step does not use `REJECT`, nor `countNewlines` on a text with line ends. -/
def Clean (st : St) (s s' : List Nat) : Prop :=
  ¬ Uses st s .reject ∧ (Uses st s .separator → ∀ w, s = w ++ s' → lineNo w = 0)

/-- Any step. -/
def AnyStep (_ : St) (_ _ : List Nat) : Prop := True

/-- Arguments without brackets, except in string literals without backslashes. -/
inductive ArgText : List Nat → Prop
  | nil : ArgText []
  | plain {c : Nat} {t : List Nat} : c ≠ 34 → c ≠ 91 → c ≠ 93 → ArgText t → ArgText (c :: t)
  | str {x t : List Nat} : (∀ d ∈ x, d ≠ 34 ∧ d ≠ 92 ∧ d ≠ 10 ∧ d ≠ 13) → ArgText t → ArgText (34 :: x ++ 34 :: t)

/-- A text that ends before its `:]`: it does not end with a colon, and each `:]` in it has a colon before it. -/
def CodeText (c : List Nat) : Prop := c.getLast? ≠ some 58 ∧ ∀ a b, c = a ++ 58 :: 93 :: b → a.getLast? = some 58

/-- The next `:]` is the one behind `c`. -/
def NextEnd (c : List Nat) : Prop := ∀ a b, c ++ [58, 93] = a ++ 58 :: 93 :: b → b = []

/-- The line directive (`#line 7 "file"`, or `# 7 "file" 1` as the preprocessor writes it) on a line of its own. -/
def Directive (E : Env) (n : Nat) (D : List Nat) : Prop :=
  E.policy = .compat ∧ D = bytes "\n#line " ++ (Nat.toDigits 10 n).map Char.toNat ++ bytes " \"" ++ E.file ++ bytes "\"\n" ∨
  E.policy = .full ∧ D = bytes "\n# " ++ (Nat.toDigits 10 n).map Char.toNat ++ bytes " \"" ++ E.file ++ bytes "\" 1\n"

/-- The text `x` has a line directive such that each byte of `c` gets the line it has in the file, where `pre` precedes `c`. -/
def RightLine (E : Env) (pre c x : List Nat) : Prop :=
  ∃ n D B, Directive E n D ∧ (∀ b ∈ B, b = 32) ∧ x = D ++ B ++ c ∧ ∀ i, n + lineNo (B ++ c.take i) = 1 + lineNo (pre ++ c.take i)

/-- The same for line and column. -/
def RightPlace (E : Env) (pre c x : List Nat) : Prop :=
  ∃ n D B, Directive E n D ∧ (∀ b ∈ B, b = 32) ∧ x = D ++ B ++ c ∧
    ∀ i, n + lineNo (B ++ c.take i) = 1 + lineNo (pre ++ c.take i) ∧ column (B ++ c.take i) = column (pre ++ c.take i)

/-- The inside of a string literal: no line end, and no quote without a backslash that belongs to it. -/
inductive Literal : List Nat → Prop
  | nil : Literal []
  | plain {c : Nat} {t : List Nat} : c ≠ 34 → c ≠ 92 → c ≠ 10 → c ≠ 13 → Literal t → Literal (c :: t)
  | esc {c : Nat} {t : List Nat} : c ≠ 10 → c ≠ 13 → Literal t → Literal (92 :: c :: t)

/-- How a name is to be read. -/
def wordToken (w : List Nat) : Tok × List Nat :=
  if w = bytes "catch" then (.named "T_CATCH", [])
  else if ∀ c ∈ w, c = 95 ∨ (65 ≤ c ∧ c ≤ 90) then (.named "T_TERMINAL", w)
  else (.named "T_IDENTIFIER", w)

def Letter (c : Nat) : Prop := c = 95 ∨ (65 ≤ c ∧ c ≤ 90) ∨ (97 ≤ c ∧ c ≤ 122)
def LetterOrDigit (c : Nat) : Prop := Letter c ∨ (48 ≤ c ∧ c ≤ 57)

/-- A blank within a line. -/
def Blank (c : Nat) : Prop := c = 32 ∨ c = 12 ∨ c = 9

end Verif.GLex
