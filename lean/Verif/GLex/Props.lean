import Verif.GLex.Pieces

/-!
# The scanner of grammar files: properties C67 to C73
-/

namespace Verif.GLex

/-! ## Helpers -/

theorem kept_nil {st : St} (hk : Kept st) (h : st.cond.keeps = false) : st.kept = [] := by
  by_contra hne
  rw [hk.cond hne] at h
  cases h

theorem lastLine_of_nl {a w : List Nat} (h : ∃ c ∈ w, isNl c = true) : lastLine (a ++ w) = lastLine w := by
  unfold lastLine
  rw [List.reverse_append, List.takeWhile_append]
  split
  · rename_i hlen
    obtain ⟨c, hc, hn⟩ := h
    exfalso
    have hpre := List.takeWhile_prefix (l := w.reverse) (fun c => c != 10 && c != 13)
    have heq := hpre.eq_of_length hlen
    have : c ∈ w.reverse.takeWhile fun c => c != 10 && c != 13 := by rw [heq]; simpa using hc
    have := List.all_eq_true.1 List.all_takeWhile c this
    simp [isNl] at hn this
    omega
  · rfl

theorem column_shift {a b w : List Nat} (h : column a = column b) : column (a ++ w) = column (b ++ w) := by
  unfold column at *
  by_cases hw : ∃ c ∈ w, isNl c = true
  · rw [lastLine_of_nl hw, lastLine_of_nl hw]
  · have hw : ∀ c ∈ w, isNl c = false := by
      intro c hc
      by_contra hn
      exact hw ⟨c, hc, by simpa using hn⟩
    rw [lastLine_append hw, lastLine_append hw, List.length_append, List.length_append, h]

theorem spaces_nl {n : Nat} : ∀ c ∈ List.replicate n 32, isNl c = false := by
  intro c hc
  rw [(List.mem_replicate.1 hc).2]; rfl

theorem column_spaces (n : Nat) : column (List.replicate n 32) = n := by
  have := lastLine_append (a := []) (spaces_nl (n := n))
  simp [column] at this ⊢
  rw [this]
  simp [lastLine]

theorem lineNo_spaces {n : Nat} {w : List Nat} : lineNo (List.replicate n 32 ++ w) = lineNo w := by
  rw [lineNo_append, lineNo_zero spaces_nl]
  · omega
  · intro h
    have := List.mem_of_getLast? h
    rw [List.mem_replicate] at this
    omega

theorem directive_spec {E : Env} (h : E.policy ≠ .beautiful) (n : Nat) : Directive E n (directive E n) := by
  cases hp : E.policy with
  | beautiful => exact absurd hp h
  | compat =>
    refine Or.inl ⟨hp, ?_⟩
    simp [directive, hp, digits, bytes]
  | full =>
    refine Or.inr ⟨hp, ?_⟩
    simp [directive, hp, digits, bytes]

/-! ## C67: code -/

theorem codeText_of_nextEnd {c : List Nat} (h : NextEnd c) (hl : c.getLast? ≠ some 58) : CodeText c := by
  refine ⟨hl, fun a b e => ?_⟩
  have := h a (b ++ [58, 93]) (by rw [e]; simp)
  simp at this

/-- C67 (partial): the code is copied byte for byte; with line numbers, each byte keeps its line and its column.  Missing: code that ends with a
colon, and positions behind steps that are not `Clean`. -/
theorem C67_code_partial {E : Env} {pre c rest : List Nat} {st : St}
    (hr : Reached E Clean (pre ++ 91 :: 58 :: (c ++ 58 :: 93 :: rest)) st (91 :: 58 :: (c ++ 58 :: 93 :: rest))) (hcond : st.cond = .initial ∨ st.cond = .lexer) (hc : CodeText c) :
    ∃ x st', lex E (c.length + 2) st (91 :: 58 :: (c ++ 58 :: 93 :: rest)) = some (.ret (.named "T_CODE") x st' rest) ∧
      (E.policy = .beautiful → x = c) ∧ (E.policy ≠ .beautiful → RightPlace E (pre ++ [91, 58]) c x) := by
  have hk := kept_nil (reached_kept hr).1 (by rcases hcond with h | h <;> rw [h] <;> rfl)
  obtain ⟨st', h1, _⟩ := code_loop (E := E) (rest := rest) (st := codeState st) (c := c) rfl hc (f := c.length + 1) (by omega)
  refine ⟨copyCode E (codeState st) c, st', ?_, fun hp => by simp [copyCode, hp], fun hp => ?_⟩
  · rw [lex, code_start hcond]
    exact h1
  · obtain ⟨p1, e1, _, hl⟩ := reached_line (fun st s s' hc => Or.inr (by
      by_cases hu : Uses st s .separator
      · exact Or.inr (hc.2 hu)
      · exact Or.inl hu)) hr
    obtain ⟨p2, e2, hb⟩ := reached_buffer hr
    have e1 := List.append_cancel_right e1
    have e2 := List.append_cancel_right e2
    subst e1
    rw [← e2] at hb
    refine ⟨st.line, directive E st.line, List.replicate ((if st.endOfLine then [] else st.buf).length + 2) 32, directive_spec hp _,
      fun b hb => (List.mem_replicate.1 hb).2, by simp [copyCode, hp, codeState], fun i => ⟨?_, ?_⟩⟩
    · rw [lineNo_spaces, hl, lineNo_append (pre ++ [91, 58]) _ (by simp), lineNo_append pre _ (by simp)]
      simp [lineNo]; omega
    · apply column_shift
      rw [column_spaces, hb, column, lastLine_append (by simp [isNl])]
      simp

/-- A block with a `::]`, a `\n` and a `[` inside. -/
example : CodeText (bytes "a::]\n[0]") := by
  have : ∀ a b : List Nat, bytes "a::]\n[0]" = a ++ 58 :: 93 :: b → a.getLast? = some 58 := by
    intro a b e
    have e : [97, 58, 58, 93, 10, 91, 48, 93] = a ++ 58 :: 93 :: b := e
    rcases a with _ | ⟨a0, _ | ⟨a1, _ | ⟨a2, _ | ⟨a3, _ | ⟨a4, _ | ⟨a5, _ | ⟨a6, _ | ⟨a7, a⟩⟩⟩⟩⟩⟩⟩⟩ <;> simp at e
    simp [e]
  exact ⟨by decide +kernel, this⟩

example : (lex { policy := .compat, file := bytes "g" } 40 {} (bytes "[:a::]\n[0]:] A")).map (fun r => match r with | .ret _ x _ _ => x | _ => []) =
    some (bytes "\n#line 1 \"g\"\n  a::]\n[0]") := by decide +kernel

/-- C67 fails: in `[:a::]` the next `:]` does not end the block. -/
theorem C67_fails_colon : ∃ c rest, NextEnd c ∧ lex {} (c.length + rest.length + 5) {} (91 :: 58 :: (c ++ 58 :: 93 :: rest)) = some .stop := by
  refine ⟨bytes "a:", [], fun a b e => ?_, by decide +kernel⟩
  have e : [97, 58, 58, 93] = a ++ 58 :: 93 :: b := e
  rcases a with _ | ⟨a0, _ | ⟨a1, _ | ⟨a2, _ | ⟨a3, a⟩⟩⟩⟩ <;> simp at e
  exact e.2.2

/-! ## C68: arguments -/

/-- C68 (partial): arguments without nested brackets are copied; with line numbers, each byte keeps its line.  Missing: nested brackets, literals with
backslashes, columns. -/
theorem C68_arguments_partial {E : Env} {pre c rest : List Nat} {st : St} (hr : Reached E Clean (pre ++ 91 :: (c ++ 93 :: rest)) st (91 :: (c ++ 93 :: rest)))
    (hcond : st.cond = .initial) (hp : st.place = .body) (hc : ArgText c) (h58 : c.head? ≠ some 58) :
    ∃ x st', lex E (c.length + 2) st (91 :: (c ++ 93 :: rest)) = some (.ret (.named "T_RULE_ARGUMENTS") x st' rest) ∧
      (E.policy = .beautiful → x = c) ∧ (E.policy ≠ .beautiful → RightLine E (pre ++ [91]) c x) := by
  have hk := kept_nil (reached_kept hr).1 (by rw [hcond]; rfl)
  have hhead : (c ++ 93 :: rest).head? ≠ some 58 := by
    cases c with
    | nil => simp
    | cons d c => simpa using h58
  have hstep : step E st (91 :: (c ++ 93 :: rest)) = .go { feed st [91] with firstLine := st.line, opened := 0, cond := .args } (c ++ 93 :: rest) := by
    refine step_go (E := E) (s := 91 :: (c ++ 93 :: rest)) (i := 58) (k := 1) (by simp) (by rw [hcond]; exact initial_bracket hhead) (by rw [hcond]; rfl) (by simp) ?_
    change (match st.place with | .body => Res.go { feed st [91] with firstLine := st.line, opened := 0, cond := .args } | .footer => _ | .lexer => _) = _
    rw [hp]
  obtain ⟨st', h1, _⟩ := args_loop (E := E) (rest := rest) (st := { feed st [91] with firstLine := st.line, opened := 0, cond := .args }) (c := c) rfl rfl hc (f := c.length + 1) (by omega)
  refine ⟨copyCode E { feed st [91] with firstLine := st.line, opened := 0, cond := .args } c, st', ?_, fun hp => by simp [copyCode, hp], fun hp => ?_⟩
  · rw [lex, hstep]
    exact h1
  · obtain ⟨p1, e1, _, hl⟩ := reached_line (fun st s s' hc => Or.inr (by
      by_cases hu : Uses st s .separator
      · exact Or.inr (hc.2 hu)
      · exact Or.inl hu)) hr
    have e1 := List.append_cancel_right e1
    subst e1
    refine ⟨st.line, directive E st.line, List.replicate st.firstColumn 32, directive_spec hp _,
      fun b hb => (List.mem_replicate.1 hb).2, by simp [copyCode, hp, feed, append], fun i => ?_⟩
    rw [lineNo_spaces, hl, lineNo_append (pre ++ [91]) _ (by simp), lineNo_append pre _ (by simp)]
    simp [lineNo]; omega

example : ArgText (bytes "x, \"]\", y") :=
  .plain (by decide) (by decide) (by decide) <| .plain (by decide) (by decide) (by decide) <| .plain (by decide) (by decide) (by decide) <|
  .str (x := [93]) (t := [44, 32, 121]) (by simp) <| .plain (by decide) (by decide) (by decide) <| .plain (by decide) (by decide) (by decide) <| .plain (by decide) (by decide) (by decide) .nil

example : (lex {} 40 { cond := .initial } (bytes "[x, \"]\", y] A")).map (fun r => match r with | .ret _ x _ _ => x | _ => []) = some (bytes "x, \"]\", y") := by decide +kernel

/-- C68 fails: a bracket inside the arguments drops what is before its end. -/
theorem C68_fails_nested : (lex {} 40 {} (bytes "[a[0]+1]")).map (fun r => match r with | .ret _ x _ _ => x | _ => []) = some (bytes "+1") := by decide +kernel

/-- C68 fails for columns: behind one line with a code block, the arguments in `b[x]` (column 2) are given the column of the code. -/
theorem C68_fails_column : ∃ st, (scan { policy := .compat, file := bytes "g" } 10 {} (bytes "A [:foo:]\nb[x]")) =
    some ([(.named "T_TERMINAL", [65]), (.named "T_CODE", bytes "\n#line 1 \"g\"\n    foo"), (.named "T_IDENTIFIER", [98]), (.named "T_RULE_ARGUMENTS", bytes "\n#line 2 \"g\"\n    x")], .eof st) :=
  ⟨_, rfl⟩

/-! ## C69: lines and columns -/

/-- C69 (partial), lines: in a file where each CR is followed by LF the line is right after every step. -/
theorem C69_line_partial {E : Env} {file pre s : List Nat} {st : St} (hf : CrLf file) (hr : Reached E AnyStep file st s) (he : file = pre ++ s) : st.line = 1 + lineNo pre := by
  obtain ⟨p, e, _, hl⟩ := reached_line (fun _ _ _ _ => Or.inl hf) hr
  rw [he] at e
  rw [hl, List.append_cancel_right e]

/-- C69 (partial), lines and columns, for any line ends: as long as the steps are `Clean`, the line is right, and the column of each token, too. -/
theorem C69_column_partial {E : Env} {file pre s : List Nat} {st : St} (hr : Reached E Clean file st s) (he : file = pre ++ s) :
    st.line = 1 + lineNo pre ∧ ∀ st' s', (step E st s = .go st' s' ∨ ∃ t x, step E st s = .ret t x st' s') → Clean st s s' → st'.offset = column pre := by
  obtain ⟨p, e, _, hl⟩ := reached_line (fun st s s' hc => Or.inr (by
      by_cases hu : Uses st s .separator
      · exact Or.inr (hc.2 hu)
      · exact Or.inl hu)) hr
  obtain ⟨q, e', hb⟩ := reached_buffer hr
  rw [he] at e e'
  have e := List.append_cancel_right e
  have e' := List.append_cancel_right e'
  subst e; subst e'
  refine ⟨hl, fun st' s' hn hc => ?_⟩
  have hm := next_moves hn
  obtain ⟨w, _, ew, _⟩ := moves_token (pre := pre) hm
  exact (moves_column (reached_kept hr).1 hb hm ew hc).1

/-- `n` steps. -/
def walk (E : Env) : Nat → St → List Nat → Option (St × List Nat)
  | 0, st, s => some (st, s)
  | n + 1, st, s => match step E st s with
    | .go st s => walk E n st s
    | .ret _ _ st s => walk E n st s
    | _ => none

theorem walk_reached {E : Env} {file : List Nat} : ∀ {n : Nat} {st st' : St} {s s' : List Nat}, Reached E AnyStep file st s → walk E n st s = some (st', s') →
    Reached E AnyStep file st' s'
  | 0, st, st', s, s', hr, h => by simp [walk] at h; rw [← h.1, ← h.2]; exact hr
  | n + 1, st, st', s, s', hr, h => by
    rw [walk] at h
    split at h
    · rename_i h1
      exact walk_reached (.go hr trivial h1) h
    · rename_i h1
      exact walk_reached (.ret hr trivial h1) h
    · cases h

/-- A run over several lines, with a comment. -/
example : (walk {} 6 {} (bytes "A\r\n -- c\n B")).map (fun p => (p.1.line, p.1.offset, p.2)) = some (3, 0, bytes "B") := by decide +kernel

/-- C69 fails: CR alone is not counted between the semicolons that end the lexer. -/
theorem C69_fails_line : ∃ file pre s st, Reached {} AnyStep file st s ∧ file = pre ++ s ∧ st.line ≠ 1 + lineNo pre := by
  obtain ⟨st, h, hl⟩ : ∃ st, walk {} 4 {} (bytes "%lexer->a;\r;") = some (st, [59]) ∧ st.line = 1 := by
    exact ⟨_, rfl, rfl⟩
  exact ⟨_, bytes "%lexer->a;\r", [59], st, walk_reached .start h, rfl, by rw [hl]; decide +kernel⟩

/-- C69 fails for columns: behind the separator that ends the lexer, the column is counted from the line where it starts. -/
theorem C69_fails_column : ∃ file pre s st st', Reached {} AnyStep file st s ∧ file = pre ++ s ∧ step {} st s = .ret (.ch 59) [] st' [] ∧ st'.offset ≠ column pre := by
  obtain ⟨st, st', h, h2, hl⟩ : ∃ st st', walk {} 4 {} (bytes "%lexer->a;\n;") = some (st, [59]) ∧ step {} st [59] = .ret (.ch 59) [] st' [] ∧ st'.offset = 11 := by
    exact ⟨_, _, rfl, rfl, rfl⟩
  exact ⟨_, bytes "%lexer->a;\n", [59], st, st', walk_reached .start h, rfl, h2, by rw [hl]; decide +kernel⟩

/-- C69 fails for columns: a rejected character is put into the line buffer twice. -/
theorem C69_fails_reject : ∃ file pre s st st' s', Reached {} AnyStep file st s ∧ file = pre ++ s ∧ step {} st s = .ret (.named "T_TERMINAL") [65] st' s' ∧ st'.offset ≠ column pre := by
  obtain ⟨st, st', h, h2, hl⟩ : ∃ st st', walk {} 2 {} (bytes "%parserclass.A") = some (st, [65]) ∧ step {} st [65] = .ret (.named "T_TERMINAL") [65] st' [] ∧ st'.offset = 14 := by
    exact ⟨_, _, rfl, rfl, rfl⟩
  exact ⟨_, bytes "%parserclass.", [65], st, st', [], walk_reached .start h, rfl, h2, by rw [hl]; decide +kernel⟩

end Verif.GLex
