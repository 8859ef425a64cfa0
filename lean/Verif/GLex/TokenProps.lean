import Verif.GLex.Props

/-!
# The scanner of grammar files: properties C70 to C73
-/

namespace Verif.GLex

/-! ## C70: string literals -/

theorem literal_quoted {x : List Nat} (h : Literal x) (hl : x.getLast? ≠ some 92) : Quoted x := by
  induction h with
  | nil => exact ⟨by simp, fun a b e => by simp at e⟩
  | @plain c t h1 h2 h3 h4 ht ih =>
    have hq : Quoted [c] := ⟨by simp [isNl, h3, h4], fun a b e => by
      cases a with
      | nil => simp at e; exact absurd e.1 h1
      | cons x a => simp at e⟩
    refine quoted_cons (u := [c]) hq ?_
    cases t with
    | nil => exact ⟨by simp, fun a b e => by simp at e⟩
    | cons d t => exact ih (by simpa using hl)
  | @esc c t h1 h2 ht ih =>
    have hq : Quoted [92, c] := ⟨by simp [isNl, h1, h2], fun a b e => by
      match a with
      | [] => simp at e
      | [x] => simp at e; simp [e.1]
      | x :: y :: a => simp at e⟩
    refine quoted_cons (u := [92, c]) hq ?_
    cases t with
    | nil => exact ⟨by simp, fun a b e => by simp at e⟩
    | cons d t => exact ih (by simpa using hl)

/-- C70 (partial): a literal that does not end with a backslash is read up to its closing quote, whatever follows.  Missing: literals that end with an
escaped backslash. -/
theorem C70_string_partial {E : Env} {st : St} {x s : List Nat} (hcond : st.cond = .initial ∨ st.cond = .lexer) (hk : st.kept = []) (hx : Literal x) (hl : x.getLast? ≠ some 92) :
    ∃ st', step E st (34 :: x ++ 34 :: s) = .ret (.named "T_STRING") x st' s ∧ st'.cond = st.cond := by
  have hq := literal_quoted hx hl
  have e1 : 34 :: x ++ 34 :: s = (34 :: x ++ [34]) ++ s := by simp
  have htake : (34 :: x ++ 34 :: s).take (x.length + 2) = 34 :: x ++ [34] := by rw [e1, List.take_left' (by simp)]
  have hdrop : (34 :: x ++ 34 :: s).drop (x.length + 2) = s := by rw [e1, List.drop_left' (by simp)]
  have hin : ((34 :: x ++ [34]).drop 1).dropLast = x := by simp
  refine ⟨feed st (34 :: x ++ [34]), ?_, rfl⟩
  rcases hcond with hc | hc
  · have := step_ret (E := E) (s := 34 :: x ++ 34 :: s) (i := 63) (k := x.length + 2) (x := x) (tok := .named "T_STRING") (st' := feed st (34 :: x ++ [34]))
      (by simp) (by rw [hc]; exact initial_string hq hl) (by rw [hc]; rfl) (by simp) (by
        rw [htake, hk]
        change Res.ret _ ((34 :: x ++ [34]).drop 1).dropLast _ = _
        rw [hin])
    rw [hdrop] at this
    exact this
  · have := step_ret (E := E) (s := 34 :: x ++ 34 :: s) (i := 31) (k := x.length + 2) (x := x) (tok := .named "T_STRING") (st' := feed st (34 :: x ++ [34]))
      (by simp) (by rw [hc]; exact lexer_string hq hl) (by rw [hc]; rfl) (by simp) (by
        rw [htake, hk]
        change Res.ret _ ((34 :: x ++ [34]).drop 1).dropLast _ = _
        rw [hin])
    rw [hdrop] at this
    exact this

/-- `a\"b` with another literal behind it. -/
example : Literal (bytes "a\\\"b") :=
  .plain (c := 97) (by decide) (by decide) (by decide) (by decide) <| .esc (c := 34) (by decide) (by decide) <| .plain (c := 98) (by decide) (by decide) (by decide) (by decide) .nil

/-- C70 fails: the literal of one escaped backslash goes on to the next quote. -/
theorem C70_fails_backslash : ∃ x s st', Literal x ∧ step {} {} (34 :: x ++ 34 :: s) = .ret (.named "T_STRING") (bytes "\\\\\" ") st' [] :=
  ⟨bytes "\\\\", bytes " \"", _, .esc (by decide) (by decide) .nil, rfl⟩

/-! ## C71: names -/

/-- C71: a name is one token; which one depends on its letters alone, apart from `try/recover` and `try/rollback`. -/
theorem C71_word {E : Env} {st : St} {c : Nat} {w s : List Nat} (hcond : st.cond = .initial) (hk : st.kept = []) (hc : Letter c) (hw : ∀ d ∈ w, LetterOrDigit d)
    (hs : ∀ d, s.head? = some d → ¬ LetterOrDigit d) (htry : ¬ (c :: w = bytes "try" ∧ (s.take 8 = bytes "/recover" ∨ s.take 9 = bytes "/rollback"))) :
    ∃ st', step E st (c :: w ++ s) = .ret (wordToken (c :: w)).1 (wordToken (c :: w)).2 st' s ∧ st'.cond = .initial ∧ st'.place = st.place := by
  have ha : ∀ d, isAlpha d = true ↔ Letter d := by
    intro d; simp [isAlpha, isUpper, isLower, Letter]; omega
  have hwd : ∀ d, isWord d = true ↔ LetterOrDigit d := by
    intro d
    simp only [isWord, Bool.or_eq_true, ha, LetterOrDigit, isDigit, Bool.and_eq_true, decide_eq_true_eq]
  have hcap : (c :: w).all isCap = true ↔ ∀ d ∈ c :: w, d = 95 ∨ (65 ≤ d ∧ d ≤ 90) := by
    rw [List.all_eq_true]
    simp only [isCap, isUpper, Bool.or_eq_true, beq_iff_eq, Bool.and_eq_true, decide_eq_true_eq]
  have hsel := initial_word (c := c) (w := w) (s := s) ((ha c).2 hc) (fun d hd => (hwd d).2 (hw d hd))
    (fun d hd => by
      by_contra hn
      exact hs d hd ((hwd d).1 (by simpa using hn))) htry
  have htake : (c :: w ++ s).take (w.length + 1) = c :: w := List.take_left' rfl
  have hdrop : (c :: w ++ s).drop (w.length + 1) = s := List.drop_left' rfl
  refine ⟨feed st (c :: w), ?_, hcond, rfl⟩
  unfold wordRule at hsel
  unfold wordToken
  by_cases h1 : c :: w = bytes "catch"
  · rw [if_pos h1] at hsel
    have := step_ret (E := E) (s := c :: w ++ s) (x := []) (tok := .named "T_CATCH") (st' := feed st (c :: w)) (by simp) (by rw [hcond]; exact hsel) (by rw [hcond]; rfl) (by simp [key]) (by
      rw [htake]; rfl)
    rw [hdrop] at this
    rw [if_pos h1]
    exact this
  · rw [if_neg h1] at hsel ⊢
    by_cases h2 : (c :: w).all isCap = true
    · rw [if_pos h2] at hsel
      have := step_ret (E := E) (s := c :: w ++ s) (x := c :: w) (tok := .named "T_TERMINAL") (st' := feed st (c :: w)) (by simp) (by rw [hcond]; exact hsel) (by rw [hcond]; rfl) (by simp) (by
        rw [htake, hk]; rfl)
      rw [hdrop] at this
      rw [if_pos (hcap.1 h2)]
      exact this
    · rw [if_neg h2] at hsel
      have := step_ret (E := E) (s := c :: w ++ s) (x := c :: w) (tok := .named "T_IDENTIFIER") (st' := feed st (c :: w)) (by simp) (by rw [hcond]; exact hsel) (by rw [hcond]; rfl) (by simp) (by
        rw [htake, hk]; rfl)
      rw [hdrop] at this
      rw [if_neg fun h => h2 (hcap.2 h)]
      exact this

example : ∃ st', step {} {} (bytes "catcher_9->") = .ret (.named "T_IDENTIFIER") (bytes "catcher_9") st' (bytes "->") := ⟨_, rfl⟩
example : wordToken (bytes "A_B") = (.named "T_TERMINAL", bytes "A_B") ∧ wordToken (bytes "A9") = (.named "T_IDENTIFIER", bytes "A9") ∧ wordToken (bytes "catch") = (.named "T_CATCH", []) := by
  decide +kernel

/-! ## C72: types of variables -/

/-- The colon before a type, with the blanks behind it. -/
theorem type_colon {E : Env} {st : St} {b s : List Nat} (hcond : st.cond = .header) (hb : ∀ d ∈ b, Blank d) (hs : ∀ d, s.head? = some d → ¬ Blank d) :
    ∃ st', step E st (58 :: b ++ s) = .ret (.ch 58) [] st' s ∧ st'.cond = .varname ∧ st'.kept = [] := by
  have hws : ∀ d, isWs d = true ↔ Blank d := by
    intro d; simp [isWs, Blank, or_assoc]
  have hsel := header_colon (b := b) (s := s) (fun d hd => (hws d).2 (hb d hd)) (fun d hd => by
    by_contra hn
    exact hs d hd ((hws d).1 (by simpa using hn)))
  have htake : (58 :: b ++ s).take (b.length + 1) = 58 :: b := List.take_left' rfl
  have hdrop : (58 :: b ++ s).drop (b.length + 1) = s := List.drop_left' rfl
  have := step_ret (E := E) (s := 58 :: b ++ s) (x := []) (tok := .ch 58) (st' := { feed st (58 :: b) with cond := .varname }) (by simp) (by rw [hcond]; exact hsel) (by rw [hcond]; rfl) (by simp) (by
    rw [htake]; rfl)
  rw [hdrop] at this
  exact ⟨_, this, rfl, rfl⟩

/-- C72 (partial): a type of two bytes or more is read as it is written up to the semicolon, without the blanks before it.  If no blank stands before the
semicolon this is the claim.  Missing: types of one byte, blanks before the semicolon. -/
theorem C72_type_partial {E : Env} {st : St} {b c rest : List Nat} (hcond : st.cond = .header) (hb : ∀ d ∈ b, Blank d) (h59 : 59 ∉ c)
    (hfirst : ∀ d, c.head? = some d → ¬ Blank d) (hlen : 2 ≤ c.length) :
    ∃ st1 st2, step E st (58 :: b ++ (c ++ 59 :: rest)) = .ret (.ch 58) [] st1 (c ++ 59 :: rest) ∧
      lex E (c.length + 1) st1 (c ++ 59 :: rest) = some (.ret (.named "T_IDENTIFIER") c st2 rest) ∧ st2.cond = .header := by
  obtain ⟨st1, h1, h2, h3⟩ := type_colon (E := E) (st := st) (b := b) (s := c ++ 59 :: rest) hcond hb (by
    cases c with
    | nil => simp at hlen
    | cons x c => simpa using hfirst)
  obtain ⟨st2, h4, h5⟩ := (type_loop (E := E) (rest := rest) (st := st1) (c := c) h2 (fun d hd e => h59 (e ▸ hd)) (f := c.length + 1) (by omega)).1 (by rw [h3]; simpa using hlen)
  rw [h3, List.nil_append] at h4
  exact ⟨st1, st2, h1, h4, h5⟩

example : (lex {} 20 { cond := .varname } (bytes "QList<int>; x")).map (fun r => match r with | .ret _ x _ _ => x | _ => []) = some (bytes "QList<int>") := by decide +kernel

/-- C72 fails: blanks before the semicolon stay. -/
theorem C72_fails_blanks {E : Env} {st : St} {c b rest : List Nat} (hcond : st.cond = .varname) (hk : st.kept = []) (hc : 59 ∉ c) (hb : ∀ d ∈ b, Blank d) (hlen : 2 ≤ c.length) :
    ∃ st', lex E (c.length + b.length + 1) st (c ++ b ++ 59 :: rest) = some (.ret (.named "T_IDENTIFIER") (c ++ b) st' rest) := by
  obtain ⟨st', h, _⟩ := (type_loop (E := E) (rest := rest) (st := st) (c := c ++ b) hcond (fun d hd e => by
    rcases List.mem_append.1 hd with h | h
    · exact hc (e ▸ h)
    · have := hb d h
      subst e
      rcases this with h | h | h <;> omega) (f := c.length + b.length + 1) (by simp)).1 (by rw [hk]; simp; omega)
  rw [hk, List.nil_append] at h
  exact ⟨st', h⟩

/-- C72 fails: every type of one byte (and the empty one) leads to undefined behaviour. -/
theorem C72_fails_short {E : Env} {st : St} {b c rest : List Nat} (hcond : st.cond = .header) (hb : ∀ d ∈ b, Blank d) (h59 : 59 ∉ c)
    (hfirst : ∀ d, c.head? = some d → ¬ Blank d) (hlen : c.length < 2) :
    ∃ st1, step E st (58 :: b ++ (c ++ 59 :: rest)) = .ret (.ch 58) [] st1 (c ++ 59 :: rest) ∧ lex E (c.length + 1) st1 (c ++ 59 :: rest) = some .undefined := by
  obtain ⟨st1, h1, h2, h3⟩ := type_colon (E := E) (st := st) (b := b) (s := c ++ 59 :: rest) hcond hb (by
    cases c with
    | nil => simp [Blank]
    | cons x c => simpa using hfirst)
  exact ⟨st1, h1, (type_loop (E := E) (rest := rest) (st := st1) (c := c) h2 (fun d hd e => h59 (e ▸ hd)) (f := c.length + 1) (by omega)).2 (by rw [h3]; simpa using hlen)⟩

example : ∃ toks, scan {} 20 {} (bytes "A->s[member node x:T;];") = some (toks, .undefined) := ⟨_, rfl⟩

/-! ## C73: termination, and what is lost -/

theorem next_shorter {E : Env} {st st' : St} {s s' : List Nat} (h : Next E st s st' s') : s'.length < s.length := by
  obtain ⟨w, hw, e, _⟩ := moves_token (pre := []) (next_moves h)
  have := congrArg List.length e
  rw [List.length_append] at this
  have : 0 < w.length := List.length_pos_iff.2 hw
  omega

/-- C73, termination: `yylex` returns after at most as many matches as there are bytes left. -/
theorem C73_yylex_terminates (E : Env) : ∀ (s : List Nat) (st : St), ∃ r, lex E (s.length + 1) st s = some r := by
  have key : ∀ (n : Nat) (st : St) (s : List Nat), s.length < n → ∃ r, lex E n st s = some r := by
    intro n
    induction n with
    | zero => intro st s h; omega
    | succ n ih =>
      intro st s h
      rw [lex]
      cases hs : step E st s with
      | go st' s' =>
        have := next_shorter (Or.inl hs)
        exact ih st' s' (by omega)
      | ret t x st' s' => exact ⟨_, rfl⟩
      | stop => exact ⟨_, rfl⟩
      | undefined => exact ⟨_, rfl⟩
      | eof st' => exact ⟨_, rfl⟩
  exact fun s st => key _ st s (by omega)

theorem lex_ret {E : Env} : ∀ {n : Nat} {st st' : St} {s s' x : List Nat} {t : Tok}, lex E n st s = some (.ret t x st' s') → s'.length < s.length
  | 0, _, _, _, _, _, _, h => by simp [lex] at h
  | n + 1, st, st', s, s', x, t, h => by
    rw [lex] at h
    split at h
    · rename_i st1 s1 hs
      have h1 := next_shorter (Or.inl hs)
      have h2 := lex_ret h
      omega
    · simp only [Option.some.injEq] at h
      exact next_shorter (Or.inr ⟨t, x, h⟩)

theorem lex_not_go {E : Env} : ∀ {n : Nat} {st st' : St} {s s' : List Nat}, lex E n st s ≠ some (.go st' s')
  | 0, _, _, _, _, h => by simp [lex] at h
  | n + 1, st, st', s, s', h => by
    rw [lex] at h
    split at h
    · exact lex_not_go h
    · rename_i hn
      simp only [Option.some.injEq] at h
      exact hn _ _ h

/-- C73, termination: every file is scanned to its end, or up to an error or undefined behaviour. -/
theorem C73_scan_terminates (E : Env) (file : List Nat) : ∃ toks r, scan E (file.length + 1) {} file = some (toks, r) ∧
    (r = .stop ∨ r = .undefined ∨ ∃ st, r = .eof st) := by
  have key : ∀ (n : Nat) (st : St) (s : List Nat), s.length < n → ∃ toks r, scan E n st s = some (toks, r) ∧ (r = .stop ∨ r = .undefined ∨ ∃ st, r = .eof st) := by
    intro n
    induction n with
    | zero => intro st s h; omega
    | succ n ih =>
      intro st s h
      rw [scan]
      obtain ⟨r, hr⟩ := C73_yylex_terminates E s st
      rw [hr]
      cases r with
      | go st' s' => exact absurd hr lex_not_go
      | ret t x st' s' =>
        have := lex_ret hr
        obtain ⟨toks, r, h1, h2⟩ := ih st' s' (by omega)
        refine ⟨(t, x) :: toks, r, ?_, h2⟩
        simp [h1]
      | stop => exact ⟨[], _, rfl, Or.inl rfl⟩
      | undefined => exact ⟨[], _, rfl, Or.inr (Or.inl rfl)⟩
      | eof st' => exact ⟨[], _, rfl, Or.inr (Or.inr ⟨st', rfl⟩)⟩
  exact key _ _ _ (by omega)

/-- C73: a file that is accepted does not end within code, arguments or the rules of a lexer. -/
theorem C73_accepted_complete (E : Env) : ∀ {n : Nat} {st st' : St} {s : List Nat} {toks : List (Tok × List Nat)}, scan E n st s = some (toks, .eof st') →
    st'.cond ≠ .code ∧ st'.cond ≠ .args ∧ st'.cond ≠ .lexer := by
  have hstep : ∀ {st st' : St} {s : List Nat}, step E st s = .eof st' → st'.cond ≠ .code ∧ st'.cond ≠ .args ∧ st'.cond ≠ .lexer := by
    intro st st' s h
    by_cases hs : s = []
    · rw [step, if_pos hs] at h
      split at h
      · cases h
      · rename_i hn
        cases h
        simpa only [not_or] using hn
    · obtain ⟨t, i, k, r, _, _, h3, h4⟩ := step_shape E st hs
      by_cases ha : r.act = .reject
      · obtain ⟨_, h5⟩ := h4 ha
        simp_all
      · rw [h3 ha] at h
        revert h
        cases run E (st.kept ++ s.take k) (feed st (s.take k)) r.act <;> simp [finish]
  have hlex : ∀ {n : Nat} {st st' : St} {s : List Nat}, lex E n st s = some (.eof st') → st'.cond ≠ .code ∧ st'.cond ≠ .args ∧ st'.cond ≠ .lexer := by
    intro n
    induction n with
    | zero => intro st st' s h; simp [lex] at h
    | succ n ih =>
      intro st st' s h
      rw [lex] at h
      cases hs : step E st s with
      | go st1 s1 => rw [hs] at h; exact ih h
      | eof st1 => rw [hs] at h; cases h; exact hstep hs
      | _ => rw [hs] at h; cases h
  intro n
  induction n with
  | zero => intro st st' s toks h; simp [scan] at h
  | succ n ih =>
    intro st st' s toks h
    rw [scan] at h
    cases hl : lex E (s.length + 1) st s with
    | none => rw [hl] at h; cases h
    | some r =>
      rw [hl] at h
      cases r with
      | ret t x st1 s1 =>
        simp only [Option.map_eq_some_iff] at h
        obtain ⟨a, ha, e⟩ := h
        obtain ⟨toks', r⟩ := a
        simp only [Prod.mk.injEq] at e
        rw [e.2] at ha
        exact ih ha
      | eof st1 => simp at h; obtain ⟨_, rfl⟩ := h; exact hlex hl
      | _ => simp at h

example : (scan {} 10 {} (bytes "a[")).map (·.2) = some .stop ∧ ((scan {} 10 {} (bytes "a;")).map fun r => match r.2 with | .eof st => st.cond == .initial | _ => false) = some true := by
  decide +kernel

/-- C73: undefined behaviour only at the semicolon behind a type of less than two bytes. -/
theorem C73_undefined {E : Env} {st : St} {s : List Nat} (h : step E st s = .undefined) : st.cond = .varname ∧ s.head? = some 59 ∧ st.kept.length < 2 := by
  have hs : s ≠ [] := by
    rintro rfl
    unfold step at h
    simp only [if_true] at h
    split at h <;> cases h
  obtain ⟨t, i, k, r, h1, h2, h3, h4⟩ := step_shape E st hs
  by_cases ha : r.act = .reject
  · rw [(h4 ha).2] at h; cases h
  · have h5 := h3 ha
    rw [h5] at h
    have hact : r.act = .typeEnd ∧ (st.kept ++ s.take k).dropLast.length < 2 := by
      cases hact : r.act <;> rw [hact] at h <;> simp only [run, finish] at h <;> try cases h
      case bracket => cases hp : (feed st (s.take k)).place <;> rw [hp] at h <;> cases h
      case argsEnd => by_cases ho : (feed st (s.take k)).opened - 1 < 0 <;> simp only [ho, if_true, if_false] at h <;> cases h
      case typeEnd =>
        refine ⟨rfl, ?_⟩
        by_contra hl
        rw [stripped, if_pos (by omega)] at h
        cases h
    have hm := List.mem_of_getElem? h2
    have : ∀ C : Cond, (rulesOf C).zipIdx.all (fun p => p.1.act != .typeEnd || (C == .varname && p.2 == 2)) = true := by
      intro C; cases C <;> decide +kernel
    have := all_zip (this st.cond) h2
    simp only [hact.1, bne_self_eq_false, Bool.false_or, Bool.and_eq_true, beq_iff_eq] at this
    obtain ⟨hc, rfl⟩ := this
    rw [hc] at h2
    cases h2
    rw [hc] at h1
    obtain ⟨⟨r', hr', hmc, h0⟩, _⟩ := select_some h1
    cases hr'
    obtain ⟨rfl, hl, m⟩ := (mem_cands_none rfl).1 hmc
    have e := mat_one.1 m
    refine ⟨hc, ?_, ?_⟩
    · cases s with
      | nil => exact absurd rfl hs
      | cons d s =>
        rw [take_head h0] at e
        simp at e
        simp [e.1]
    · have h6 := hact.2
      rw [e, List.dropLast_concat] at h6
      exact h6

/-- C73 (partial): in the conditions for rules, code, arguments and types no byte is left to the default rule of flex, which drops it.  Missing: class
declarations, parameter lists, lexer rules. -/
theorem C73_nothing_lost_partial {st : St} {s : List Nat} (hs : s ≠ []) (hc : st.cond = .initial ∨ st.cond = .code ∨ st.cond = .args ∨ st.cond = .varname) :
    ¬ Uses st s .echo ∧ ¬ (st.cond ≠ .initial ∧ Uses st s .unexpected) ∧ ¬ Uses st s .reject := by
  have single : ∀ a, a.single = true → st.cond ≠ .initial → ¬ Uses st s a := by
    rintro a ha hi ⟨⟨t, i, k⟩, r, h1, h2, rfl⟩
    rcases hc with hc | hc | hc | hc
    · exact hi hc
    · rw [hc] at h1 h2
      rw [code_single hs h1 h2] at ha; cases ha
    · rw [hc] at h1 h2
      have hi6 : i = 6 := by
        match i, h2 with
        | 0, h2 => cases h2; cases ha
        | 1, h2 => cases h2; cases ha
        | 2, h2 => cases h2; cases ha
        | 3, h2 => cases h2; cases ha
        | 4, h2 => cases h2; cases ha
        | 5, h2 => cases h2; cases ha
        | 6, h2 => rfl
      subst hi6
      cases s with
      | nil => exact hs rfl
      | cons c s =>
        by_cases hn : isNl c = true
        · refine not_chosen h1 h2 ha (j := 0) (by omega) (r' := { body := newlineRx, act := .moreNewline }) rfl rfl (mat_newline.2 ?_)
          simp [isNl] at hn
          rcases hn with rfl | rfl <;> simp
        · by_cases h34 : c = 34
          · subst h34
            exact not_chosen h1 h2 ha (j := 2) (by omega) (r' := { body := one 34, act := .more }) rfl rfl (mat_one.2 rfl)
          · by_cases h91 : c = 91
            · subst h91
              exact not_chosen h1 h2 ha (j := 4) (by omega) (r' := { body := one 91, act := .moreOpen }) rfl rfl (mat_one.2 rfl)
            · by_cases h93 : c = 93
              · subst h93
                exact not_chosen h1 h2 ha (j := 5) (by omega) (r' := { body := one 93, act := .argsEnd }) rfl rfl (mat_one.2 rfl)
              · refine not_chosen h1 h2 ha (j := 3) (by omega)
                  (r' := { body := .star (.cls fun c => !(c == 91 || c == 93 || isNl c || c == 34)), act := .more }) rfl rfl (mat_star_cls.2 ?_)
                simp [hn, h34, h91, h93]
    · rw [hc] at h1 h2
      rw [varname_single hs h1 h2] at ha; cases ha
  by_cases hi : st.cond = .initial
  · refine ⟨?_, fun h => h.1 hi, ?_⟩
    · rintro ⟨⟨t, i, k⟩, r, h1, h2, ha⟩
      rw [hi] at h1 h2
      have : (rulesOf .initial).zipIdx.all (fun p => p.1.act != .echo || p.2 == 65) = true := by decide +kernel
      have := all_zip this h2
      simp only [ha, bne_self_eq_false, Bool.false_or, beq_iff_eq] at this
      subst this
      cases s with
      | nil => exact hs rfl
      | cons c s =>
        by_cases h10 : c = 10
        · subst h10
          exact not_chosen h1 h2 (by rw [ha]; rfl) (j := 1) (by omega) (r' := { body := newlineRx, act := .newline }) rfl rfl (mat_newline.2 (by simp))
        · exact not_chosen h1 h2 (by rw [ha]; rfl) (j := 64) (by omega) (r' := { body := dot, act := .unexpected }) rfl rfl (.cls (by simp [h10]))
    · rintro ⟨⟨t, i, k⟩, r, h1, h2, ha⟩
      rw [hi] at h2
      have : (rulesOf .initial).all (fun r => r.act != .reject) = true := by decide +kernel
      have := all_get this h2
      simp [ha] at this
  · exact ⟨single _ rfl hi, fun h => single _ rfl hi h.2, single _ rfl hi⟩

/-- C73 fails: what no rule knows vanishes behind `%parserclass` and in lexer rules: these files give the same tokens. -/
theorem C73_fails_lost :
    (scan {} 40 {} (bytes "%parserclass(constructor!)[:a:]")).map (·.1) = (scan {} 40 {} (bytes "%parserclass(constructor)[:a:]")).map (·.1) ∧
    (scan {} 40 {} (bytes "%lexer->!$a X;;\n;A->s;")).map (·.1) = (scan {} 40 {} (bytes "%lexer->a X;;\n;A->s;")).map (·.1) ∧
    (scan {} 40 {} (bytes "%lexer->a X;;\n;A->s;")).isSome := by
  decide +kernel

/-- C73 fails: in a parameter list such a byte vanishes too, and the rest of the list is read as if it were outside. -/
theorem C73_fails_header : (scan {} 30 {} (bytes "A->s[!member")).map (·.1) =
    some [(.named "T_TERMINAL", bytes "A"), (.named "T_ARROW", []), (.named "T_IDENTIFIER", bytes "s"), (.ch 91, []), (.named "T_IDENTIFIER", bytes "member")] := by
  decide +kernel

end Verif.GLex
