import Verif.GLex.Tokens

/-!
# Arguments of rule calls and types of variables: lemmas
-/

namespace Verif.GLex

/-! ## Arguments -/

theorem argText_drop {c : List Nat} (hc : ArgText c) : ∀ k, (∀ d ∈ c.take k, d ≠ 34 ∧ d ≠ 91 ∧ d ≠ 93) → ArgText (c.drop k) := by
  induction hc with
  | nil => intro k _; simpa using ArgText.nil
  | @plain c t h1 h2 h3 ht ih =>
    intro k h
    cases k with
    | zero => exact .plain h1 h2 h3 ht
    | succ k =>
      simp only [List.drop_succ_cons]
      exact ih k fun d hd => h d (by simp [hd])
  | @str x t hx ht ih =>
    intro k h
    cases k with
    | zero => exact .str hx ht
    | succ k => exact absurd rfl (h 34 (by simp)).1

theorem args_piece {c rest : List Nat} {t i k : Nat} {r : Rule} (hc : ArgText c) (hne : c ≠ []) (h : select (rulesOf .args) (c ++ 93 :: rest) none = some (t, i, k))
    (hr : (rulesOf .args)[i]? = some r) : k ≤ c.length ∧ ArgText (c.drop k) ∧ (r.act = .more ∨ r.act = .moreNewline) := by
  obtain ⟨⟨r', hr', hm, h0⟩, hb⟩ := select_some h
  rw [hr] at hr'; cases hr'
  cases hc with
  | nil => exact absurd rfl hne
  | @plain c0 u h1 h2 h3 hu =>
    have hall : ∀ k, (∀ d ∈ (c0 :: u ++ 93 :: rest).take k, d ≠ 34 ∧ d ≠ 91 ∧ d ≠ 93) → k ≤ (c0 :: u).length ∧ ArgText ((c0 :: u).drop k) := by
      intro k hd
      have hk : k ≤ (c0 :: u).length := take_before fun hx => (hd 93 hx).2.2 rfl
      rw [List.take_append_of_le_length hk] at hd
      exact ⟨hk, argText_drop (.plain h1 h2 h3 hu) k hd⟩
    have hst := starts_cands (s := u ++ 93 :: rest) hm h0
    match i, hr with
    | 0, hr =>
      cases hr
      obtain ⟨rfl, _, m⟩ := (mem_cands_none rfl).1 hm
      have hnl := mat_newline.1 m
      have := hall k (by
        intro d hd
        rcases hnl with e | e | e <;> rw [e] at hd <;> simp at hd
        · rcases hd with rfl | rfl <;> decide
        · subst hd; decide
        · subst hd; decide)
      exact ⟨this.1, this.2, Or.inr rfl⟩
    | 1, hr =>
      cases hr
      simp [Rule.starts, string, Rx.starts, Rx.null, one] at hst
      exact absurd hst h1
    | 2, hr =>
      cases hr
      simp [Rule.starts, Rx.starts, one] at hst
      exact absurd hst h1
    | 3, hr =>
      cases hr
      obtain ⟨rfl, _, m⟩ := (mem_cands_none rfl).1 hm
      have hrun := mat_star_cls.1 m
      have := hall k (by
        intro d hd
        have := hrun d hd
        simp at this
        omega)
      exact ⟨this.1, this.2, Or.inl rfl⟩
    | 4, hr =>
      cases hr
      simp [Rule.starts, Rx.starts, one] at hst
      exact absurd hst h2
    | 5, hr =>
      cases hr
      simp [Rule.starts, Rx.starts, one] at hst
      exact absurd hst h3
    | 6, hr =>
      exfalso
      by_cases hn : isNl c0 = true
      · refine not_chosen (s := u ++ 93 :: rest) h hr (by cases hr; rfl) (j := 0) (by omega) (r' := { body := newlineRx, act := .moreNewline }) rfl rfl (mat_newline.2 ?_)
        simp [isNl] at hn
        rcases hn with rfl | rfl <;> simp
      · refine not_chosen (s := u ++ 93 :: rest) h hr (by cases hr; rfl) (j := 3) (by omega)
          (r' := { body := .star (.cls fun c => !(c == 91 || c == 93 || isNl c || c == 34)), act := .more }) rfl rfl (mat_star_cls.2 ?_)
        simp [hn, h1, h2, h3]
  | @str x u hx hu =>
    have hq : Quoted x := by
      refine ⟨fun d hd => ?_, fun a b e => ?_⟩
      · have := hx d hd
        simp [isNl, this]
      · exact absurd rfl (hx 34 (by rw [e]; simp)).1
    have hx92 : x.getLast? ≠ some 92 := fun hl => (hx 92 (List.mem_of_getLast? hl)).2.1 rfl
    have es : 34 :: x ++ 34 :: u ++ 93 :: rest = 34 :: x ++ 34 :: (u ++ 93 :: rest) := by simp
    rw [es] at hm hb
    obtain ⟨c1, c2⟩ := string_cand (s := u ++ 93 :: rest) hq
    have hge := hb 1 { body := string, act := .more } (x.length + 2) (x.length + 2) rfl ((mem_cands_none rfl).2 ⟨rfl, c1, c2⟩) (by omega)
    have hst := starts_cands (s := x ++ 34 :: (u ++ 93 :: rest)) hm h0
    match i, hr with
    | 0, hr =>
      cases hr
      simp [Rule.starts, newlineRx, word, one, Rx.starts, Rx.null] at hst
    | 1, hr =>
      cases hr
      obtain ⟨rfl, hl, m⟩ := (mem_cands_none rfl).1 hm
      have := string_len hx92 hl m
      have hk : k = x.length + 2 := by omega
      refine ⟨by rw [hk]; simp, ?_, Or.inl rfl⟩
      have e2 : 34 :: x ++ 34 :: u = (34 :: x ++ [34]) ++ u := by simp
      rw [e2, List.drop_left' (by simp [hk])]
      exact hu
    | 2, hr => cases hr; have := len_cls rfl rfl hm; omega
    | 3, hr =>
      cases hr
      simp [Rule.starts, Rx.starts] at hst
    | 4, hr => cases hr; have := len_cls rfl rfl hm; omega
    | 5, hr => cases hr; have := len_cls rfl rfl hm; omega
    | 6, hr => cases hr; have := len_cls rfl rfl hm; omega

theorem args_end {rest : List Nat} : select (rulesOf .args) (93 :: rest) none = some (1, 5, 1) := by
  refine select_best (r := { body := one 93, act := .argsEnd }) rfl ((mem_cands_none rfl).2 ⟨rfl, by simp, mat_one.2 (by simp)⟩) (by omega) ?_
  intro j r' t' k' hr hm h0
  have hj : j ∈ [5, 6] := startIdx_mem hr hm h0
  simp only [List.mem_cons, List.not_mem_nil, or_false] at hj
  rcases hj with rfl | rfl <;> cases hr <;> have := len_cls rfl rfl hm <;> omega

theorem initial_bracket {s : List Nat} (hs : s.head? ≠ some 58) : select (rulesOf .initial) (91 :: s) none = some (1, 58, 1) := by
  refine select_best (r := { body := one 91, act := .bracket }) rfl ((mem_cands_none rfl).2 ⟨rfl, by simp, mat_one.2 (by simp)⟩) (by omega) ?_
  intro j r' t' k' hr hm h0
  have hj : j ∈ [58, 59, 64, 65] := startIdx_mem hr hm h0
  simp only [List.mem_cons, List.not_mem_nil, or_false] at hj
  rcases hj with rfl | rfl | rfl | rfl <;> cases hr
  · have := len_cls rfl rfl hm; omega
  · obtain ⟨_, h2, h3⟩ := len_lit rfl rfl hm
    have hl : bytes "[:" = [91, 58] := rfl
    rw [hl] at h2 h3
    have h2 : t' = 2 := h2
    subst h2
    cases s with
    | nil => simp at h3
    | cons d s => simp at h3; simp [h3] at hs
  · have := len_cls rfl rfl hm; omega
  · have := len_cls rfl rfl hm; omega

/-- Arguments behind the opening bracket. -/
theorem args_loop {E : Env} {rest : List Nat} {st : St} {c : List Nat} (hst : st.cond = .args) (ho : st.opened = 0) (hc : ArgText c) {f : Nat} (hf : c.length < f) :
    ∃ st', lex E f st (c ++ 93 :: rest) = some (.ret (.named "T_RULE_ARGUMENTS") (copyCode E st (st.kept ++ c)) st' rest) ∧ st'.cond = .initial ∧ st'.place = st.place ∧ st'.kept = [] := by
  obtain ⟨m, hm, st1, h1, h2, h3⟩ := more_loop (E := E) (C := .args) (Good := ArgText) (tail := 93 :: rest)
    (fun c t i k r hc hne hsel hr => args_piece hc hne hsel hr) c.length (st := st) (Nat.le_refl _) hst hc
  obtain ⟨g, rfl⟩ : ∃ g, f = m + (g + 1) := ⟨f - m - 1, by omega⟩
  have hst1 : st1.cond = .args := h2.cond.trans hst
  have ho1 : st1.opened = 0 := h2.opened.trans ho
  have hstep := step_ret (E := E) (s := 93 :: rest) (x := copyCode E st (st.kept ++ c)) (tok := .named "T_RULE_ARGUMENTS")
    (st' := { feed st1 [93] with opened := -1, cond := .initial }) (by simp) (by rw [hst1]; exact args_end) (by rw [hst1]; rfl) (by simp) (by
      change (if st1.opened - 1 < 0 then Res.ret _ (copyCode E (feed st1 [93]) (st1.kept ++ [93]).dropLast) { feed st1 [93] with opened := st1.opened - 1, cond := .initial } else _) = _
      rw [if_pos (by omega), List.dropLast_concat, h3, ← copyCode_same h2, ho1]; rfl)
  refine ⟨{ feed st1 [93] with opened := -1, cond := .initial }, ?_, rfl, h2.place, rfl⟩
  rw [h1, lex, hstep]
  rfl

/-! ## Types -/

theorem type_piece {c rest : List Nat} {t i k : Nat} {r : Rule} (hc : ∀ d ∈ c, d ≠ 59) (hne : c ≠ []) (h : select (rulesOf .varname) (c ++ 59 :: rest) none = some (t, i, k))
    (hr : (rulesOf .varname)[i]? = some r) : k ≤ c.length ∧ (∀ d ∈ c.drop k, d ≠ 59) ∧ (r.act = .more ∨ r.act = .moreNewline) := by
  have hsg := varname_single (by simp) h hr
  obtain ⟨⟨r', hr', hm, h0⟩, hb⟩ := select_some h
  rw [hr] at hr'; cases hr'
  have hd : ∀ k, ∀ d ∈ c.drop k, d ≠ 59 := fun k d hd => hc d (List.mem_of_mem_drop hd)
  match i, hr with
  | 0, hr =>
    cases hr
    obtain ⟨rfl, _, m⟩ := (mem_cands_none rfl).1 hm
    have hnl := mat_newline.1 m
    have hno : 59 ∉ (c ++ 59 :: rest).take k := by rcases hnl with e | e | e <;> simp [e]
    exact ⟨take_before hno, hd k, Or.inr rfl⟩
  | 1, hr =>
    cases hr
    obtain ⟨rfl, _, m⟩ := (mem_cands_none rfl).1 hm
    have hrun := mat_star_cls.1 m
    exact ⟨take_before (x := 59) fun hx => by have := hrun 59 hx; simp at this, hd k, Or.inl rfl⟩
  | 2, hr =>
    cases hr
    cases c with
    | nil => exact absurd rfl hne
    | cons c0 c =>
      have hst := starts_cands (s := c ++ 59 :: rest) hm h0
      simp [Rule.starts, Rx.starts, one] at hst
      exact absurd hst (hc c0 (by simp))
  | 3, hr => cases hr; cases hsg
  | 4, hr => cases hr; cases hsg

theorem type_end {rest : List Nat} : select (rulesOf .varname) (59 :: rest) none = some (1, 2, 1) := by
  refine select_best (r := { body := one 59, act := .typeEnd }) rfl ((mem_cands_none rfl).2 ⟨rfl, by simp, mat_one.2 (by simp)⟩) (by omega) ?_
  intro j r' t' k' hr hm h0
  have hj : j ∈ [2, 3, 4] := startIdx_mem hr hm h0
  simp only [List.mem_cons, List.not_mem_nil, or_false] at hj
  rcases hj with rfl | rfl | rfl <;> cases hr <;> have := len_cls rfl rfl hm <;> omega

theorem header_colon {b s : List Nat} (hb : ∀ d ∈ b, isWs d = true) (hs : ∀ d, s.head? = some d → isWs d = false) :
    select (rulesOf .header) (58 :: b ++ s) none = some (b.length + 1, 3, b.length + 1) := by
  have htake : (58 :: b ++ s).take (b.length + 1) = 58 :: b := List.take_left' rfl
  refine select_best (r := { body := .seq (one 58) (.star whitespace), act := .enter .varname (.ch 58) }) rfl
    ((mem_cands_none rfl).2 ⟨rfl, by simp, by rw [htake]; exact mat_seq.2 ⟨[58], b, rfl, mat_one.2 rfl, mat_star_cls.2 hb⟩⟩) (by omega) ?_
  intro j r' t' k' hr hm h0
  have hj : j ∈ [3, 14, 15] := startIdx_mem (s := b ++ s) hr hm h0
  simp only [List.mem_cons, List.not_mem_nil, or_false] at hj
  rcases hj with rfl | rfl | rfl <;> cases hr
  · obtain ⟨rfl, hl, m⟩ := (mem_cands_none rfl).1 hm
    obtain ⟨u, v, e, m1, m2⟩ := mat_seq.1 m
    rw [mat_one] at m1
    subst m1
    have hv := mat_star_cls.1 (show Mat (.star (.cls isWs)) v from m2)
    have : k' ≤ b.length + 1 := by
      cases s with
      | nil => simpa using hl
      | cons d s =>
        by_contra hlt
        have hd := hs d rfl
        have hmem : d ∈ (58 :: b ++ d :: s).take k' := by
          by_contra hno
          have := take_before hno
          simp at this
          omega
        rw [e] at hmem
        rcases List.mem_append.1 hmem with h | h
        · simp at h
          subst h
          have e' : (b ++ 58 :: s).take (k' - 1) = v := by
            have : (58 :: b ++ 58 :: s).take k' = 58 :: (b ++ 58 :: s).take (k' - 1) := by
              rw [List.cons_append, take_head h0]
            rw [this] at e
            simpa using e
          have : 58 ∈ v := by
            rw [← e']
            by_contra hno
            have := take_before hno
            omega
          have := hv 58 this
          cases this
        · rw [hv d h] at hd; cases hd
    omega
  · have := len_cls rfl rfl hm; omega
  · have := len_cls rfl rfl hm; omega

/-- A type up to its semicolon: not stripped, or undefined behaviour. -/
theorem type_loop {E : Env} {rest : List Nat} {st : St} {c : List Nat} (hst : st.cond = .varname) (hc : ∀ d ∈ c, d ≠ 59) {f : Nat} (hf : c.length < f) :
    (2 ≤ (st.kept ++ c).length → ∃ st', lex E f st (c ++ 59 :: rest) = some (.ret (.named "T_IDENTIFIER") (st.kept ++ c) st' rest) ∧ st'.cond = .header) ∧
    ((st.kept ++ c).length < 2 → lex E f st (c ++ 59 :: rest) = some .undefined) := by
  obtain ⟨m, hm, st1, h1, h2, h3⟩ := more_loop (E := E) (C := .varname) (Good := fun c => ∀ d ∈ c, d ≠ 59) (tail := 59 :: rest)
    (fun c t i k r hc hne hsel hr => type_piece hc hne hsel hr) c.length (st := st) (Nat.le_refl _) hst hc
  obtain ⟨g, rfl⟩ : ∃ g, f = m + (g + 1) := ⟨f - m - 1, by omega⟩
  have hst1 : st1.cond = .varname := h2.cond.trans hst
  have hdl : (st1.kept ++ [59]).dropLast = st.kept ++ c := by rw [List.dropLast_concat, h3]
  constructor
  · intro hl
    have hstep := step_ret (E := E) (s := 59 :: rest) (x := st.kept ++ c) (tok := .named "T_IDENTIFIER")
      (st' := { feed st1 [59] with cond := .header }) (by simp) (by rw [hst1]; exact type_end) (by rw [hst1]; rfl) (by simp) (by
        change (match stripped (st1.kept ++ [59]).dropLast with | none => Res.undefined | some t => _) = _
        rw [hdl, stripped, if_pos hl]; rfl)
    refine ⟨{ feed st1 [59] with cond := .header }, ?_, rfl⟩
    rw [h1, lex, hstep]
    rfl
  · intro hl
    rw [h1, lex]
    obtain ⟨t', i', k', r', s1, s2, s3, _⟩ := step_shape E st1 (s := 59 :: rest) (by simp)
    have s1' := s1
    rw [hst1, type_end] at s1'
    cases s1'
    rw [hst1] at s2
    cases s2
    rw [s3 (by simp)]
    change (match finish (match stripped (st1.kept ++ [59]).dropLast with | none => Res.undefined | some t => _) _ with | .go st s => _ | r => some r) = _
    rw [hdl, stripped, if_neg (by omega)]
    rfl

end Verif.GLex
