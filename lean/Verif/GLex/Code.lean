import Verif.GLex.Position

/-!
# Code blocks and arguments: lemmas
-/

namespace Verif.GLex

theorem step_go {E : Env} {st st' : St} {s : List Nat} {t i k : Nat} {r : Rule} (hs : s ≠ []) (h : select (rulesOf st.cond) s none = some (t, i, k))
    (hr : (rulesOf st.cond)[i]? = some r) (ha : r.act ≠ .reject) (hrun : run E (st.kept ++ s.take k) (feed st (s.take k)) r.act = .go st') :
    step E st s = .go st' (s.drop k) := by
  obtain ⟨t', i', k', r', h1, h2, h3, _⟩ := step_shape E st hs
  rw [h] at h1; cases h1
  rw [hr] at h2; cases h2
  rw [h3 ha, hrun]; rfl

theorem step_ret {E : Env} {st st' : St} {s x : List Nat} {tok : Tok} {t i k : Nat} {r : Rule} (hs : s ≠ []) (h : select (rulesOf st.cond) s none = some (t, i, k))
    (hr : (rulesOf st.cond)[i]? = some r) (ha : r.act ≠ .reject) (hrun : run E (st.kept ++ s.take k) (feed st (s.take k)) r.act = .ret tok x st') :
    step E st s = .ret tok x st' (s.drop k) := by
  obtain ⟨t', i', k', r', h1, h2, h3, _⟩ := step_shape E st hs
  rw [h] at h1; cases h1
  rw [hr] at h2; cases h2
  rw [h3 ha, hrun]; rfl

/-- A piece without `x` ends before `x`. -/
theorem take_before {c rest : List Nat} {x k : Nat} (h : x ∉ (c ++ x :: rest).take k) : k ≤ c.length := by
  by_contra hk
  apply h
  rw [List.mem_take_iff_getElem]
  exact ⟨c.length, by simp; omega, by simp⟩

theorem drop_getLast {c : List Nat} {k : Nat} (h : c.drop k ≠ []) : (c.drop k).getLast? = c.getLast? := by
  have := getLast?_append' (a := c.take k) h
  rw [List.take_append_drop] at this
  exact this.symm

theorem codeText_drop {c : List Nat} {k : Nat} (hc : CodeText c) 
    (hl : (c.take k).getLast? ≠ some 58 ∨ (c.drop k).head? ≠ some 58) : CodeText (c.drop k) := by
  refine ⟨fun h => ?_, fun a b e => ?_⟩
  · have hn : c.drop k ≠ [] := fun e => by rw [e] at h; simp at h
    rw [drop_getLast hn] at h
    exact hc.1 h
  · have h := hc.2 (c.take k ++ a) b (by rw [List.append_assoc, ← e, List.take_append_drop])
    cases a with
    | nil =>
      rcases hl with hl | hl
      · rw [List.append_nil] at h; exact absurd h hl
      · rw [e] at hl; simp at hl
    | cons x a => rw [getLast?_append' (by simp)] at h; exact h

theorem code_single {s : List Nat} {t i k : Nat} {r : Rule} (hs : s ≠ []) (h : select (rulesOf .code) s none = some (t, i, k))
    (hr : (rulesOf .code)[i]? = some r) : r.act.single = false := by
  by_contra ha
  simp only [Bool.not_eq_false] at ha
  cases s with
  | nil => exact absurd rfl hs
  | cons c s =>
    have hi : 3 < i := by
      match i, hr with
      | 0, hr => cases hr; cases ha
      | 1, hr => cases hr; cases ha
      | 2, hr => cases hr; cases ha
      | 3, hr => cases hr; cases ha
      | i + 4, _ => omega
    by_cases h1 : c = 58
    · subst h1
      refine not_chosen h hr ha (j := 2) (by omega) (r' := { body := .seq (plus (one 58)) (.star (.cls fun c => !(c == 58 || c == 93 || isNl c))), act := .more }) rfl rfl
        (mat_seq.2 ⟨[58], [], rfl, ?_, .nil⟩)
      exact mat_plus_cls.2 (by simp)
    · by_cases h2 : isNl c = true
      · refine not_chosen h hr ha (j := 0) (by omega) (r' := { body := newlineRx, act := .moreNewline }) rfl rfl (mat_newline.2 ?_)
        simp [isNl] at h2
        rcases h2 with rfl | rfl <;> simp
      · refine not_chosen h hr ha (j := 1) (by omega) (r' := { body := .star (.cls fun c => !(c == 58 || isNl c)), act := .more }) rfl rfl
          (mat_star_cls.2 ?_)
        simp [h1, h2]

/-- One step inside a code block. -/
theorem code_piece {c rest : List Nat} {t i k : Nat} {r : Rule} (hc : CodeText c) (hne : c ≠ []) (h : select (rulesOf .code) (c ++ 58 :: 93 :: rest) none = some (t, i, k))
    (hr : (rulesOf .code)[i]? = some r) : k ≤ c.length ∧ CodeText (c.drop k) ∧ (r.act = .more ∨ r.act = .moreNewline) := by
  have hs : c ++ 58 :: 93 :: rest ≠ [] := by simp
  have hsg := code_single hs h hr
  obtain ⟨⟨r', hr', hm, h0⟩, hb⟩ := select_some h
  rw [hr] at hr'; cases hr'
  have htk : ∀ k, k ≤ c.length → (c ++ 58 :: 93 :: rest).take k = c.take k := fun k hk => List.take_append_of_le_length hk
  match i, hr with
  | 0, hr =>
    cases hr
    obtain ⟨rfl, _, m⟩ := (mem_cands_none rfl).1 hm
    have hnl := mat_newline.1 m
    have hno : 58 ∉ (c ++ 58 :: 93 :: rest).take k := by rcases hnl with e | e | e <;> simp [e]
    have hk : k ≤ c.length := take_before hno
    rw [htk k hk] at hnl
    refine ⟨hk, codeText_drop hc (Or.inl ?_), Or.inr rfl⟩
    rcases hnl with e | e | e <;> rw [e] <;> simp
  | 1, hr =>
    cases hr
    obtain ⟨rfl, _, m⟩ := (mem_cands_none rfl).1 hm
    have hall := mat_star_cls.1 m
    have hk : k ≤ c.length := take_before (x := 58) fun hx => by have := hall 58 hx; simp at this
    refine ⟨hk, codeText_drop hc (Or.inl fun hl => ?_), Or.inl rfl⟩
    rw [htk k hk] at hall
    have := hall 58 (List.mem_of_getLast? hl)
    simp at this
  | 2, hr =>
    cases hr
    obtain ⟨rfl, hkl, m⟩ := (mem_cands_none rfl).1 hm
    obtain ⟨u, v, e, m1, m2⟩ := mat_seq.1 m
    obtain ⟨hu, hcol⟩ := mat_plus_cls.1 (show Mat (plus (.cls (· == 58))) _ from m1)
    have hrun := mat_star_cls.1 m2
    have hk : k ≤ c.length := by
      by_contra hk
      have e' : c ++ (58 :: 93 :: rest).take (k - c.length) = u ++ v := by
        rw [← e, List.take_append, List.take_of_length_le (l := c) (by omega)]
      have hk1 : 0 < k - c.length := by omega
      rw [take_head hk1] at e'
      have : c.length < u.length := by
        by_contra hlt
        have hv : v = c.drop u.length ++ 58 :: (93 :: rest).take (k - c.length - 1) := by
          have := congrArg (List.drop u.length) e'
          rw [List.drop_left' rfl, List.drop_append_of_le_length (by omega)] at this
          exact this.symm
        have := hrun 58 (by rw [hv]; simp)
        simp at this
      have hcu : c = u.take c.length := by
        have := congrArg (List.take c.length) e'
        rw [List.take_left' rfl, List.take_append_of_le_length (by omega)] at this
        exact this
      cases hcl : c.getLast? with
      | none => exact hne (List.getLast?_eq_none_iff.1 hcl)
      | some x =>
        have hx : x ∈ c := List.mem_of_getLast? hcl
        rw [hcu] at hx
        have := hcol x (List.mem_of_mem_take hx)
        simp at this
        subst this
        exact hc.1 hcl
    refine ⟨hk, codeText_drop hc ?_, Or.inl rfl⟩
    rw [htk k hk] at e
    by_cases hv : v = []
    · right
      subst hv
      rw [List.append_nil] at e
      intro hd
      obtain ⟨d, hd⟩ : ∃ d, c.drop k = 58 :: d := by
        cases hx : c.drop k with
        | nil => rw [hx] at hd; simp at hd
        | cons y d => rw [hx] at hd; simp at hd; exact ⟨d, by rw [hd]⟩
      have hcs : c = u ++ 58 :: d := by rw [← e, ← hd, List.take_append_drop]
      have hul : u.length = k := by rw [← e, List.length_take]; omega
      have := hb 2 _ (k + 1) (k + 1) rfl ((mem_cands_none rfl).2 ⟨rfl, by rw [hcs]; simp; omega, by
        have : (c ++ 58 :: 93 :: rest).take (k + 1) = u ++ [58] := by
          have e2 : c ++ 58 :: 93 :: rest = (u ++ [58]) ++ (d ++ 58 :: 93 :: rest) := by rw [hcs]; simp
          rw [e2, List.take_left' (by simp; omega)]
        rw [this]
        have hp : Mat (plus (.cls (· == 58))) (u ++ [58]) := mat_plus_cls.2 ⟨by simp, fun x hx => by
          rcases List.mem_append.1 hx with hx | hx
          · exact hcol x hx
          · simpa using hx⟩
        exact mat_seq.2 ⟨u ++ [58], [], (List.append_nil _).symm, hp, .nil⟩⟩) (by omega)
      omega
    · left
      rw [e, getLast?_append' hv]
      intro hl
      have := hrun 58 (List.mem_of_getLast? hl)
      simp at this
  | 3, hr =>
    cases hr
    obtain ⟨rfl, hkl, m⟩ := (mem_cands_none rfl).1 hm
    have e := mat_lit.1 m
    have e : (c ++ 58 :: 93 :: rest).take k = [58, 93] := e
    have hk2 : k = 2 := by
      have := congrArg List.length e
      rw [List.length_take, Nat.min_eq_left hkl] at this
      exact this
    subst hk2
    clear hm hb h m
    rcases c with _ | ⟨x, _ | ⟨y, c⟩⟩
    · exact absurd rfl hne
    · simp at e
    · simp at e
      have := hc.2 [] c (by rw [e.1, e.2]; rfl)
      simp at this
  | 4, hr => cases hr; cases hsg

/-- What the pieces of a text joined by `yymore` leave as it is. -/
structure Same (st st' : St) : Prop where
  cond : st'.cond = st.cond
  place : st'.place = st.place
  opened : st'.opened = st.opened
  firstLine : st'.firstLine = st.firstLine
  firstColumn : st'.firstColumn = st.firstColumn

theorem Same.trans {a b c : St} (h : Same a b) (h' : Same b c) : Same a c :=
  ⟨h'.cond.trans h.cond, h'.place.trans h.place, h'.opened.trans h.opened, h'.firstLine.trans h.firstLine, h'.firstColumn.trans h.firstColumn⟩

theorem copyCode_same {E : Env} {st st' : St} (h : Same st st') (c : List Nat) : copyCode E st' c = copyCode E st c := by
  simp [copyCode, h.firstLine, h.firstColumn]

/-- Pieces that are joined by `yymore`. -/
theorem more_loop {E : Env} {C : Cond} {Good : List Nat → Prop} {tail : List Nat}
    (hp : ∀ c t i k r, Good c → c ≠ [] → select (rulesOf C) (c ++ tail) none = some (t, i, k) → (rulesOf C)[i]? = some r →
      k ≤ c.length ∧ Good (c.drop k) ∧ (r.act = .more ∨ r.act = .moreNewline)) :
    ∀ (n : Nat) {st : St} {c : List Nat}, c.length ≤ n → st.cond = C → Good c →
      ∃ m, m ≤ c.length ∧ ∃ st', (∀ f, lex E (m + f) st (c ++ tail) = lex E f st' tail) ∧ Same st st' ∧ st'.kept = st.kept ++ c := by
  intro n
  induction n with
  | zero =>
    intro st c hn _ _
    have : c = [] := List.length_eq_zero_iff.1 (by omega)
    subst this
    exact ⟨0, by simp, st, fun f => by simp, ⟨rfl, rfl, rfl, rfl, rfl⟩, by simp⟩
  | succ n ih =>
    intro st c hn hst hc
    by_cases hne : c = []
    · subst hne
      exact ih (by simp) hst hc
    · have hs : c ++ tail ≠ [] := by simp [hne]
      obtain ⟨t, i, k, hsel⟩ := select_exists st.cond hs
      obtain ⟨r, hr, _, hk0, _⟩ := chosen hsel
      have hsel' := hsel
      have hr' := hr
      rw [hst] at hsel' hr'
      obtain ⟨hk, hc', hact⟩ := hp c t i k r hc hne hsel' hr'
      have htake : (c ++ tail).take k = c.take k := List.take_append_of_le_length hk
      have hdrop : (c ++ tail).drop k = c.drop k ++ tail := List.drop_append_of_le_length hk
      have hlen : (c.drop k).length + k = c.length := by rw [List.length_drop]; omega
      have fin : ∀ st1, step E st (c ++ tail) = .go st1 (c.drop k ++ tail) → Same st st1 → st1.kept = st.kept ++ c.take k →
          ∃ m, m ≤ c.length ∧ ∃ st', (∀ f, lex E (m + f) st (c ++ tail) = lex E f st' tail) ∧ Same st st' ∧ st'.kept = st.kept ++ c := by
        intro st1 hstep hsame hkept
        obtain ⟨m, hm, st', h1, h2, h3⟩ := ih (st := st1) (c := c.drop k) (by omega) (hsame.cond.trans hst) hc'
        refine ⟨m + 1, by omega, st', fun f => ?_, hsame.trans h2, by rw [h3, hkept, List.append_assoc, List.take_append_drop]⟩
        rw [Nat.add_right_comm, lex, hstep]
        exact h1 f
      rcases hact with ha | ha
      · have hstep := step_go (E := E) hs hsel hr (by rw [ha]; simp) (by rw [ha]; rfl)
        rw [htake, hdrop] at hstep
        exact fin _ hstep ⟨rfl, rfl, rfl, rfl, rfl⟩ rfl
      · have hstep := step_go (E := E) hs hsel hr (by rw [ha]; simp) (by rw [ha]; rfl)
        rw [htake, hdrop] at hstep
        exact fin _ hstep ⟨rfl, rfl, rfl, rfl, rfl⟩ rfl

theorem code_end {rest : List Nat} : select (rulesOf .code) (58 :: 93 :: rest) none = some (2, 3, 2) := by
  refine select_best (r := { body := lit ":]", act := .codeEnd }) rfl ((mem_cands_none rfl).2 ⟨rfl, by simp, mat_lit.2 (by simp; rfl)⟩) (by omega) ?_
  intro j r' t' k' hr' hm' h0'
  match j, hr' with
  | 0, hr =>
    cases hr
    obtain ⟨rfl, hl, m⟩ := (mem_cands_none rfl).1 hm'
    have := mat_newline.1 m
    rw [take_head h0'] at this
    simp at this
  | 1, hr =>
    cases hr
    obtain ⟨rfl, hl, m⟩ := (mem_cands_none rfl).1 hm'
    have := mat_star_cls.1 m
    rw [take_head h0'] at this
    simp at this
  | 2, hr =>
    cases hr
    obtain ⟨rfl, hl, m⟩ := (mem_cands_none rfl).1 hm'
    by_contra hge
    obtain ⟨u, v, e, m1, m2⟩ := mat_seq.1 m
    obtain ⟨hu, hcol⟩ := mat_plus_cls.1 (show Mat (plus (.cls (· == 58))) _ from m1)
    have hrun := mat_star_cls.1 m2
    match k', h0', hge with
    | 1, _, hge => omega
    | k + 2, _, _ =>
      simp only [List.take_succ_cons] at e
      have h93 : 93 ∈ u ++ v := by rw [← e]; simp
      rcases List.mem_append.1 h93 with h | h
      · have := hcol _ h; simp at this
      · have := hrun _ h; simp at this
  | 3, hr =>
    cases hr
    obtain ⟨rfl, hl, m⟩ := (mem_cands_none rfl).1 hm'
    have := congrArg List.length (mat_lit.1 m)
    rw [List.length_take, Nat.min_eq_left hl] at this
    have h2 : (bytes ":]").length = 2 := rfl
    omega
  | 4, hr =>
    cases hr
    obtain ⟨rfl, hl, m⟩ := (mem_cands_none rfl).1 hm'
    obtain ⟨d, hd, _⟩ := mat_cls.1 m
    have := congrArg List.length hd
    rw [List.length_take, Nat.min_eq_left hl, List.length_singleton] at this
    omega

/-- The whole block. -/
theorem code_loop {E : Env} {rest : List Nat} {st : St} {c : List Nat} (hst : st.cond = .code) (hc : CodeText c) {f : Nat} (hf : c.length < f) :
    ∃ st', lex E f st (c ++ 58 :: 93 :: rest) = some (.ret (.named "T_CODE") (copyCode E st (st.kept ++ c)) st' rest) ∧
      st'.cond = (if st.place = .lexer then .lexer else .initial) ∧ st'.place = st.place ∧ st'.kept = [] := by
  obtain ⟨m, hm, st1, h1, h2, h3⟩ := more_loop (E := E) (C := .code) (Good := CodeText) (tail := 58 :: 93 :: rest)
    (fun c t i k r hc hne hsel hr => code_piece hc hne hsel hr) c.length (st := st) (Nat.le_refl _) hst hc
  obtain ⟨g, rfl⟩ : ∃ g, f = m + (g + 1) := ⟨f - m - 1, by omega⟩
  have hst1 : st1.cond = .code := h2.cond.trans hst
  have hlen : ((st1.kept ++ [58, 93]).take ((st1.kept ++ [58, 93]).length - 2)) = st1.kept := by simp
  have hstep := step_ret (E := E) (s := 58 :: 93 :: rest) (x := copyCode E st (st.kept ++ c)) (tok := .named "T_CODE")
    (st' := { feed st1 [58, 93] with cond := if st1.place = .lexer then .lexer else .initial }) (by simp) (by rw [hst1]; exact code_end) (by rw [hst1]; rfl) (by simp) (by
      change Res.ret _ (copyCode E (feed st1 [58, 93]) ((st1.kept ++ [58, 93]).take ((st1.kept ++ [58, 93]).length - 2))) _ = _
      rw [hlen, h3, ← copyCode_same h2]; rfl)
  refine ⟨{ feed st1 [58, 93] with cond := if st1.place = .lexer then .lexer else .initial }, ?_, by rw [h2.place], h2.place, rfl⟩
  rw [h1, lex, hstep]
  rfl

end Verif.GLex
