import Verif.GLex.Code

/-!
# Single tokens: lemmas
-/

namespace Verif.GLex

theorem len_cls {r : Rule} {p : Nat → Bool} (hb : r.body = .cls p) (ht : r.trail = none) {s : List Nat} {t k : Nat} (h : (t, k) ∈ r.cands s) :
    t = 1 ∧ k = 1 := by
  obtain ⟨rfl, hl, m⟩ := (mem_cands_none ht).1 h
  rw [hb] at m
  obtain ⟨d, hd, _⟩ := mat_cls.1 m
  have := congrArg List.length hd
  rw [List.length_take, Nat.min_eq_left hl, List.length_singleton] at this
  exact ⟨this, this⟩

theorem len_lit {r : Rule} {w : String} (hb : r.body = lit w) (ht : r.trail = none) {s : List Nat} {t k : Nat} (h : (t, k) ∈ r.cands s) :
    k = t ∧ t = (bytes w).length ∧ s.take t = bytes w := by
  obtain ⟨rfl, hl, m⟩ := (mem_cands_none ht).1 h
  rw [hb] at m
  have e := mat_lit.1 m
  have := congrArg List.length e
  rw [List.length_take, Nat.min_eq_left hl] at this
  exact ⟨rfl, this, e⟩

/-- The scanner reads `[:`. -/
theorem initial_code {s : List Nat} : select (rulesOf .initial) (91 :: 58 :: s) none = some (2, 59, 2) := by
  refine select_best (r := { body := lit "[:", act := .codeStart }) rfl ((mem_cands_none rfl).2 ⟨rfl, by simp, mat_lit.2 (by simp; rfl)⟩) (by omega) ?_
  intro j r' t' k' hr hm h0
  have hj : j ∈ [58, 59, 64, 65] := startIdx_mem hr hm h0
  simp only [List.mem_cons, List.not_mem_nil, or_false] at hj
  rcases hj with rfl | rfl | rfl | rfl <;> cases hr
  · have := len_cls rfl rfl hm; omega
  · have := len_lit rfl rfl hm
    have h2 : (bytes "[:").length = 2 := rfl
    omega
  · have := len_cls rfl rfl hm; omega
  · have := len_cls rfl rfl hm; omega

theorem lexer_code {s : List Nat} : select (rulesOf .lexer) (91 :: 58 :: s) none = some (2, 26, 2) := by
  refine select_best (r := { body := lit "[:", act := .codeStart }) rfl ((mem_cands_none rfl).2 ⟨rfl, by simp, mat_lit.2 (by simp; rfl)⟩) (by omega) ?_
  intro j r' t' k' hr hm h0
  have hj : j ∈ [5, 26, 32] := startIdx_mem hr hm h0
  simp only [List.mem_cons, List.not_mem_nil, or_false] at hj
  rcases hj with rfl | rfl | rfl <;> cases hr
  · have := len_cls rfl rfl hm; omega
  · have := len_lit rfl rfl hm
    have h2 : (bytes "[:").length = 2 := rfl
    omega
  · have := len_cls rfl rfl hm; omega

/-- The state in which the code is read. -/
def codeState (st : St) : St := { feed st [91, 58] with firstLine := st.line, firstColumn := (if st.endOfLine then [] else st.buf).length + 2, cond := .code }

theorem code_start {E : Env} {st : St} {s : List Nat} (hc : st.cond = .initial ∨ st.cond = .lexer) : step E st (91 :: 58 :: s) = .go (codeState st) s := by
  rcases hc with hc | hc
  · exact step_go (E := E) (s := 91 :: 58 :: s) (i := 59) (k := 2) (by simp) (by rw [hc]; exact initial_code) (by rw [hc]; rfl) (by simp) rfl
  · exact step_go (E := E) (s := 91 :: 58 :: s) (i := 26) (k := 2) (by simp) (by rw [hc]; exact lexer_code) (by rw [hc]; rfl) (by simp) rfl

/-! ## Strings -/

/-- The inside of `{String}`. -/
def strBody : Rx := .star (.alt (.cls fun c => !isNl c && c != 34) (.seq (one 92) (.cls fun c => !isNl c)))

/-- No line end; each quote has a backslash before it. -/
def Quoted (y : List Nat) : Prop := (∀ c ∈ y, isNl c = false) ∧ ∀ a b, y = a ++ 34 :: b → a.getLast? = some 92

theorem quoted_cons {u v : List Nat} (hu : Quoted u) (hv : Quoted v) : Quoted (u ++ v) := by
  refine ⟨fun c hc => ?_, fun a b e => ?_⟩
  · rcases List.mem_append.1 hc with h | h
    · exact hu.1 c h
    · exact hv.1 c h
  · rcases List.append_eq_append_iff.1 e.symm with ⟨x, h1, h2⟩ | ⟨x, h1, h2⟩
    · cases x with
      | nil =>
        rw [List.nil_append] at h2
        exact absurd (hv.2 [] b h2.symm) (by simp)
      | cons y x =>
        simp at h2
        exact hu.2 a x (by rw [h1, h2.1])
    · have := hv.2 x b h2
      rw [h1, getLast?_append' (by rintro rfl; simp at this)]
      exact this

theorem mat_strBody {y : List Nat} : Mat strBody y ↔ Quoted y := by
  constructor
  · intro h
    generalize hr : strBody = r at h
    induction h with
    | eps => cases hr
    | cls _ => cases hr
    | seq _ _ => cases hr
    | altL _ => cases hr
    | altR _ => cases hr
    | nil => exact ⟨by simp, fun a b e => by simp at e⟩
    | @more a' u v hu hv _ ih =>
      cases hr
      refine quoted_cons ?_ (ih rfl)
      rcases mat_alt.1 hu with h | h
      · obtain ⟨c, rfl, hc⟩ := mat_cls.1 h
        simp at hc
        refine ⟨by simp [hc.1], fun a b e => ?_⟩
        cases a with
        | nil => simp at e; exact absurd e.1 hc.2
        | cons x a => simp at e
      · obtain ⟨w, z, rfl, h1, h2⟩ := mat_seq.1 h
        rw [mat_one] at h1
        subst h1
        obtain ⟨c, rfl, hc⟩ := mat_cls.1 h2
        simp at hc
        have h92 : isNl 92 = false := rfl
        refine ⟨by simp [hc, h92], fun a b e => ?_⟩
        match a with
        | [] => simp at e
        | [x] => simp at e; simp [e.1]
        | x :: z :: a => simp at e
  · intro h
    generalize hn : y.length = n
    induction n using Nat.strongRecOn generalizing y with
    | ind n ih =>
      have hsuf : ∀ u v, y = u ++ v → u ≠ [] → (u.getLast? ≠ some 92 ∨ v.head? ≠ some 34) → Quoted v := by
        intro u v e hu hl
        refine ⟨fun c hc => h.1 c (by rw [e]; simp [hc]), fun a b e2 => ?_⟩
        have := h.2 (u ++ a) b (by rw [e, e2, List.append_assoc])
        cases a with
        | nil =>
          rcases hl with hl | hl
          · rw [List.append_nil] at this; exact absurd this hl
          · rw [e2] at hl; simp at hl
        | cons x a => rw [getLast?_append' (by simp)] at this; exact this
      match y, hn with
      | [], _ => exact .nil
      | c :: y, hn =>
        have hc := h.1 c (by simp)
        have hc34 : c ≠ 34 := fun e => by have := h.2 [] y (by rw [e]; rfl); simp at this
        by_cases h2 : c = 92 ∧ y.head? = some 34
        · obtain ⟨rfl, h2⟩ := h2
          cases y with
          | nil => simp at h2
          | cons d y =>
            simp at h2; subst h2
            have : 92 :: 34 :: y = [92, 34] ++ y := rfl
            rw [this]
            refine .more (.altR (mat_seq.2 ⟨[92], [34], rfl, mat_one.2 rfl, .cls (by simp [isNl])⟩)) (ih y.length ?_ (hsuf [92, 34] y rfl (by simp) (Or.inl (by simp))) rfl)
            simp at hn; omega
        · have : c :: y = [c] ++ y := rfl
          rw [this]
          refine .more (.altL (.cls (by simp [hc, hc34]))) (ih y.length ?_ (hsuf [c] y rfl (by simp) ?_) rfl)
          · simp at hn; omega
          · by_cases hcc : c = 92
            · exact Or.inr fun hh => h2 ⟨hcc, hh⟩
            · exact Or.inl (by simp [hcc])

theorem mat_string {w : List Nat} : Mat string w ↔ ∃ y, w = 34 :: y ++ [34] ∧ Quoted y := by
  have : string = .seq (one 34) (.seq strBody (one 34)) := rfl
  rw [this]
  constructor
  · intro h
    obtain ⟨u, v, rfl, h1, h2⟩ := mat_seq.1 h
    obtain ⟨y, z, rfl, h3, h4⟩ := mat_seq.1 h2
    rw [mat_one] at h1 h4
    subst h1; subst h4
    exact ⟨y, rfl, mat_strBody.1 h3⟩
  · rintro ⟨y, rfl, h⟩
    exact mat_seq.2 ⟨[34], y ++ [34], rfl, mat_one.2 rfl, mat_seq.2 ⟨y, [34], rfl, mat_strBody.2 h, mat_one.2 rfl⟩⟩

/-- The length of a literal whose closing quote has no backslash before it. -/
theorem string_len {x s : List Nat} (hx : x.getLast? ≠ some 92) {t : Nat} (ht : t ≤ (34 :: x ++ 34 :: s).length) (h : Mat string ((34 :: x ++ 34 :: s).take t)) :
    t ≤ x.length + 2 := by
  obtain ⟨y, e, hy⟩ := mat_string.1 h
  by_contra hlt
  have hty : t = y.length + 2 := by
    have := congrArg List.length e
    rw [List.length_take, Nat.min_eq_left ht] at this
    simp at this; omega
  -- the quote behind `x` is inside `y`
  have e2 : (34 :: x ++ 34 :: s) = 34 :: (y ++ [34] ++ (34 :: x ++ 34 :: s).drop t) := by
    have := List.take_append_drop t (34 :: x ++ 34 :: s)
    rw [e] at this
    simpa using this.symm
  have e3 : x ++ 34 :: s = y ++ ([34] ++ (34 :: x ++ 34 :: s).drop t) := by simpa using e2
  have e4 : ∃ b, y = x ++ 34 :: b := by
    rcases List.append_eq_append_iff.1 e3 with ⟨z, h1, h2⟩ | ⟨z, h1, h2⟩
    · cases z with
      | nil => simp at h1; subst h1; omega
      | cons c z =>
        simp at h2
        exact ⟨z, by rw [h1, ← h2.1]⟩
    · have := congrArg List.length h1
      simp at this; omega
  obtain ⟨b, e4⟩ := e4
  exact hx (hy.2 x b e4)

theorem string_cand {x s : List Nat} (hq : Quoted x) : x.length + 2 ≤ (34 :: x ++ 34 :: s).length ∧ Mat string ((34 :: x ++ 34 :: s).take (x.length + 2)) := by
  refine ⟨by simp, ?_⟩
  have : (34 :: x ++ 34 :: s) = (34 :: x ++ [34]) ++ s := by simp
  rw [this, List.take_left' (by simp)]
  exact mat_string.2 ⟨x, rfl, hq⟩

theorem initial_string {x s : List Nat} (hq : Quoted x) (hx : x.getLast? ≠ some 92) :
    select (rulesOf .initial) (34 :: x ++ 34 :: s) none = some (x.length + 2, 63, x.length + 2) := by
  obtain ⟨c1, c2⟩ := string_cand (s := s) hq
  refine select_best (r := { body := string, act := .inner "T_STRING" }) rfl ((mem_cands_none rfl).2 ⟨rfl, c1, c2⟩) (by omega) ?_
  intro j r' t' k' hr hm h0
  have hj : j ∈ [63, 64, 65] := startIdx_mem hr hm h0
  simp only [List.mem_cons, List.not_mem_nil, or_false] at hj
  rcases hj with rfl | rfl | rfl <;> cases hr
  · obtain ⟨rfl, hl, m⟩ := (mem_cands_none rfl).1 hm
    have := string_len hx hl m
    omega
  · have := len_cls rfl rfl hm; omega
  · have := len_cls rfl rfl hm; omega

theorem lexer_string {x s : List Nat} (hq : Quoted x) (hx : x.getLast? ≠ some 92) :
    select (rulesOf .lexer) (34 :: x ++ 34 :: s) none = some (x.length + 2, 31, x.length + 2) := by
  obtain ⟨c1, c2⟩ := string_cand (s := s) hq
  refine select_best (r := { body := string, act := .inner "T_STRING" }) rfl ((mem_cands_none rfl).2 ⟨rfl, c1, c2⟩) (by omega) ?_
  intro j r' t' k' hr hm h0
  have hj : j ∈ [31, 32] := startIdx_mem hr hm h0
  simp only [List.mem_cons, List.not_mem_nil, or_false] at hj
  rcases hj with rfl | rfl <;> cases hr
  · obtain ⟨rfl, hl, m⟩ := (mem_cands_none rfl).1 hm
    have := string_len hx hl m
    omega
  · have := len_cls rfl rfl hm; omega

/-! ## Names -/

/-- The rules that match a text which starts with a letter or an underscore. -/
theorem word_rules : ∀ c, isAlpha c = true → (startIdx .initial c).all (fun j => [22, 23, 24, 60, 61, 64, 65].contains j) = true := by
  intro c hc
  have hlt : c < 128 := by
    simp [isAlpha, isUpper, isLower] at hc
    omega
  have : ∀ c < 128, isAlpha c = true → (startIdx .initial c).all (fun j => [22, 23, 24, 60, 61, 64, 65].contains j) = true := by decide +kernel
  exact this c hlt hc

/-- How the scanner should read a name. -/
def wordRule (w : List Nat) : Nat := if w = bytes "catch" then 24 else if w.all isCap then 60 else 61

theorem try_word {c : Nat} {w s tl : List Nat} {n : Nat} (hc : isWord c = true) (hw : ∀ d ∈ w, isWord d = true) (hs : ∀ d, s.head? = some d → isWord d = false)
    (h : (c :: w ++ s).take (n + 3) = bytes "try" ++ 47 :: tl) : c :: w = bytes "try" ∧ s.take n = 47 :: tl := by
  have hb3 : (bytes "try").length = 3 := rfl
  have h47 : 47 ∉ c :: w := by
    intro h
    rcases List.mem_cons.1 h with h | h
    · subst h; cases hc
    · have := hw _ h; cases this
  have e := List.take_append_drop (n + 3) (c :: w ++ s)
  rw [h, List.append_assoc] at e
  have hw3 : w.length = 2 := by
    rcases List.append_eq_append_iff.1 e.symm with ⟨z, h1, h2⟩ | ⟨z, h1, h2⟩
    · cases z with
      | nil =>
        have := congrArg List.length h1
        simp [hb3] at this; omega
      | cons y z =>
        have hy := hs y (by rw [h2]; rfl)
        have : y ∈ bytes "try" := by rw [h1]; simp
        have hall : ∀ y ∈ bytes "try", isWord y = true := by decide +kernel
        rw [hall y this] at hy; cases hy
    · cases z with
      | nil =>
        have := congrArg List.length h1
        simp [hb3] at this; omega
      | cons y z =>
        simp at h2
        exact absurd (by rw [h1, ← h2.1]; simp) h47
  have hl : (c :: w).length = (bytes "try").length := by simp [hb3, hw3]
  have e1 := (List.append_inj e.symm hl).1
  refine ⟨e1, ?_⟩
  rw [e1, Nat.add_comm, ← hb3, List.take_length_add_append] at h
  exact List.append_cancel_left h

theorem initial_word {c : Nat} {w s : List Nat} (hc : isAlpha c = true) (hw : ∀ d ∈ w, isWord d = true) (hs : ∀ d, s.head? = some d → isWord d = false)
    (htry : ¬ (c :: w = bytes "try" ∧ (s.take 8 = bytes "/recover" ∨ s.take 9 = bytes "/rollback"))) :
    select (rulesOf .initial) (c :: w ++ s) none = some (w.length + 1, wordRule (c :: w), w.length + 1) := by
  have htake : (c :: w ++ s).take (w.length + 1) = c :: w := List.take_left' rfl
  have hlen : w.length + 1 ≤ (c :: w ++ s).length := by simp
  have hcw : isWord c = true := by simp [isWord, hc]
  have hident : Mat (.seq (.cls isAlpha) (.star (.cls isWord))) (c :: w) := mat_seq.2 ⟨[c], w, rfl, .cls hc, mat_star_cls.2 hw⟩
  -- a match of word characters ends with the name
  have hmax : ∀ k, k ≤ (c :: w ++ s).length → (∀ d ∈ (c :: w ++ s).take k, isWord d = true) → k ≤ w.length + 1 := by
    intro k hk hall
    cases s with
    | nil => simpa using hk
    | cons d s =>
      by_contra hlt
      have hd := hs d rfl
      have : d ∈ (c :: w ++ d :: s).take k := by
        by_contra hno
        have := take_before hno
        simp at this
        omega
      rw [hall d this] at hd
      cases hd
  have hcap : ∀ d, isCap d = true → isWord d = true := by
    intro d hd
    simp [isCap] at hd
    simp only [isWord, isAlpha, Bool.or_eq_true, beq_iff_eq]
    rcases hd with h | h
    · simp [h]
    · simp [h]
  have hb : ∀ j r' t' k', (rulesOf .initial)[j]? = some r' → (t', k') ∈ r'.cands (c :: w ++ s) → 0 < t' →
      t' < w.length + 1 ∨ t' = w.length + 1 ∧ (wordRule (c :: w) < j ∨ wordRule (c :: w) = j ∧ k' ≤ w.length + 1) := by
    intro j r' t' k' hr hm h0
    have hj := startIdx_mem (C := .initial) (s := w ++ s) hr hm h0
    have hj := List.all_eq_true.1 (word_rules c hc) j hj
    simp only [List.contains_iff_mem, List.mem_cons, List.not_mem_nil, or_false] at hj
    have h61 : wordRule (c :: w) ≤ 61 := by unfold wordRule; split <;> (try split) <;> omega
    rcases hj with rfl | rfl | rfl | rfl | rfl | rfl | rfl <;> cases hr
    · obtain ⟨_, h2, h3⟩ := len_lit rfl rfl hm
      have hl : (bytes "try/recover").length = 11 := rfl
      rw [hl] at h2; subst h2
      obtain ⟨e1, e2⟩ := try_word (tl := bytes "recover") (n := 8) hcw hw hs h3
      exact absurd ⟨e1, Or.inl e2⟩ htry
    · obtain ⟨_, h2, h3⟩ := len_lit rfl rfl hm
      have hl : (bytes "try/rollback").length = 12 := rfl
      rw [hl] at h2; subst h2
      obtain ⟨e1, e2⟩ := try_word (tl := bytes "rollback") (n := 9) hcw hw hs h3
      exact absurd ⟨e1, Or.inr e2⟩ htry
    · obtain ⟨h1, h2, h3⟩ := len_lit rfl rfl hm
      have hle := hmax t' (cands_le hm).2 (by
        rw [h3]; decide +kernel)
      by_cases hlt : t' < w.length + 1
      · exact Or.inl hlt
      · have ht : t' = w.length + 1 := by omega
        rw [ht, htake] at h3
        have : wordRule (c :: w) = 24 := by unfold wordRule; rw [if_pos h3]
        omega
    · obtain ⟨h1, h2, m⟩ := (mem_cands_none rfl).1 hm
      have hall := (mat_plus_cls.1 m).2
      have hle := hmax t' h2 fun d hd => hcap d (hall d hd)
      by_cases hlt : t' < w.length + 1
      · exact Or.inl hlt
      · have ht : t' = w.length + 1 := by omega
        rw [ht, htake] at hall
        have : wordRule (c :: w) ≤ 60 := by
          unfold wordRule
          split
          · omega
          · rw [if_pos (List.all_eq_true.2 hall)]; omega
        omega
    · obtain ⟨h1, h2, m⟩ := (mem_cands_none rfl).1 hm
      obtain ⟨u, v, e, m1, m2⟩ := mat_seq.1 m
      obtain ⟨d, rfl, hd⟩ := mat_cls.1 m1
      have hv := mat_star_cls.1 m2
      have hle := hmax t' h2 (by
        rw [e]
        intro x hx
        rcases List.mem_append.1 hx with hx | hx
        · simp at hx; subst hx; simp [isWord, hd]
        · exact hv x hx)
      omega
    · have := len_cls rfl rfl hm; omega
    · have := len_cls rfl rfl hm; omega
  unfold wordRule at hb ⊢
  by_cases h1 : c :: w = bytes "catch"
  · rw [if_pos h1] at hb ⊢
    exact select_best (r := { body := lit "catch", act := .ret (.named "T_CATCH") }) rfl
      ((mem_cands_none rfl).2 ⟨rfl, hlen, by rw [htake]; exact mat_lit.2 h1⟩) (by omega) hb
  · rw [if_neg h1] at hb ⊢
    by_cases h2 : (c :: w).all isCap = true
    · rw [if_pos h2] at hb ⊢
      exact select_best (r := { body := plus (.cls isCap), act := .text "T_TERMINAL" }) rfl
        ((mem_cands_none rfl).2 ⟨rfl, hlen, by rw [htake]; exact mat_plus_cls.2 ⟨by simp, List.all_eq_true.1 h2⟩⟩) (by omega) hb
    · rw [if_neg h2] at hb ⊢
      exact select_best (r := { body := .seq (.cls isAlpha) (.star (.cls isWord)), act := .text "T_IDENTIFIER" }) rfl
        ((mem_cands_none rfl).2 ⟨rfl, hlen, by rw [htake]; exact hident⟩) (by omega) hb

end Verif.GLex
