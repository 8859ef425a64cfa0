import Verif.GLex.TokenProps
import Verif.Syntax.Print

/-!
# The scanner reads the printed text as the tokens of the item
-/

namespace Verif.Syntax

open GLex (St Env Rule step rulesOf select bytes isWs isWord)

/-! ## Single characters, blanks, numbers -/

/-- A character that is a token and begins no longer one. -/
theorem select_char {c k : Nat} {s : List Nat} {a : GLex.Act} (hr : (rulesOf .initial)[k]? = some { body := GLex.one c, act := a })
    (hi : GLex.startIdx .initial c = [k, 64, 65]) (hk : k < 64) : select (rulesOf .initial) (c :: s) none = some (1, k, 1) := by
  refine GLex.select_best hr ((GLex.mem_cands_none rfl).2 ⟨rfl, by simp, GLex.mat_one.2 (by simp)⟩) (by omega) ?_
  intro j r' t' k' hr' hm h0
  have hj : j ∈ [k, 64, 65] := hi ▸ GLex.startIdx_mem hr' hm h0
  simp only [List.mem_cons, List.not_mem_nil, or_false] at hj
  rcases hj with rfl | rfl | rfl
  · rw [hr] at hr'; cases hr'
    have := GLex.len_cls rfl rfl hm; omega
  · cases hr'; have := GLex.len_cls rfl rfl hm; omega
  · cases hr'; have := GLex.len_cls rfl rfl hm; omega

/-- A run of characters of one kind. -/
theorem run_max {p : Nat → Bool} {b s : List Nat} {t : Nat} (hs : ∀ d, s.head? = some d → p d = false) (hl : t ≤ (b ++ s).length)
    (h : ∀ d ∈ (b ++ s).take t, p d = true) : t ≤ b.length := by
  cases s with
  | nil => simpa using hl
  | cons d s =>
    have hd := hs d rfl
    have : d ∉ (b ++ d :: s).take t := fun hm => by rw [h d hm] at hd; cases hd
    exact GLex.take_before this

theorem select_blanks {c : Nat} {b s : List Nat} (hc : isWs c = true) (hb : ∀ d ∈ b, isWs d = true) (hs : ∀ d, s.head? = some d → isWs d = false) :
    select (rulesOf .initial) (c :: b ++ s) none = some (b.length + 1, 0, b.length + 1) := by
  have htake : (c :: b ++ s).take (b.length + 1) = c :: b := List.take_left' rfl
  have hall : ∀ d ∈ c :: b, isWs d = true := by
    intro d hd
    rcases List.mem_cons.1 hd with rfl | hd
    · exact hc
    · exact hb d hd
  refine GLex.select_best (r := { body := .star GLex.whitespace, act := .skip }) rfl
    ((GLex.mem_cands_none rfl).2 ⟨rfl, by simp, by rw [htake]; exact GLex.mat_star_cls.2 hall⟩) (by omega) ?_
  intro j r' t' k' hr' hm h0
  have hj := GLex.startIdx_mem (C := .initial) (s := b ++ s) hr' hm h0
  have hi : GLex.startIdx .initial c = [0, 64, 65] := by
    simp only [isWs, Bool.or_eq_true, beq_iff_eq] at hc
    rcases hc with (rfl | rfl) | rfl <;> decide +kernel
  rw [hi] at hj
  simp only [List.mem_cons, List.not_mem_nil, or_false] at hj
  rcases hj with rfl | rfl | rfl <;> cases hr'
  · obtain ⟨h1, h2, m⟩ := (GLex.mem_cands_none rfl).1 hm
    have := run_max (b := c :: b) hs h2 (GLex.mat_star_cls.1 m)
    simp only [List.length_cons] at this
    omega
  · have := GLex.len_cls rfl rfl hm; omega
  · have := GLex.len_cls rfl rfl hm; omega

theorem select_semi {s : List Nat} (hs : s.head? ≠ some 59) : select (rulesOf .initial) (59 :: s) none = some (1, 3, 1) := by
  refine GLex.select_best (r := { body := GLex.plus (GLex.one 59), act := .place .body (.ch 59) }) rfl
    ((GLex.mem_cands_none rfl).2 ⟨rfl, by simp, GLex.mat_plus_cls.2 ⟨by simp, by simp⟩⟩) (by omega) ?_
  intro j r' t' k' hr' hm h0
  have hj : j ∈ GLex.startIdx .initial 59 := GLex.startIdx_mem hr' hm h0
  have hi : GLex.startIdx .initial 59 = [3, 64, 65] := by decide +kernel
  rw [hi] at hj
  simp only [List.mem_cons, List.not_mem_nil, or_false] at hj
  rcases hj with rfl | rfl | rfl <;> cases hr'
  · obtain ⟨h1, h2, m⟩ := (GLex.mem_cands_none rfl).1 hm
    have := run_max (b := [59]) (s := s) (p := (· == 59)) (fun d hd => by
      simp only [beq_eq_false_iff_ne]; rintro rfl; exact hs hd) h2 (GLex.mat_plus_cls.1 m).2
    simp only [List.length_singleton] at this
    omega
  · have := GLex.len_cls rfl rfl hm; omega
  · have := GLex.len_cls rfl rfl hm; omega

theorem select_zero {s : List Nat} (hs : ∀ d, s.head? = some d → GLex.isDigit d = false) : select (rulesOf .initial) (48 :: s) none = some (1, 11, 1) := by
  refine GLex.select_best (r := GLex.ch '0') rfl ((GLex.mem_cands_none rfl).2 ⟨rfl, by simp, GLex.mat_one.2 (by simp)⟩) (by omega) ?_
  intro j r' t' k' hr' hm h0
  have hj : j ∈ GLex.startIdx .initial 48 := GLex.startIdx_mem hr' hm h0
  have hi : GLex.startIdx .initial 48 = [11, 62, 64, 65] := by decide +kernel
  rw [hi] at hj
  simp only [List.mem_cons, List.not_mem_nil, or_false] at hj
  rcases hj with rfl | rfl | rfl | rfl <;> cases hr'
  · have := GLex.len_cls rfl rfl hm; omega
  · obtain ⟨h1, h2, m⟩ := (GLex.mem_cands_none rfl).1 hm
    have := run_max (b := [48]) (s := s) hs h2 (GLex.mat_plus_cls.1 m).2
    simp only [List.length_singleton] at this
    omega
  · have := GLex.len_cls rfl rfl hm; omega
  · have := GLex.len_cls rfl rfl hm; omega

theorem select_arrow {s : List Nat} : select (rulesOf .initial) (45 :: 62 :: s) none = some (2, 4, 2) := by
  refine GLex.select_best (r := { body := GLex.lit "->", act := .arrow }) rfl ((GLex.mem_cands_none rfl).2 ⟨rfl, by simp, GLex.mat_lit.2 (by simp; rfl)⟩) (by omega) ?_
  intro j r' t' k' hr' hm h0
  have hj : j ∈ GLex.startIdx .initial 45 := GLex.startIdx_mem hr' hm h0
  have hi : GLex.startIdx .initial 45 = [2, 4, 64, 65] := by decide +kernel
  rw [hi] at hj
  simp only [List.mem_cons, List.not_mem_nil, or_false] at hj
  rcases hj with rfl | rfl | rfl | rfl <;> cases hr'
  · obtain ⟨h1, h2, m⟩ := (GLex.mem_cands_none rfl).1 hm
    obtain ⟨u, v, e, m1, m2⟩ := GLex.mat_seq.1 m
    have hu : u = [45, 45] := GLex.mat_lit.1 m1
    subst hu
    match t' with
    | 1 => simp at e
    | n + 2 => simp at e
  · obtain ⟨h1, h2, _⟩ := GLex.len_lit rfl rfl hm
    have h2 : t' = 2 := h2
    omega
  · have := GLex.len_cls rfl rfl hm; omega
  · have := GLex.len_cls rfl rfl hm; omega

theorem not_word_slash {u v : List Nat} {t : Nat} (h : ∀ d ∈ (u ++ 47 :: v).take t, isWord d = true) : t ≤ u.length :=
  GLex.take_before (x := 47) (rest := v) fun hm => by have := h _ hm; cases this

theorem capWord {d : Nat} (hd : GLex.isCap d = true) : isWord d = true := by
  simp [GLex.isCap] at hd
  simp only [isWord, GLex.isAlpha, Bool.or_eq_true, beq_iff_eq]
  rcases hd with h | h <;> simp [h]

/-- `try/recover` and `try/rollback`. -/
theorem select_try {w : String} {k n : Nat} {s : List Nat} {t : List Nat} {a : GLex.Act} (hk : k = 22 ∨ k = 23) (hw : bytes w = bytes "try" ++ 47 :: t) (hn : (bytes w).length = n)
    (h22 : k = 22 → n = 11) (h23 : k = 23 → n = 12)
    (hr : (rulesOf .initial)[k]? = some { body := GLex.lit w, act := a })
    (hx : ∀ w' : String, (w' = "try/recover" ∨ w' = "try/rollback") → (bytes w ++ s).take (bytes w').length = bytes w' → (bytes w').length = n) :
    select (rulesOf .initial) (bytes w ++ s) none = some (n, k, n) := by
  have hn4 : 4 ≤ n := by rw [← hn, hw, List.length_append]; have : (bytes "try").length = 3 := rfl; simp only [List.length_cons]; omega
  refine GLex.select_best hr ((GLex.mem_cands_none rfl).2 ⟨rfl, by rw [List.length_append]; omega, GLex.mat_lit.2 (by rw [← hn]; exact List.take_left' rfl)⟩) (by omega) ?_
  intro j r' t' k' hr' hm h0
  have hbt : bytes "try" = [116, 114, 121] := rfl
  have e : bytes w ++ s = 116 :: ([114, 121] ++ 47 :: (t ++ s)) := by rw [hw, hbt]; simp
  have hj : j ∈ GLex.startIdx .initial 116 := GLex.startIdx_mem (s := [114, 121] ++ 47 :: (t ++ s)) hr' (e ▸ hm) h0
  have hi : GLex.startIdx .initial 116 = [22, 23, 61, 64, 65] := by decide +kernel
  rw [hi] at hj
  simp only [List.mem_cons, List.not_mem_nil, or_false] at hj
  rcases hj with rfl | rfl | rfl | rfl | rfl <;> cases hr'
  · obtain ⟨h1, h2, h3⟩ := GLex.len_lit rfl rfl hm
    have := hx _ (Or.inl rfl) (h2 ▸ h3)
    have h11 : (bytes "try/recover").length = 11 := rfl
    have : k = 22 := by rcases hk with h | h; exact h; have := h23 h; omega
    omega
  · obtain ⟨h1, h2, h3⟩ := GLex.len_lit rfl rfl hm
    have := hx _ (Or.inr rfl) (h2 ▸ h3)
    have h12 : (bytes "try/rollback").length = 12 := rfl
    have : k = 23 := by rcases hk with h | h; have := h22 h; omega; exact h
    omega
  · obtain ⟨h1, h2, m⟩ := (GLex.mem_cands_none rfl).1 hm
    obtain ⟨u, v, e', m1, m2⟩ := GLex.mat_seq.1 m
    obtain ⟨d, rfl, hd⟩ := GLex.mat_cls.1 m1
    have hv := GLex.mat_star_cls.1 m2
    have := not_word_slash (u := bytes "try") (v := t ++ s) (t := t') (by
      have e2 : bytes w ++ s = bytes "try" ++ 47 :: (t ++ s) := by rw [hw]; simp
      rw [← e2, e']
      intro x hx
      rcases List.mem_append.1 hx with hx | hx
      · simp at hx; subst hx; simp [isWord, hd]
      · exact hv x hx)
    have h3 : (bytes "try").length = 3 := rfl
    omega
  · have := GLex.len_cls rfl rfl hm; omega
  · have := GLex.len_cls rfl rfl hm; omega

theorem select_recover {s : List Nat} : select (rulesOf .initial) (bytes "try/recover" ++ s) none = some (11, 22, 11) := by
  refine select_try (w := "try/recover") (t := bytes "recover") (Or.inl rfl) rfl rfl (fun _ => rfl) (by omega) rfl ?_
  rintro w' (rfl | rfl) h
  · rfl
  · have := congrArg (·[5]?) h
    have e : ((bytes "try/recover" ++ s).take (bytes "try/rollback").length)[5]? = some 101 := rfl
    have e' : (bytes "try/rollback")[5]? = some 111 := rfl
    rw [e, e'] at this; cases this

theorem select_rollback {s : List Nat} : select (rulesOf .initial) (bytes "try/rollback" ++ s) none = some (12, 23, 12) := by
  refine select_try (w := "try/rollback") (t := bytes "rollback") (Or.inr rfl) rfl rfl (by omega) (fun _ => rfl) rfl ?_
  rintro w' (rfl | rfl) h
  · have := congrArg (·[5]?) h
    have e : ((bytes "try/rollback" ++ s).take (bytes "try/recover").length)[5]? = some 111 := rfl
    have e' : (bytes "try/recover")[5]? = some 101 := rfl
    rw [e, e'] at this; cases this
  · rfl

/-! ## Runs of the scanner -/

/-- Between rules and within them: no code, arguments, or lexer. -/
def Ready (st : St) : Prop := st.cond = .initial ∧ st.kept = [] ∧ st.place ≠ .lexer

/-- The scanner gets from one state to another and returns tokens meanwhile. -/
inductive Run (E : Env) : St → List Nat → List (GLex.Tok × List Nat) → St → List Nat → Prop
  | nil {st s} : Run E st s [] st s
  | go {st s st1 s1 xs st' s'} : step E st s = .go st1 s1 → Run E st1 s1 xs st' s' → Run E st s xs st' s'
  | ret {st s t x st1 s1 xs st' s'} : step E st s = .ret t x st1 s1 → Run E st1 s1 xs st' s' → Run E st s ((t, x) :: xs) st' s'

theorem Run.trans {E : Env} {st st1 st2 : St} {s s1 s2 : List Nat} {xs ys} (h : Run E st s xs st1 s1) (h' : Run E st1 s1 ys st2 s2) : Run E st s (xs ++ ys) st2 s2 := by
  induction h with
  | nil => exact h'
  | go e _ ih => exact .go e (ih h')
  | ret e _ ih => exact .ret e (ih h')

def strip (s : List Nat) : List Nat := s.dropWhile isWs

theorem strip_self {s : List Nat} (h : ∀ d, s.head? = some d → isWs d = false) : strip s = s := by
  cases s with
  | nil => rfl
  | cons c s => simp [strip, h c rfl]

theorem strip_head {s : List Nat} : ∀ d, (strip s).head? = some d → isWs d = false := by
  intro d hd
  have := List.head?_dropWhile_not isWs s
  unfold strip at hd
  rw [hd] at this
  simpa using this

theorem skip_blanks {E : Env} {st : St} (h : Ready st) (s : List Nat) : ∃ st', Run E st s [] st' (strip s) ∧ Ready st' := by
  have e : s.takeWhile isWs ++ strip s = s := List.takeWhile_append_dropWhile
  cases hb : s.takeWhile isWs with
  | nil =>
    rw [hb] at e
    exact ⟨st, by rw [show strip s = s from e]; exact .nil, h⟩
  | cons c b =>
    rw [hb] at e
    have hall : ∀ d ∈ c :: b, isWs d = true := fun d hd => by
      rw [← hb] at hd
      have := List.all_takeWhile (p := isWs) (l := s)
      exact List.all_eq_true.1 this d hd
    have hsel := select_blanks (b := b) (s := strip s) (hall c (List.mem_cons_self)) (fun d hd => hall d (List.mem_cons_of_mem _ hd)) strip_head
    refine ⟨GLex.feed st (c :: b), .go ?_ .nil, h.1, rfl, h.2.2⟩
    have := GLex.step_go (E := E) (st := st) (s := c :: b ++ strip s) (st' := GLex.feed st (c :: b)) (by simp) (by rw [h.1]; exact hsel)
      (r := { body := .star GLex.whitespace, act := .skip }) (by rw [h.1]; rfl) (by simp) (by
        rw [show (c :: b ++ strip s).take (b.length + 1) = c :: b from List.take_left' rfl]; rfl)
    rw [show (c :: b ++ strip s).drop (b.length + 1) = strip s from List.drop_left' rfl, e] at this
    exact this

/-- The scanner reads `t` as the tokens `ts`, if what comes behind meets `C`; blanks before and behind are passed over. -/
def Lexes (C : List Nat → Prop) (t : List Nat) (ts : List Tok) : Prop :=
  ∀ (E : Env) (st : St) (rest : List Nat), Ready st → C rest →
    ∃ st' xs, Run E st (strip (t ++ rest)) xs st' (strip rest) ∧ Ready st' ∧ xs.map ofLex = ts.map some

theorem Lexes.append {C C' : List Nat → Prop} {t u : List Nat} {ts us : List Tok} (h : Lexes C t ts) (h' : Lexes C' u us) (hc : ∀ rest, C' rest → C (u ++ rest)) :
    Lexes C' (t ++ u) (ts ++ us) := by
  intro E st rest hr hC
  obtain ⟨st1, xs, r1, k1, m1⟩ := h E st (u ++ rest) hr (hc rest hC)
  obtain ⟨st2, ys, r2, k2, m2⟩ := h' E st1 rest k1 hC
  refine ⟨st2, xs ++ ys, ?_, k2, by simp [m1, m2]⟩
  rw [List.append_assoc]
  exact r1.trans r2

theorem Lexes.nil {C : List Nat → Prop} : Lexes C [] [] := fun _ st _ h _ => ⟨st, [], .nil, h, rfl⟩

theorem Lexes.blank {C : List Nat → Prop} : Lexes C (bytes " ") [] := fun _ st rest h _ =>
  ⟨st, [], by rw [show strip (bytes " " ++ rest) = strip rest from rfl]; exact .nil, h, rfl⟩

/-- One token. -/
theorem Lexes.one {C : List Nat → Prop} {t : List Nat} {tok : Tok} (hne : ∀ rest d, (t ++ rest).head? = some d → isWs d = false)
    (h : ∀ (E : Env) (st : St) (rest : List Nat), Ready st → C rest → ∃ st' a x, step E st (t ++ rest) = .ret a x st' rest ∧ Ready st' ∧ ofLex (a, x) = some tok) : Lexes C t [tok] := by
  intro E st rest hr hC
  obtain ⟨st', a, x, e, k, m⟩ := h E st rest hr hC
  obtain ⟨st2, r, k2⟩ := skip_blanks (E := E) k rest
  refine ⟨st2, [(a, x)], ?_, k2, by simp [m]⟩
  rw [strip_self (hne rest)]
  exact .ret e r

/-- Nothing that could continue a name. -/
def Stop (s : List Nat) : Prop := ∀ d, s.head? = some d → isWord d = false ∧ d ≠ 47

def Any (_ : List Nat) : Prop := True

theorem lexes_char {c k : Nat} {tok : Tok} (hr : (rulesOf .initial)[k]? = some { body := GLex.one c, act := .ret (.ch c) })
    (hi : GLex.startIdx .initial c = [k, 64, 65]) (hk : k < 64) (hc : isWs c = false) (ht : ofLex (.ch c, []) = some tok) : Lexes Any [c] [tok] := by
  refine .one (fun rest d hd => by simp at hd; subst hd; exact hc) fun E st rest h _ => ⟨GLex.feed st [c], .ch c, [], ?_, ⟨h.1, rfl, h.2.2⟩, ht⟩
  exact GLex.step_ret (s := c :: rest) (by simp) (by rw [h.1]; exact select_char hr hi hk) (by rw [h.1]; exact hr) (by simp) rfl

theorem lexes_lp : Lexes Any (bytes "(") [.lp] := lexes_char (c := 40) (k := 6) rfl (by decide +kernel) (by decide) rfl rfl
theorem lexes_rp : Lexes Any (bytes ")") [.rp] := lexes_char (c := 41) (k := 7) rfl (by decide +kernel) (by decide) rfl rfl
theorem lexes_hash : Lexes Any (bytes "#") [.hash] := lexes_char (c := 35) (k := 12) rfl (by decide +kernel) (by decide) rfl rfl
theorem lexes_colon : Lexes Any (bytes ":") [.colon] := lexes_char (c := 58) (k := 14) rfl (by decide +kernel) (by decide) rfl rfl
theorem lexes_eq : Lexes Any (bytes "=") [.eq] := lexes_char (c := 61) (k := 15) rfl (by decide +kernel) (by decide) rfl rfl
theorem lexes_plus : Lexes Any (bytes "+") [.plus] := lexes_char (c := 43) (k := 16) rfl (by decide +kernel) (by decide) rfl rfl
theorem lexes_star : Lexes Any (bytes "*") [.star] := lexes_char (c := 42) (k := 17) rfl (by decide +kernel) (by decide) rfl rfl
theorem lexes_bar : Lexes Any (bytes "|") [.bar] := lexes_char (c := 124) (k := 20) rfl (by decide +kernel) (by decide) rfl rfl

theorem lexes_zero : Lexes Stop (bytes "0") [.zero] := by
  refine .one (fun rest d hd => by cases hd; rfl) fun E st rest h hC => ⟨GLex.feed st [48], .ch 48, [], ?_, ⟨h.1, rfl, h.2.2⟩, rfl⟩
  have hd : ∀ d, rest.head? = some d → GLex.isDigit d = false := fun d hd => by
    have := (hC d hd).1
    simp only [isWord, Bool.or_eq_false_iff] at this
    exact this.2
  exact GLex.step_ret (s := 48 :: rest) (by simp) (by rw [h.1]; exact select_zero hd) (r := GLex.ch '0') (by rw [h.1]; rfl) (by simp [GLex.ch]) rfl

theorem lexes_semi : Lexes (· = []) (bytes ";") [.semi] := by
  refine .one (fun rest d hd => by cases hd; rfl) fun E st rest h hC => ⟨{ GLex.feed st [59] with place := .body }, .ch 59, [], ?_, ⟨h.1, rfl, by simp⟩, rfl⟩
  subst hC
  exact GLex.step_ret (s := [59]) (by simp) (by rw [h.1]; exact select_semi (by simp)) (r := { body := GLex.plus (GLex.one 59), act := .place .body (.ch 59) }) (by rw [h.1]; rfl) (by simp) rfl

theorem lexes_arrow : Lexes Any (bytes "->") [.arrow] := by
  refine .one (fun rest d hd => by cases hd; rfl) fun E st rest h _ => ⟨{ GLex.feed st (bytes "->") with place := .footer }, .named "T_ARROW", [], ?_, ⟨h.1, rfl, by simp⟩, rfl⟩
  refine GLex.step_ret (s := 45 :: 62 :: rest) (by simp) (by rw [h.1]; exact select_arrow) (r := { body := GLex.lit "->", act := .arrow }) (by rw [h.1]; rfl) (by simp) ?_
  have : (GLex.feed st (bytes "->")).place ≠ .lexer := h.2.2
  exact congrArg _ (if_neg this)

theorem lexes_recover : Lexes Any (bytes "try/recover") [.recover] := by
  refine .one (fun rest d hd => by cases hd; rfl) fun E st rest h _ => ⟨GLex.feed st (bytes "try/recover"), .named "T_TRY_RECOVER", [], ?_, ⟨h.1, rfl, h.2.2⟩, by decide +kernel⟩
  exact GLex.step_ret (s := bytes "try/recover" ++ rest) (List.cons_ne_nil _ _) (by rw [h.1]; exact select_recover) (r := GLex.key "try/recover" "T_TRY_RECOVER") (by rw [h.1]; rfl) (by simp [GLex.key]) rfl

theorem lexes_rollback : Lexes Any (bytes "try/rollback") [.rollback] := by
  refine .one (fun rest d hd => by cases hd; rfl) fun E st rest h _ => ⟨GLex.feed st (bytes "try/rollback"), .named "T_TRY_ROLLBACK", [], ?_, ⟨h.1, rfl, h.2.2⟩, by decide +kernel⟩
  exact GLex.step_ret (s := bytes "try/rollback" ++ rest) (List.cons_ne_nil _ _) (by rw [h.1]; exact select_rollback) (r := GLex.key "try/rollback" "T_TRY_ROLLBACK") (by rw [h.1]; rfl) (by simp [GLex.key]) rfl

theorem letter_ws {c : Nat} (h : GLex.Letter c) : isWs c = false := by
  simp only [GLex.Letter] at h
  simp only [isWs, Bool.or_eq_false_iff, beq_eq_false_iff_ne]
  omega

theorem isWord_iff {d : Nat} : isWord d = true ↔ GLex.LetterOrDigit d := by
  simp [isWord, GLex.isAlpha, GLex.isDigit, GLex.isUpper, GLex.isLower, GLex.LetterOrDigit, GLex.Letter]
  omega

theorem lexes_word {c : Nat} {w : List Nat} {tok : Tok} (hc : GLex.Letter c) (hw : ∀ d ∈ w, GLex.LetterOrDigit d) (ht : ofLex (GLex.wordToken (c :: w)) = some tok) : Lexes Stop (c :: w) [tok] := by
  refine .one (fun rest d hd => by simp at hd; subst hd; exact letter_ws hc) fun E st rest h hC => ?_
  obtain ⟨st', e, h1, h2⟩ := GLex.C71_word (E := E) (s := rest) h.1 h.2.1 hc hw (fun d hd hl => by
      have := (hC d hd).1
      rw [isWord_iff.2 hl] at this; cases this) (by
    rintro ⟨_, h | h⟩
    · cases rest with
      | nil => cases h
      | cons d r => exact (hC d rfl).2 (by injection h)
    · cases rest with
      | nil => cases h
      | cons d r => exact (hC d rfl).2 (by injection h))
  have hk : st'.kept = [] := by
    have := GLex.kept_moves (GLex.next_moves (Or.inr ⟨_, _, e⟩))
    exact GLex.kept_nil this (by rw [h1]; rfl)
  exact ⟨st', _, _, e, ⟨h1, hk, h2 ▸ h.2.2⟩, ht⟩

theorem lexes_ident {n : Name} (h : IsIdent n) : Lexes Stop n [.ident n] := by
  obtain ⟨c, w, rfl, h1, h2, h3⟩ := h
  exact lexes_word h1 h2 (by rw [h3]; rfl)

theorem lexes_term {n : Name} (h : IsTerm n) : Lexes Stop n [.term n] := by
  obtain ⟨c, w, rfl, h1, h2, h3⟩ := h
  exact lexes_word h1 h2 (by rw [h3]; rfl)

theorem lexes_catch : Lexes Stop (bytes "catch") [.catch_] :=
  lexes_word (c := 99) (w := [97, 116, 99, 104]) (by simp [GLex.Letter]) (by
    intro d hd
    exact isWord_iff.1 (by revert d; decide)) (by decide +kernel)

/-! ## Whole files -/

theorem lex_mono {E : Env} : ∀ {n m : Nat} {st : St} {s : List Nat} {r : GLex.Step}, n ≤ m → GLex.lex E n st s = some r → GLex.lex E m st s = some r
  | 0, _, _, _, _, _, h => by simp [GLex.lex] at h
  | n + 1, 0, _, _, _, hl, _ => by omega
  | n + 1, m + 1, st, s, r, hl, h => by
    rw [GLex.lex] at h ⊢
    cases hs : step E st s with
    | go st' s' => rw [hs] at h; exact lex_mono (by omega) h
    | _ => rw [hs] at h; exact h

theorem scan_go {E : Env} {st st' : St} {s s' : List Nat} {n : Nat} (h : step E st s = .go st' s') {r} (hr : GLex.scan E n st' s' = some r) : GLex.scan E n st s = some r := by
  cases n with
  | zero => simp [GLex.scan] at hr
  | succ n =>
    have hl := GLex.next_shorter (Or.inl h)
    obtain ⟨x, hx⟩ := GLex.C73_yylex_terminates E s' st'
    have hy : GLex.lex E (s.length + 1) st s = some x := by
      rw [GLex.lex, h]
      exact lex_mono (by omega) hx
    rw [GLex.scan] at hr ⊢
    rw [hy, ← hx]
    exact hr

theorem scan_run {E : Env} {st st' : St} {s s' : List Nat} {xs} (h : Run E st s xs st' s') : s' = [] → st'.cond = .initial → ∀ n, s.length < n → GLex.scan E n st s = some (xs, .eof st') := by
  induction h with
  | @nil st1 s1 =>
    rintro rfl hc n hn
    cases n with
    | zero => omega
    | succ n =>
      have : GLex.lex E (([] : List Nat).length + 1) st1 [] = some (.eof st1) := by
        rw [GLex.lex, GLex.step]
        simp [hc]
      rw [GLex.scan, this]
  | go e _ ih =>
    intro h1 h2 n hn
    have hl := GLex.next_shorter (Or.inl e)
    exact scan_go e (ih h1 h2 n (by omega))
  | @ret st1 s1 t x st2 s2 xs st' s' e _ ih =>
    intro h1 h2 n hn
    cases n with
    | zero => omega
    | succ n =>
      have hl := GLex.next_shorter (Or.inr ⟨t, x, e⟩)
      have : GLex.lex E (s1.length + 1) st1 s1 = some (.ret t x st2 s2) := by rw [GLex.lex, e]
      rw [GLex.scan, this]
      dsimp only
      rw [ih h1 h2 n (by omega)]
      rfl

theorem lexes_scan {C : List Nat → Prop} {t : List Nat} {ts : List Tok} (h : Lexes C t ts) (hC : C []) (E : Env) :
    ∃ xs st', GLex.scan E (t.length + 1) {} t = some (xs, .eof st') ∧ xs.map ofLex = ts.map some := by
  have hr : Ready {} := ⟨rfl, rfl, by simp⟩
  obtain ⟨st1, r1, k1⟩ := skip_blanks (E := E) hr t
  obtain ⟨st2, xs, r2, k2, m⟩ := h E st1 [] k1 hC
  rw [List.append_nil] at r2
  exact ⟨xs, st2, scan_run (r1.trans r2) rfl k2.1 _ (by omega), m⟩

end Verif.Syntax
