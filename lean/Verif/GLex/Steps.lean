import Verif.GLex.Pattern
import Mathlib.Tactic.ByContra

/-!
# One step of the scanner
-/

namespace Verif.GLex

open Rx

/-! ## Static facts about patterns -/

/-- No line end in any match. -/
def Rx.avoids : Rx → Bool
  | eps => true
  | cls p => !p 10 && !p 13
  | seq a b => avoids a && avoids b
  | alt a b => avoids a && avoids b
  | star a => avoids a

def Rx.null : Rx → Bool
  | eps => true
  | cls _ => false
  | seq a b => null a && null b
  | alt a b => null a || null b
  | star _ => true

/-- A match may start with `c`. -/
def Rx.starts : Rx → Nat → Bool
  | eps, _ => false
  | cls p, c => p c
  | seq a b, c => starts a c || (null a && starts b c)
  | alt a b, c => starts a c || starts b c
  | star a, c => starts a c

theorem avoids_mat {r : Rx} {w : List Nat} (h : Mat r w) : r.avoids = true → ∀ c ∈ w, isNl c = false := by
  induction h with
  | eps => simp
  | @cls p c hp =>
    intro h d hd
    simp at hd; subst hd
    simp [avoids] at h
    simp only [isNl, Bool.or_eq_false_iff, beq_eq_false_iff_ne]
    constructor <;> rintro rfl <;> simp_all
  | seq _ _ h1 h2 =>
    intro h d hd
    simp [avoids] at h
    rcases List.mem_append.1 hd with hd | hd
    · exact h1 h.1 d hd
    · exact h2 h.2 d hd
  | altL _ ih => intro h; simp [avoids] at h; exact ih h.1
  | altR _ ih => intro h; simp [avoids] at h; exact ih h.2
  | nil => simp
  | more _ _ h1 h2 =>
    intro h d hd
    rcases List.mem_append.1 hd with hd | hd
    · exact h1 h d hd
    · exact h2 h d hd

theorem null_mat {r : Rx} {w : List Nat} (h : Mat r w) : w = [] → r.null = true := by
  induction h with
  | eps => simp [null]
  | cls _ => simp
  | seq _ _ h1 h2 => intro h; simp at h; simp [null, h1 h.1, h2 h.2]
  | altL _ ih => intro h; simp [null, ih h]
  | altR _ ih => intro h; simp [null, ih h]
  | nil => simp [null]
  | more _ _ _ _ => simp [null]

theorem starts_mat {r : Rx} {w : List Nat} (h : Mat r w) : ∀ c v, w = c :: v → r.starts c = true := by
  induction h with
  | eps => simp
  | cls hp => intro c v h; simp at h; simp [starts, ← h.1, hp]
  | @seq a b u v m1 m2 h1 h2 =>
    intro c x h
    cases u with
    | nil => simp at h; simp [starts, null_mat m1 rfl, h2 _ _ h]
    | cons d u => simp at h; simp [starts, h1 d u rfl, ← h.1]
  | altL _ ih => intro c v h; simp [starts, ih c v h]
  | altR _ ih => intro c v h; simp [starts, ih c v h]
  | nil => simp
  | @more a u v m1 m2 h1 h2 =>
    intro c x h
    cases u with
    | nil => simp at h; exact h2 _ _ h
    | cons d u => simp at h; simp [starts, h1 d u rfl, ← h.1]

/-- A match of the rule may start with `c`. -/
def Rule.starts (r : Rule) (c : Nat) : Bool := match r.trail with
  | none => r.body.starts c
  | some x => (Rx.seq r.body x).starts c

theorem starts_cands {r : Rule} {c : Nat} {s : List Nat} {t k : Nat} (h : (t, k) ∈ r.cands (c :: s)) (h0 : 0 < t) : r.starts c = true := by
  unfold Rule.starts
  cases ht : r.trail with
  | none =>
    rw [mem_cands_none ht] at h
    obtain ⟨_, _, m⟩ := h
    rw [take_head h0] at m
    exact starts_mat m _ _ rfl
  | some x =>
    rw [mem_cands_some ht] at h
    obtain ⟨j, rfl, _, m1, m2⟩ := h
    have m := Mat.seq m1 m2
    rw [← take_add', take_head h0] at m
    exact starts_mat m _ _ rfl

/-- The rules of a start condition that may match a text starting with `c`. -/
def startIdx (C : Cond) (c : Nat) : List Nat := ((rulesOf C).zipIdx.filter fun p => p.1.starts c).map (·.2)

theorem startIdx_mem {C : Cond} {c : Nat} {s : List Nat} {j t k : Nat} {r : Rule} (hr : (rulesOf C)[j]? = some r) (h : (t, k) ∈ r.cands (c :: s)) (h0 : 0 < t) :
    j ∈ startIdx C c := by
  unfold startIdx
  simp only [List.mem_map, List.mem_filter, Prod.exists]
  exact ⟨r, j, ⟨List.mem_zipIdx_iff_getElem?.2 hr, starts_cands h h0⟩, rfl⟩

/-! ## Static facts about the rules -/

/-- Place of the rule for line ends. -/
def nlIdx : Cond → Nat
  | .initial => 1
  | .parserClass => 1
  | .header => 1
  | .lexer => 1
  | _ => 0

/-- Actions whose patterns admit line ends. -/
def Act.anyText : Act → Bool
  | .newline | .moreNewline | .separator | .reject | .unexpected | .echo => true
  | _ => false

def Act.single : Act → Bool
  | .reject | .unexpected | .echo => true
  | _ => false

def Act.isNewline : Act → Bool
  | .newline | .moreNewline => true
  | _ => false

theorem rules_avoid : ∀ C : Cond, (rulesOf C).all (fun r => r.act.anyText || r.body.avoids) = true := by
  intro C; cases C <;> decide +kernel

theorem rules_nlIdx : ∀ C : Cond, (rulesOf C).zipIdx.all (fun p => !p.1.act.isNewline || p.2 == nlIdx C) = true := by
  intro C; cases C <;> decide +kernel

theorem rules_single : ∀ C : Cond, (rulesOf C).zipIdx.all (fun p => !p.1.act.single || nlIdx C < p.2) = true := by
  intro C; cases C <;> decide +kernel

theorem rules_trail : ∀ C : Cond, (rulesOf C).all (fun r => r.trail.isNone || !r.body.null) = true := by
  intro C; cases C <;> decide +kernel

theorem rules_nl (C : Cond) : ∃ a, a.isNewline = true ∧ (rulesOf C)[nlIdx C]? = some { body := newlineRx, act := a } := by
  cases C <;> first | exact ⟨.newline, rfl, rfl⟩ | exact ⟨.moreNewline, rfl, rfl⟩

theorem rules_single_body {C : Cond} {i : Nat} {r : Rule} (h : (rulesOf C)[i]? = some r) (ha : r.act.single = true) : ∃ p, r = { body := .cls p, act := r.act } := by
  have hm := List.mem_of_getElem? h
  have : ∀ r ∈ rulesOf C, r.act.single = true → ∃ p, r = { body := .cls p, act := r.act } := by
    cases C <;> simp only [rulesOf, initialRules, codeRules, parserClassRules, argsRules, headerRules, varnameRules, lexerRules, ch, key, echoRule, dot, one,
      List.forall_mem_cons, Act.single] <;> simp
  exact this r hm ha

/-- The last rule is flex's default rule. -/
theorem rules_echo (C : Cond) : (rulesOf C).getLast? = some echoRule := by cases C <;> rfl

theorem all_get {rules : List Rule} {p : Rule → Bool} (h : rules.all p = true) {i : Nat} {r : Rule} (hr : rules[i]? = some r) : p r = true :=
  List.all_eq_true.1 h r (List.mem_of_getElem? hr)

theorem all_zip {rules : List Rule} {p : Rule × Nat → Bool} (h : rules.zipIdx.all p = true) {i : Nat} {r : Rule} (hr : rules[i]? = some r) : p (r, i) = true :=
  List.all_eq_true.1 h (r, i) (List.mem_zipIdx_iff_getElem?.2 hr)

/-! ## The chosen match -/

/-- There is always a match. -/
theorem select_exists (C : Cond) {s : List Nat} (hs : s ≠ []) : ∃ t i k, select (rulesOf C) s none = some (t, i, k) := by
  cases s with
  | nil => exact absurd rfl hs
  | cons c s =>
    have he := rules_echo C
    rw [List.getLast?_eq_getElem?] at he
    have hm : (1, (rulesOf C).length - 1, 1) ∈ allMatches (rulesOf C) (c :: s) :=
      mem_allMatches.2 ⟨_, he, (mem_cands_none rfl).2 ⟨rfl, by simp, by simpa [echoRule] using Mat.cls rfl⟩, by omega⟩
    obtain ⟨⟨t, i, k⟩, hy⟩ := foldl_pick_some _ none (Or.inl (List.ne_nil_of_mem hm))
    refine ⟨t, i, k, ?_⟩
    unfold select
    have hf : ∀ l : List Match, l.filter (fun _ => true) = l := fun l => by simp
    simp only [hf]; exact hy

/-- A line end, as long as possible. -/
def NlTok (s : List Nat) (k : Nat) : Prop := (s.take k = [13, 10] ∨ s.take k = [10] ∨ s.take k = [13] ∧ (s.drop k).head? ≠ some 10)

/-- The token that is chosen: not empty; a line end is matched by the rule for line ends, and apart from the separator no other token has one. -/
theorem chosen {C : Cond} {s : List Nat} {t i k : Nat} (h : select (rulesOf C) s none = some (t, i, k)) :
    ∃ r, (rulesOf C)[i]? = some r ∧ (t, k) ∈ r.cands s ∧ 0 < k ∧ k ≤ s.length ∧
      (r.act.isNewline = true → NlTok s k) ∧ (r.act.isNewline = false → r.act ≠ .separator → ∀ c ∈ s.take k, isNl c = false) ∧
      (r.act.single = true → k = 1) := by
  obtain ⟨⟨r, hr, hm, h0⟩, hb⟩ := select_some h
  have hle := cands_le hm
  have hk : 0 < k := by
    cases ht : r.trail with
    | none => rw [mem_cands_none ht] at hm; omega
    | some x =>
      have := all_get (rules_trail C) hr
      simp only [ht, Option.isNone_some, Bool.false_or, Bool.not_eq_true'] at this
      rw [mem_cands_some ht] at hm
      obtain ⟨j, _, _, m, _⟩ := hm
      rcases Nat.eq_zero_or_pos k with hk | hk
      · subst hk
        rw [null_mat m (by simp)] at this
        cases this
      · exact hk
  have hs1 : r.act.single = true → k = 1 := by
    intro ha
    obtain ⟨p, e⟩ := rules_single_body hr ha
    have ht : r.trail = none := by rw [e]
    rw [mem_cands_none ht] at hm
    obtain ⟨rfl, hl, m⟩ := hm
    rw [e] at m
    obtain ⟨c, hc, _⟩ := mat_cls.1 m
    have := congrArg List.length hc
    rw [List.length_take] at this
    simp at this; omega
  obtain ⟨a, ha, hn⟩ := rules_nl C
  have hnb : ∀ n, 0 < n → n ≤ s.length → Mat newlineRx (s.take n) → n < t ∨ n = t ∧ (i < nlIdx C ∨ i = nlIdx C) := by
    intro n hn0 hn1 m
    have := hb _ _ n n hn ((mem_cands_none rfl).2 ⟨rfl, hn1, m⟩) hn0
    omega
  refine ⟨r, hr, hm, hk, by omega, ?_, ?_, hs1⟩
  · intro hnl
    have := all_zip (rules_nlIdx C) hr
    simp only [hnl, Bool.not_true, Bool.false_or, beq_iff_eq] at this
    subst this
    rw [hn] at hr
    cases hr
    rw [mem_cands_none rfl] at hm
    obtain ⟨rfl, hl, m⟩ := hm
    dsimp only at m
    rcases mat_newline.1 m with e | e | e
    · exact Or.inl e
    · refine Or.inr (Or.inr ⟨e, fun hd => ?_⟩)
      have hl1 := congrArg List.length e
      rw [List.length_take] at hl1
      simp at hl1
      have hk1 : k = 1 := by omega
      subst hk1
      cases s with
      | nil => simp at e
      | cons c s =>
        simp at e; subst e
        cases s with
        | nil => simp at hd
        | cons d s =>
          simp at hd; subst hd
          have := hnb 2 (by omega) (by simp) (by simpa using mat_newline.2 (Or.inl rfl))
          omega
    · exact Or.inr (Or.inl e)
  · intro hnn hsep
    by_cases hany : r.act.anyText = true
    · have hsg : r.act.single = true := by
        revert hany hnn hsep
        cases r.act <;> simp [Act.anyText, Act.isNewline, Act.single]
      have hk1 := hs1 hsg
      subst hk1
      obtain ⟨p, e⟩ := rules_single_body hr hsg
      have ht : r.trail = none := by rw [e]
      have htk : t = 1 := by rw [mem_cands_none ht] at hm; omega
      subst htk
      cases s with
      | nil => simp
      | cons c s =>
        intro d hd
        simp at hd; subst hd
        have hpos := all_zip (rules_single C) hr
        simp only [hsg, Bool.not_true, Bool.false_or, decide_eq_true_eq] at hpos
        by_contra hc
        have hc : d = 10 ∨ d = 13 := by
          simp only [Bool.not_eq_false, isNl, Bool.or_eq_true, beq_iff_eq] at hc; exact hc
        have := hnb 1 (by omega) (by simp) (by
          rcases hc with rfl | rfl
          · exact mat_newline.2 (Or.inr (Or.inr (by simp)))
          · exact mat_newline.2 (Or.inr (Or.inl (by simp))))
        omega
    · have := all_get (rules_avoid C) hr
      simp only [Bool.not_eq_true] at hany
      simp only [hany, Bool.false_or] at this
      refine avoids_mat (r := r.body) ?_ this
      cases ht : r.trail with
      | none => rw [mem_cands_none ht] at hm; obtain ⟨rfl, _, m⟩ := hm; exact m
      | some x => rw [mem_cands_some ht] at hm; obtain ⟨_, _, _, m, _⟩ := hm; exact m

/-! ## What a step does -/

def finish (r : Res) (rest : List Nat) : Step := match r with
  | .go st => .go st rest
  | .ret t x st => .ret t x st rest
  | .reject _ => .stop
  | .stop => .stop
  | .undefined => .undefined

theorem run_reject {E : Env} {y : List Nat} {st st' : St} {a : Act} : run E y st a = .reject st' ↔ a = .reject ∧ st' = { st with cond := .initial } := by
  cases a <;> simp only [run, reduceCtorEq, false_and] <;> try (split <;> simp)
  simp [eq_comm]

/-- `YY_USER_ACTION` for the token `w`. -/
def feed (st : St) (w : List Nat) : St := { append st (st.kept ++ w) with kept := [] }

theorem rules_reject : ∀ C : Cond, (rulesOf C).zipIdx.all (fun p => p.1.act != .reject || (p.2 + 2 == (rulesOf C).length)) = true := by
  intro C; cases C <;> decide +kernel

theorem select_rejected {C : Cond} {s : List Nat} {i : Nat} {r : Rule} (hs : s ≠ []) (hr : (rulesOf C)[i]? = some r) (ha : r.act = .reject) :
    select (rulesOf C) s (some (1, i, 1)) = some (1, i + 1, 1) ∧ (rulesOf C)[i + 1]? = some echoRule := by
  have hi := all_zip (rules_reject C) hr
  simp only [ha, bne_self_eq_false, Bool.false_or, beq_iff_eq] at hi
  have he := rules_echo C
  rw [List.getLast?_eq_getElem?] at he
  have hl : (rulesOf C).length - 1 = i + 1 := by omega
  rw [hl] at he
  refine ⟨?_, he⟩
  cases s with
  | nil => exact absurd rfl hs
  | cons c s =>
    have hcand : (1, 1) ∈ echoRule.cands (c :: s) := (mem_cands_none rfl).2 ⟨rfl, by simp, by simpa [echoRule] using Mat.cls rfl⟩
    unfold select
    simp only
    generalize hL : (allMatches (rulesOf C) (c :: s)).filter _ = L
    have hmem : ∀ x, x ∈ L ↔ x ∈ allMatches (rulesOf C) (c :: s) ∧ (x.1 < 1 ∨ 1 = x.1 ∧ i < x.2.1) := by
      intro x; subst hL
      simp only [List.mem_filter, Bool.or_eq_true, decide_eq_true_eq, Bool.and_eq_true, beq_iff_eq]
    have h1 : (1, i + 1, 1) ∈ L := (hmem _).2 ⟨mem_allMatches.2 ⟨_, he, hcand, by omega⟩, Or.inr ⟨rfl, Nat.lt_succ_self _⟩⟩
    obtain ⟨⟨t, j, k⟩, hy⟩ := foldl_pick_some L none (Or.inl (List.ne_nil_of_mem h1))
    rw [hy]
    have h2 := ((foldl_pick _ _ _ hy).1).resolve_right (by simp)
    obtain ⟨h3, h4⟩ := (hmem _).1 h2
    obtain ⟨r', hr', hm', h0⟩ := mem_allMatches.1 h3
    have hj := (List.getElem?_eq_some_iff.1 hr').1
    dsimp only at h4
    have hji : j = i + 1 := by omega
    subst hji
    have ht : t = 1 := by omega
    subst ht
    rw [he] at hr'; cases hr'
    rw [mem_cands_none rfl] at hm'
    rw [hm'.1]

/-- A step: the chosen rule is carried out; a rejected character is skipped. -/
theorem step_shape (E : Env) (st : St) {s : List Nat} (hs : s ≠ []) :
    ∃ t i k r, select (rulesOf st.cond) s none = some (t, i, k) ∧ (rulesOf st.cond)[i]? = some r ∧
      (r.act ≠ .reject → step E st s = finish (run E (st.kept ++ s.take k) (feed st (s.take k)) r.act) (s.drop k)) ∧
      (r.act = .reject → k = 1 ∧ step E st s = .go (feed { feed st (s.take 1) with cond := .initial, kept := st.kept } (s.take 1)) (s.drop 1)) := by
  obtain ⟨t, i, k, hsel⟩ := select_exists st.cond hs
  obtain ⟨r, hr, hm, hk, hkl, _, _, hsg⟩ := chosen hsel
  refine ⟨t, i, k, r, hsel, hr, fun ha => ?_, fun ha => ?_⟩
  · simp only [step, hs, if_false, apply, hsel, hr]
    change (match run E (st.kept ++ s.take k) (feed st (s.take k)) r.act with
      | .go st => _ | .ret t x st => _ | .reject st' => _ | .stop => _ | .undefined => _) = _
    cases hrun : run E (st.kept ++ s.take k) (feed st (s.take k)) r.act with
    | reject st' => exact absurd (run_reject.1 hrun).1 ha
    | _ => rfl
  · have hk1 : k = 1 := hsg (by rw [ha]; rfl)
    subst hk1
    refine ⟨rfl, ?_⟩
    obtain ⟨p, e⟩ := rules_single_body hr (by rw [ha]; rfl)
    have ht : t = 1 := by
      have : r.trail = none := by rw [e]
      rw [mem_cands_none this] at hm; omega
    subst ht
    obtain ⟨h1, h2⟩ := select_rejected hs hr ha
    simp only [step, hs, if_false, apply, hsel, hr, ha, run, h1, h2, echoRule]
    rfl

end Verif.GLex
