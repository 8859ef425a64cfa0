import Verif.GLex.Steps
import Verif.GLex.Spec

/-!
# Lines and columns: lemmas
-/

namespace Verif.GLex

theorem lineNo_append : ∀ (a b : List Nat), (a.getLast? = some 13 → b.head? ≠ some 10) → lineNo (a ++ b) = lineNo a + lineNo b
  | [], b, _ => by simp [lineNo]
  | [c], b, h => by
    simp only [List.cons_append, List.nil_append, lineNo, List.head?_nil]
    by_cases hc : c = 13
    · subst hc
      simp [h rfl]
    · simp [hc]
  | c :: d :: a, b, h => by
    have ih := lineNo_append (d :: a) b (by simpa using h)
    have e : ∀ l : List Nat, lineNo (c :: d :: l) = (if c = 10 ∨ (c = 13 ∧ some d ≠ some 10) then 1 else 0) + lineNo (d :: l) := fun l => rfl
    rw [List.cons_append, List.cons_append, e, e, ← List.cons_append, ih]
    omega

theorem lineNo_zero {w : List Nat} (h : ∀ c ∈ w, isNl c = false) : lineNo w = 0 := by
  induction w with
  | nil => rfl
  | cons c w ih =>
    have := h c (by simp)
    simp [isNl] at this
    simp [lineNo, this, ih fun d hd => h d (by simp [hd])]

theorem zero_lineNo {w : List Nat} (h : lineNo w = 0) (hl : w.getLast? ≠ some 13) : ∀ c ∈ w, isNl c = false := by
  induction w with
  | nil => simp
  | cons c w ih =>
    simp only [lineNo, Nat.add_eq_zero_iff] at h
    obtain ⟨h1, h2⟩ := h
    have hw : ∀ c ∈ w, isNl c = false := by
      cases w with
      | nil => simp
      | cons d w => exact ih h2 (by simpa using hl)
    intro d hd
    rcases List.mem_cons.1 hd with rfl | hd
    · by_contra hn
      simp only [isNl, Bool.not_eq_false, Bool.or_eq_true, beq_iff_eq] at hn
      rcases hn with rfl | rfl
      · simp at h1
      · cases w with
        | nil => simp at hl
        | cons e w =>
          have := hw e (by simp)
          simp [isNl] at this
          simp [this] at h1
    · exact hw d hd

theorem lineNo_count {w : List Nat} (h : CrLf w) : lineNo w = w.count 10 := by
  induction w with
  | nil => rfl
  | cons c w ih =>
    have ih := ih fun a b e => h (c :: a) b (by rw [e]; rfl)
    simp only [lineNo, ih]
    rw [List.count_cons]
    by_cases h13 : c = 13
    · subst h13
      have := h [] w rfl
      simp [this]
    · by_cases h10 : c = 10
      · subst h10; simp; omega
      · simp [h10, h13]

theorem lastLine_append {a w : List Nat} (h : ∀ c ∈ w, isNl c = false) : lastLine (a ++ w) = lastLine a ++ w := by
  unfold lastLine
  rw [List.reverse_append, List.takeWhile_append_of_pos]
  · simp
  · intro c hc
    have := h c (by simpa using hc)
    simp [isNl] at this
    simp [this]

theorem lastLine_nl {a w : List Nat} (h : w.getLast? = some 10 ∨ w.getLast? = some 13) : lastLine (a ++ w) = [] := by
  obtain ⟨v, c, rfl, hc⟩ : ∃ v c, w = v ++ [c] ∧ (c = 10 ∨ c = 13) := by
    rcases h with h | h <;> obtain ⟨v, rfl⟩ := List.getLast?_eq_some_iff.1 h
    · exact ⟨v, _, rfl, Or.inl rfl⟩
    · exact ⟨v, _, rfl, Or.inr rfl⟩
  unfold lastLine
  rcases hc with rfl | rfl <;> simp

/-! ## Effects of the actions -/

def Res.state : Res → Option St
  | .go st => some st
  | .ret _ _ st => some st
  | .reject st => some st
  | _ => none

def Act.isMore : Act → Bool
  | .more | .moreNewline | .moreOpen => true
  | _ => false

theorem run_effect {E : Env} {y : List Nat} {st st' : St} {a : Act} (h : (run E y st a).state = some st') :
    st'.line = st.line + (if a.isNewline then 1 else if a = .separator then y.count 10 else 0) ∧
    st'.endOfLine = (a.isNewline || st.endOfLine) ∧ st'.buf = st.buf ∧ st'.offset = st.offset ∧ st'.lastLeng = st.lastLeng ∧
    (a.isMore = true → st'.kept = y ∧ st'.moreFlag = true ∧ st'.cond = st.cond) ∧
    (a.isMore = false → st'.kept = st.kept ∧ st'.moreFlag = st.moreFlag) := by
  cases a <;> simp only [run] at h
  case arrow => split at h <;> (simp only [Res.state, Option.some.injEq] at h; subst h; simp [Act.isNewline, Act.isMore])
  case bracket => split at h <;> (simp only [Res.state, Option.some.injEq] at h; subst h; simp [Act.isNewline, Act.isMore])
  case argsEnd => split at h <;> (simp only [Res.state, Option.some.injEq] at h; subst h; simp [Act.isNewline, Act.isMore])
  case typeEnd => split at h <;> simp only [Res.state, Option.some.injEq, reduceCtorEq] at h; (subst h; simp [Act.isNewline, Act.isMore])
  all_goals (simp only [Res.state, Option.some.injEq, reduceCtorEq] at h)
  all_goals (subst h; simp [Act.isNewline, Act.isMore, newline])

def Cond.keeps : Cond → Bool
  | .code | .args | .varname => true
  | _ => false

theorem rules_more : ∀ C : Cond, (rulesOf C).all (fun r => !r.act.isMore || C.keeps) = true := by
  intro C; cases C <;> decide +kernel

theorem rules_separator : ∀ C : Cond, (rulesOf C).all (fun r => r.act != .separator || !C.keeps) = true := by
  intro C; cases C <;> decide +kernel

theorem rules_reject_cond : ∀ C : Cond, (rulesOf C).all (fun r => r.act != .reject || !C.keeps || C == .varname) = true := by
  intro C; cases C <;> decide +kernel

/-- A rule that matches one byte is not chosen if an earlier rule matches, too. -/
theorem not_chosen {C : Cond} {c : Nat} {s : List Nat} {t i k : Nat} {r : Rule} (h : select (rulesOf C) (c :: s) none = some (t, i, k))
    (hr : (rulesOf C)[i]? = some r) (ha : r.act.single = true) {j : Nat} (hj : j < i) {r' : Rule} (hr' : (rulesOf C)[j]? = some r') (ht : r'.trail = none)
    (hm : Mat r'.body [c]) : False := by
  obtain ⟨⟨r2, hr2, hm2, h0⟩, hb⟩ := select_some h
  rw [hr] at hr2; cases hr2
  obtain ⟨p, e⟩ := rules_single_body hr ha
  have ht2 : r.trail = none := by rw [e]
  rw [mem_cands_none ht2] at hm2
  obtain ⟨rfl, hle, m⟩ := hm2
  rw [e] at m
  obtain ⟨d, hd, _⟩ := mat_cls.1 m
  have hlen := congrArg List.length hd
  rw [List.length_take, Nat.min_eq_left hle, List.length_singleton] at hlen
  have := hb j r' 1 1 hr' ((mem_cands_none ht).2 ⟨rfl, by simp, by simpa using hm⟩) (by omega)
  omega

theorem varname_single {s : List Nat} {t i k : Nat} {r : Rule} (hs : s ≠ []) (h : select (rulesOf .varname) s none = some (t, i, k))
    (hr : (rulesOf .varname)[i]? = some r) : r.act.single = false := by
  by_contra ha
  simp only [Bool.not_eq_false] at ha
  cases s with
  | nil => exact absurd rfl hs
  | cons c s =>
    have hi : 2 < i := by
      match i, hr with
      | 0, hr => cases hr; cases ha
      | 1, hr => cases hr; cases ha
      | 2, hr => cases hr; cases ha
      | i + 3, _ => omega
    by_cases h1 : c = 59
    · subst h1
      exact not_chosen h hr ha hi (r' := { body := one 59, act := .typeEnd }) rfl rfl (mat_one.2 rfl)
    · by_cases h2 : isNl c = true
      · refine not_chosen h hr ha (j := 0) (by omega) (r' := { body := newlineRx, act := .moreNewline }) rfl rfl (mat_newline.2 ?_)
        simp [isNl] at h2
        rcases h2 with rfl | rfl <;> simp
      · refine not_chosen h hr ha (j := 1) (by omega) (r' := { body := .star (.cls fun c => !(c == 59 || isNl c)), act := .more }) rfl rfl
          (mat_star_cls.2 ?_)
        simp [h1, h2]

/-! ## The invariants -/

/-- The text kept by `yymore`. -/
structure Kept (st : St) : Prop where
  cond : st.kept ≠ [] → st.cond.keeps = true
  leng : st.kept.length = if st.moreFlag then st.lastLeng else 0

theorem feed_line {st : St} {w : List Nat} : (feed st w).line = st.line := rfl

theorem feed_buf {st : St} (hk : Kept st) {w : List Nat} : (feed st w).buf = (if st.endOfLine then [] else st.buf) ++ w := by
  simp only [feed, append]
  rw [← hk.leng, List.drop_left' rfl]

/-- The state behind a step, and the token. -/
inductive Moves (E : Env) (st : St) (s : List Nat) (st' : St) (s' : List Nat) : Prop
  | run (t i k : Nat) (r : Rule) : select (rulesOf st.cond) s none = some (t, i, k) → (rulesOf st.cond)[i]? = some r → r.act ≠ .reject →
      (run E (st.kept ++ s.take k) (feed st (s.take k)) r.act).state = some st' → s' = s.drop k → Moves E st s st' s'
  | rejected (t i : Nat) (r : Rule) : select (rulesOf st.cond) s none = some (t, i, 1) → (rulesOf st.cond)[i]? = some r → r.act = .reject →
      st' = feed { feed st (s.take 1) with cond := .initial, kept := st.kept } (s.take 1) → s' = s.drop 1 → Moves E st s st' s'

/-- The step goes on or returns a token. -/
def Next (E : Env) (st : St) (s : List Nat) (st' : St) (s' : List Nat) : Prop := step E st s = .go st' s' ∨ ∃ t x, step E st s = .ret t x st' s'

theorem next_ne {E : Env} {st st' : St} {s s' : List Nat} (h : Next E st s st' s') : s ≠ [] := by
  rintro rfl
  unfold Next step at h
  simp only [if_true] at h
  split at h <;> simp at h

theorem next_moves {E : Env} {st st' : St} {s s' : List Nat} (h : Next E st s st' s') : Moves E st s st' s' := by
  obtain ⟨t, i, k, r, h1, h2, h3, h4⟩ := step_shape E st (next_ne h)
  by_cases ha : r.act = .reject
  · obtain ⟨rfl, h5⟩ := h4 ha
    rw [Next, h5] at h
    simp at h
    exact .rejected t i r h1 h2 ha h.1.symm (by simpa using h.2.symm)
  · have h5 := h3 ha
    refine .run t i k r h1 h2 ha ?_ ?_ <;> rw [Next, h5] at h <;> revert h <;>
      cases run E (st.kept ++ s.take k) (feed st (s.take k)) r.act <;> simp [finish, Res.state] <;> intros <;> simp_all

theorem feed_kept {st : St} {w : List Nat} : (feed st w).kept = [] := rfl

theorem kept_moves {E : Env} {st st' : St} {s s' : List Nat} (h : Moves E st s st' s') : Kept st' := by
  cases h with
  | run t i k r h1 h2 h3 h4 h5 =>
    obtain ⟨e1, e2, e3, e4, e5, e6, e7⟩ := run_effect h4
    cases hm : r.act.isMore with
    | true =>
      obtain ⟨a, b, c⟩ := e6 hm
      have := all_get (rules_more st.cond) h2
      simp only [hm, Bool.not_true, Bool.false_or] at this
      refine ⟨fun _ => by rw [c]; exact this, ?_⟩
      rw [a, b, e5]; rfl
    | false =>
      obtain ⟨a, b⟩ := e7 hm
      rw [feed_kept] at a
      exact ⟨fun h => absurd a h, by rw [a, b]; rfl⟩
  | rejected t i r h1 h2 h3 h4 h5 => subst h4; exact ⟨fun h => absurd rfl h, rfl⟩

/-- No piece is split between CR and LF. -/
def Joined (pre s : List Nat) : Prop := pre.getLast? = some 13 → s.head? ≠ some 10

theorem getLast?_append' {a w : List Nat} (h : w ≠ []) : (a ++ w).getLast? = w.getLast? := by
  rw [List.getLast?_append]
  cases hw : w.getLast? with
  | none => exact absurd (List.getLast?_eq_none_iff.1 hw) h
  | some c => rfl

/-- The separator is followed by a semicolon. -/
theorem separator_next {C : Cond} {s : List Nat} {t i k : Nat} {r : Rule} (h : select (rulesOf C) s none = some (t, i, k)) (hr : (rulesOf C)[i]? = some r)
    (ha : r.act = .separator) : (s.drop k).head? = some 59 := by
  obtain ⟨⟨r', hr', hm, h0⟩, _⟩ := select_some h
  rw [hr] at hr'; cases hr'
  have ht : r.trail = some (plus (one 59)) := by
    have : ∀ r ∈ rulesOf C, r.act = .separator → r.trail = some (plus (one 59)) := by
      cases C <;> simp [rulesOf, initialRules, codeRules, parserClassRules, argsRules, headerRules, varnameRules, lexerRules, ch, key, echoRule]
    exact this r (List.mem_of_getElem? hr) ha
  rw [mem_cands_some ht] at hm
  obtain ⟨j, _, _, _, m⟩ := hm
  obtain ⟨hn, hc⟩ := mat_plus_cls.1 (show Mat (plus (.cls (· == 59))) _ from m)
  cases hd : s.drop k with
  | nil => rw [hd] at hn; simp at hn
  | cons c d =>
    rw [hd] at hc hn
    cases j with
    | zero => simp at hn
    | succ j =>
      have := hc c (by simp)
      simp at this
      simp [this]

/-- How a step moves: a token that is not empty; its line ends; CR LF is not split. -/
theorem moves_token {E : Env} {st st' : St} {s s' pre : List Nat} (h : Moves E st s st' s') :
    ∃ w, w ≠ [] ∧ s = w ++ s' ∧ Joined (pre ++ w) s' := by
  have key : ∀ t i k r, select (rulesOf st.cond) s none = some (t, i, k) → (rulesOf st.cond)[i]? = some r → s' = s.drop k →
      ∃ w, w ≠ [] ∧ s = w ++ s' ∧ Joined (pre ++ w) s' := by
    intro t i k r h1 h2 h5
    obtain ⟨r', hr', _, hk, hkl, hn, hnn, _⟩ := chosen h1
    rw [h2] at hr'; cases hr'
    have hw : s.take k ≠ [] := by
      intro e
      have := congrArg List.length e
      rw [List.length_take] at this
      simp at this
      rcases this with e | e
      · omega
      · subst e; simp at hkl; omega
    refine ⟨s.take k, hw, by rw [h5, List.take_append_drop], fun hl => ?_⟩
    rw [getLast?_append' hw] at hl
    rw [h5]
    cases hi : r.act.isNewline with
    | true =>
      rcases hn hi with e | e | ⟨_, e⟩
      · rw [e] at hl; simp at hl
      · rw [e] at hl; simp at hl
      · exact e
    | false =>
      by_cases ha : r.act = .separator
      · rw [separator_next h1 h2 ha]; simp
      · have := hnn hi ha 13 (List.mem_of_getLast? hl)
        simp [isNl] at this
  cases h with
  | run t i k r h1 h2 h3 h4 h5 => exact key t i k r h1 h2 h5
  | rejected t i r h1 h2 h3 h4 h5 => exact key t i 1 r h1 h2 h5

theorem moves_line {E : Env} {st st' : St} {s s' pre : List Nat} (hk : Kept st) (hj : Joined pre s) (hl : st.line = 1 + lineNo pre)
    (h : Moves E st s st' s') (hc : CrLf s ∨ ¬ Uses st s .separator ∨ ∀ w, s = w ++ s' → lineNo w = 0) : ∃ w, w ≠ [] ∧ s = w ++ s' ∧ Joined (pre ++ w) s' ∧ st'.line = 1 + lineNo (pre ++ w) := by
  obtain ⟨w, hw, e, hjw⟩ := moves_token (pre := pre) h
  refine ⟨w, hw, e, hjw, ?_⟩
  have happ : lineNo (pre ++ w) = lineNo pre + lineNo w := lineNo_append _ _ fun hp => by
    have := hj hp
    rw [e] at this
    cases w with
    | nil => exact absurd rfl hw
    | cons c w => simpa using this
  rw [happ]
  have htake : ∀ k, k ≤ s.length → s' = s.drop k → s.take k = w := by
    intro k hk h5
    have : s.take k ++ s' = w ++ s' := by rw [h5, List.take_append_drop, ← h5]; exact e
    exact List.append_cancel_right this
  cases h with
  | run t i k r h1 h2 h3 h4 h5 =>
    obtain ⟨r', hr', _, _, hkl, hn, hnn, _⟩ := chosen h1
    rw [h2] at hr'; cases hr'
    have ew := htake k hkl h5
    obtain ⟨e1, _⟩ := run_effect h4
    rw [e1, feed_line, hl]
    cases hi : r.act.isNewline with
    | true =>
      have : lineNo w = 1 := by
        rcases hn hi with e | e | ⟨e, _⟩ <;> rw [ew] at e <;> subst e <;> simp [lineNo]
      simp only [if_true]; omega
    | false =>
      simp only [Bool.false_eq_true, if_false]
      by_cases ha : r.act = .separator
      · rw [if_pos ha]
        have hkeep : st.kept = [] := by
          by_contra hne
          have := all_get (rules_separator st.cond) h2
          simp [ha, hk.cond hne] at this
        rw [hkeep, List.nil_append, ew]
        have huse : Uses st s .separator := ⟨_, r, h1, h2, ha⟩
        rcases hc with hc | hc | hc
        · rw [lineNo_count (w := w)]
          · omega
          · intro a b eab
            have := hc a (b ++ s') (by rw [e, eab]; simp)
            cases b with
            | nil =>
              have h6 := separator_next h1 h2 ha
              rw [← h5] at h6
              simp [h6] at this
            | cons d b => simpa using this
        · exact absurd huse hc
        · have h0 := hc w e
          have hlast : w.getLast? ≠ some 13 := by
            intro hl
            obtain ⟨v, rfl⟩ := List.getLast?_eq_some_iff.1 hl
            have h6 := separator_next h1 h2 ha
            rw [lineNo_append _ _ (by simp)] at h0
            simp [lineNo] at h0
          have := zero_lineNo h0 hlast
          have hcount : w.count 10 = 0 := List.count_eq_zero.2 fun hm => by
            have := this 10 hm
            simp [isNl] at this
          omega
      · rw [if_neg ha, lineNo_zero (w := w) (by rw [← ew]; exact hnn hi ha)]
        omega
  | rejected t i r h1 h2 h3 h4 h5 =>
    obtain ⟨r', hr', _, _, hkl, hn, hnn, _⟩ := chosen h1
    rw [h2] at hr'; cases hr'
    have ew := htake 1 hkl h5
    subst h4
    rw [feed_line]
    have : lineNo w = 0 := lineNo_zero (by rw [← ew]; exact hnn (by rw [h3]; rfl) (by rw [h3]; simp))
    change st.line = _
    omega

/-- The line buffer holds the line. -/
def Buffer (pre : List Nat) (st : St) : Prop := (if st.endOfLine then [] else st.buf) = lastLine pre

theorem moves_column {E : Env} {st st' : St} {s s' pre w : List Nat} (hk : Kept st) (hb : Buffer pre st) (h : Moves E st s st' s') (e : s = w ++ s') (hc : Clean st s s') :
    st'.offset = column pre ∧ Buffer (pre ++ w) st' := by
  cases h with
  | rejected t i r h1 h2 h3 h4 h5 => exact absurd ⟨_, r, h1, h2, h3⟩ hc.1
  | run t i k r h1 h2 h3 h4 h5 =>
    obtain ⟨r', hr', _, _, hkl, hn, hnn, _⟩ := chosen h1
    rw [h2] at hr'; cases hr'
    have ew : s.take k = w := by
      have : s.take k ++ s' = w ++ s' := by rw [h5, List.take_append_drop, ← h5]; exact e
      exact List.append_cancel_right this
    obtain ⟨_, e2, e3, e4, _⟩ := run_effect h4
    have hoff : (feed st (s.take k)).offset = (if st.endOfLine then [] else st.buf).length := rfl
    refine ⟨by rw [e4, hoff, hb]; rfl, ?_⟩
    unfold Buffer
    rw [e2, e3, feed_buf hk, hb, ew]
    have heol : (feed st w).endOfLine = false := rfl
    rw [heol]
    cases hi : r.act.isNewline with
    | true =>
      simp only [Bool.or_false, if_true]
      rw [lastLine_nl]
      rcases hn hi with e | e | ⟨e, _⟩ <;> rw [ew] at e <;> subst e <;> simp
    | false =>
      simp only [Bool.or_false, Bool.false_eq_true, if_false]
      rw [lastLine_append]
      by_cases ha : r.act = .separator
      · have h0 := hc.2 ⟨_, r, h1, h2, ha⟩ w e
        refine zero_lineNo h0 fun hl => ?_
        obtain ⟨v, rfl⟩ := List.getLast?_eq_some_iff.1 hl
        rw [lineNo_append _ _ (by simp)] at h0
        simp [lineNo] at h0
      · rw [← ew]; exact hnn hi ha

/-- All that holds of the states that are reached. -/
theorem reached_kept {E : Env} {P : St → List Nat → List Nat → Prop} {file s : List Nat} {st : St} (h : Reached E P file st s) :
    Kept st ∧ ∃ pre, file = pre ++ s ∧ Joined pre s := by
  have next : ∀ {st st' s s'}, Next E st s st' s' → (Kept st ∧ ∃ pre, file = pre ++ s ∧ Joined pre s) → Kept st' ∧ ∃ pre, file = pre ++ s' ∧ Joined pre s' := by
    intro st st' s s' hn ⟨_, pre, e, _⟩
    have hm := next_moves hn
    obtain ⟨w, _, ew, hj⟩ := moves_token (pre := pre) hm
    exact ⟨kept_moves hm, pre ++ w, by rw [e, ew, List.append_assoc], hj⟩
  induction h with
  | start => exact ⟨⟨fun h => absurd rfl h, rfl⟩, [], rfl, fun h => by simp at h⟩
  | go _ _ hs ih => exact next (Or.inl hs) ih
  | ret _ _ hs ih => exact next (Or.inr ⟨_, _, hs⟩) ih

theorem reached_line {E : Env} {P : St → List Nat → List Nat → Prop} {file : List Nat}
    (hP : ∀ st s s', P st s s' → CrLf file ∨ ¬ Uses st s .separator ∨ ∀ w, s = w ++ s' → lineNo w = 0) {st : St} {s : List Nat} (h : Reached E P file st s) :
    ∃ pre, file = pre ++ s ∧ Joined pre s ∧ st.line = 1 + lineNo pre := by
  have next : ∀ {st st' s s'}, Reached E P file st s → P st s s' → Next E st s st' s' → (∃ pre, file = pre ++ s ∧ Joined pre s ∧ st.line = 1 + lineNo pre) →
      ∃ pre, file = pre ++ s' ∧ Joined pre s' ∧ st'.line = 1 + lineNo pre := by
    intro st st' s s' hr hp hn ⟨pre, e, hj, hl⟩
    obtain ⟨w, _, ew, hj', hl'⟩ := moves_line (reached_kept hr).1 hj hl (next_moves hn) (by
      rcases hP _ _ _ hp with h | h | h
      · exact Or.inl fun a b hab => h (pre ++ a) b (by rw [e, hab, List.append_assoc])
      · exact Or.inr (Or.inl h)
      · exact Or.inr (Or.inr h))
    exact ⟨pre ++ w, by rw [e, ew, List.append_assoc], hj', hl'⟩
  induction h with
  | start => exact ⟨[], rfl, fun h => by simp at h, rfl⟩
  | go hr hp hs ih => exact next hr hp (Or.inl hs) ih
  | ret hr hp hs ih => exact next hr hp (Or.inr ⟨_, _, hs⟩) ih

theorem reached_buffer {E : Env} {file : List Nat} {st : St} {s : List Nat} (h : Reached E Clean file st s) : ∃ pre, file = pre ++ s ∧ Buffer pre st := by
  have next : ∀ {st st' s s'}, Reached E Clean file st s → Clean st s s' → Next E st s st' s' → (∃ pre, file = pre ++ s ∧ Buffer pre st) →
      ∃ pre, file = pre ++ s' ∧ Buffer pre st' := by
    intro st st' s s' hr hp hn ⟨pre, e, hb⟩
    have hm := next_moves hn
    obtain ⟨w, _, ew, _⟩ := moves_token (pre := pre) hm
    exact ⟨pre ++ w, by rw [e, ew, List.append_assoc], (moves_column (reached_kept hr).1 hb hm ew hp).2⟩
  induction h with
  | start => exact ⟨[], rfl, rfl⟩
  | go hr hp hs ih => exact next hr hp (Or.inl hs) ih
  | ret hr hp hs ih => exact next hr hp (Or.inr ⟨_, _, hs⟩) ih

end Verif.GLex
