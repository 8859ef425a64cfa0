import Verif.Top.Spec
import Verif.Top.Lemmas
import Verif.GLex.Position

/-!
# How the scanner leaves a lexer section

In a lexer section (`<RULE_LEXER>`) the scanner goes back to its initial condition only where two semicolons with blanks between them stand; so two tokens `;` in a row are needed.
-/

namespace Verif.Top

open GLex (St Env Step step rulesOf)

/-! ### Steps of the scanner -/

/-- The tokens with which declarations begin. -/
def keyToks : List GLex.Tok := ["T_PARSERCLASS_DECLARATION", "T_LEXERCLASS_DECLARATION", "T_TOKEN_DECLARATION", "T_TABLE_LEXER", "T_SEQUENCE_LEXER", "T_INPUT_ENCODING",
    "T_EXPORT_MACRO", "T_EXPORT_MACRO_HEADER", "T_PARSER_DECLARATION_HEADER", "T_PARSER_BITS_HEADER", "T_AST_HEADER", "T_LEXER_DECLARATION_HEADER", "T_INPUT_STREAM", "T_LEXER_BITS_HEADER",
    "T_PARSER_BASE", "T_LEXER_BASE", "T_NAMESPACE_DECLARATION", "T_AST_DECLARATION", "T_TOKEN_STREAM_DECLARATION", "T_AST_BASE", "T_LEXER"].map .named

theorem key_mem {d : Decl} {t : T} (h : IsKey d.key t) : t.1 ∈ keyToks := by
  rw [show t.1 = .named d.key from h]
  exact List.mem_map_of_mem d.key_cases

/-- In a lexer section, or in code inside one. -/
def Inside (st : St) : Prop := st.place = .lexer ∧ (st.cond = .lexer ∨ st.cond = .code)

/-- What the actions in a lexer section may do. -/
def insideAct : GLex.Act → Bool
  | .skip | .newline | .separator | .codeStart | .codeEnd | .more | .moreNewline | .echo => true
  | .ret t | .opening t | .closing t => !keyToks.contains t
  | .text n | .inner n => !keyToks.contains (.named n)
  | _ => false

theorem inside_rules : ∀ r ∈ rulesOf .lexer, insideAct r.act = true := by decide +kernel
theorem inside_code : ∀ r ∈ rulesOf .code, insideAct r.act = true := by decide +kernel

/-- One step in a lexer section. -/
inductive InsideStep : Step → Prop
  | go {st s} : Inside st → InsideStep (.go st s)
  | tok {t x st s} : Inside st → t ∉ keyToks → InsideStep (.ret t x st s)
  | leave {x st s} : st.cond = .initial → s.head? = some 59 → InsideStep (.ret (.ch 59) x st s)
  | stop : InsideStep .stop
  | undefined : InsideStep .undefined

theorem feed_place (st : St) (w : List Nat) : (GLex.feed st w).place = st.place ∧ (GLex.feed st w).cond = st.cond := ⟨rfl, rfl⟩

theorem inside_step {E : Env} {st : St} (h : Inside st) (s : List Nat) : InsideStep (step E st s) := by
  obtain ⟨hp, hc⟩ := h
  by_cases hs : s = []
  · subst hs
    have : step E st [] = .stop := by
      unfold step
      rcases hc with hc | hc <;> simp [hc]
    rw [this]; exact .stop
  obtain ⟨t, i, k, r, h1, h2, h3, h4⟩ := GLex.step_shape E st hs
  have hr : insideAct r.act = true := by
    have hm := List.mem_of_getElem? h2
    rcases hc with hc | hc <;> rw [hc] at hm
    · exact inside_rules r hm
    · exact inside_code r hm
  have hn : r.act ≠ .reject := by rintro e; rw [e] at hr; cases hr
  rw [h3 hn]
  obtain ⟨f1, f2⟩ := feed_place st (s.take k)
  generalize hF : GLex.feed st (s.take k) = fs at f1 f2
  have hin : Inside fs := ⟨f1.trans hp, by rw [f2]; exact hc⟩
  cases ha : r.act with
  | skip => exact .go hin
  | newline => exact .go hin
  | echo => exact .go hin
  | separator => exact .leave rfl (GLex.separator_next h1 h2 ha)
  | codeStart => exact .go ⟨f1.trans hp, .inr rfl⟩
  | codeEnd =>
    refine .tok ⟨f1.trans hp, .inl ?_⟩ (by decide)
    show (if fs.place = .lexer then GLex.Cond.lexer else .initial) = .lexer
    rw [if_pos (f1.trans hp)]
  | more => exact .go ⟨f1.trans hp, by show fs.cond = _ ∨ fs.cond = _; rw [f2]; exact hc⟩
  | moreNewline => exact .go ⟨f1.trans hp, by show fs.cond = _ ∨ fs.cond = _; rw [f2]; exact hc⟩
  | ret t => rw [ha] at hr; exact .tok hin (by simpa [insideAct] using hr)
  | opening t => rw [ha] at hr; exact .tok hin (by simpa [insideAct] using hr)
  | closing t => rw [ha] at hr; exact .tok hin (by simpa [insideAct] using hr)
  | text n => rw [ha] at hr; exact .tok hin (by simpa [insideAct] using hr)
  | inner n => rw [ha] at hr; exact .tok hin (by simpa [insideAct] using hr)
  | _ => rw [ha] at hr; cases hr

theorem inside_lex {E : Env} : ∀ {f : Nat} {st : St} {s : List Nat} {r : Step}, Inside st → GLex.lex E f st s = some r → InsideStep r ∧ ∀ st s, r ≠ .go st s
  | 0, _, _, _, _, h => by cases h
  | f + 1, st, s, r, hi, h => by
    have hs := inside_step (E := E) hi s
    rw [GLex.lex] at h
    cases e : step E st s with
    | go st1 s1 =>
      rw [e] at h hs
      cases hs with
      | go hi1 => exact inside_lex hi1 h
    | _ => rw [e] at h hs; cases h; exact ⟨hs, by simp⟩

/-- In front of a semicolon, the next token is `;`. -/
theorem semi_lex {E : Env} {f : Nat} {st : St} {s : List Nat} {r : Step} (hc : st.cond = .initial) (hs : s.head? = some 59) (h : GLex.lex E f st s = some r) :
    ∃ x st' s', r = .ret (.ch 59) x st' s' := by
  cases f with
  | zero => cases h
  | succ f =>
    obtain ⟨s, rfl⟩ : ∃ q, s = 59 :: q := by
      cases s with
      | nil => cases hs
      | cons c q => cases hs; exact ⟨q, rfl⟩
    obtain ⟨t, i, k, r', h1, h2, h3, h4⟩ := GLex.step_shape E st (s := 59 :: s) (by simp)
    rw [hc] at h1 h2
    obtain ⟨⟨r2, hr2, hm, h0⟩, hb⟩ := GLex.select_some h1
    rw [h2] at hr2
    cases hr2
    have hi : i = 3 := by
      have hj : i ∈ GLex.startIdx .initial 59 := GLex.startIdx_mem h2 hm h0
      have hi : GLex.startIdx .initial 59 = [3, 64, 65] := by decide +kernel
      rw [hi] at hj
      simp only [List.mem_cons, List.not_mem_nil, or_false] at hj
      have h3' := hb 3 { body := GLex.plus (GLex.one 59), act := .place .body (.ch 59) } 1 1 rfl
        ((GLex.mem_cands_none rfl).2 ⟨rfl, by simp, GLex.mat_plus_cls.2 ⟨by simp, by simp⟩⟩) (by omega)
      rcases hj with h | rfl | rfl
      · exact h
      · cases h2
        have := GLex.len_cls rfl rfl hm
        omega
      · cases h2
        have := GLex.len_cls rfl rfl hm
        omega
    subst hi
    cases h2
    rw [GLex.lex, h3 (by simp)] at h
    cases h
    exact ⟨_, _, _, rfl⟩

/-- If a scan that begins in a lexer section ends well, there are two semicolons in a row, and before them no token with which a declaration begins. -/
theorem inside_scan {E : Env} : ∀ {f : Nat} {st st' : St} {s : List Nat} {toks : List T}, Inside st → GLex.scan E f st s = some (toks, .eof st') →
    ∃ xs a b ys, toks = xs ++ a :: b :: ys ∧ IsCh 59 a ∧ IsCh 59 b ∧ ∀ x ∈ xs, x.1 ∉ keyToks
  | 0, _, _, _, _, _, h => by cases h
  | f + 1, st, st', s, toks, hi, h => by
    rw [GLex.scan] at h
    cases e : GLex.lex E (s.length + 1) st s with
    | none => rw [e] at h; cases h
    | some r =>
      rw [e] at h
      obtain ⟨hr, hng⟩ := inside_lex hi e
      cases hr with
      | go _ => exact absurd rfl (hng _ _)
      | stop => cases h
      | undefined => cases h
      | tok hi' hk =>
        obtain ⟨⟨p, q⟩, hp, e2⟩ := Option.map_eq_some_iff.1 h
        cases e2
        obtain ⟨xs, a, b, ys, e3, ha, hb, hx⟩ := inside_scan hi' hp
        refine ⟨_ :: xs, a, b, ys, by rw [e3]; rfl, ha, hb, fun x hx' => ?_⟩
        rcases List.mem_cons.1 hx' with rfl | hx'
        · exact hk
        · exact hx x hx'
      | leave hc hs =>
        obtain ⟨⟨p, q⟩, hp, e2⟩ := Option.map_eq_some_iff.1 h
        cases e2
        cases f with
        | zero => cases hp
        | succ f =>
          rw [GLex.scan] at hp
          cases e4 : GLex.lex E (_ + 1) _ _ with
          | none => rw [e4] at hp; cases hp
          | some r =>
            rw [e4] at hp
            obtain ⟨x, st2, s2, rfl⟩ := semi_lex hc hs e4
            obtain ⟨q, hq, e5⟩ := Option.map_eq_some_iff.1 hp
            exact ⟨[], _, _, q.1, by rw [← e5]; rfl, rfl, rfl, by simp⟩

/-! ### The way into a lexer section -/

theorem scan_split {E : Env} {r : Step} : ∀ {a : List T} {f : Nat} {st : St} {s : List Nat} {t : T} {b : List T}, GLex.scan E f st s = some (a ++ t :: b, r) →
    ∃ f1 st1 s1 st2 s2 f2, GLex.lex E f1 st1 s1 = some (.ret t.1 t.2 st2 s2) ∧ GLex.scan E f2 st2 s2 = some (b, r)
  | a, 0, _, _, _, _, h => by cases h
  | a, f + 1, st, s, t, b, h => by
    rw [GLex.scan] at h
    cases e : GLex.lex E (s.length + 1) st s with
    | none => rw [e] at h; cases h
    | some q =>
      rw [e] at h
      cases q with
      | ret t' x st' s' =>
        obtain ⟨p, hp, e2⟩ := Option.map_eq_some_iff.1 h
        cases a with
        | nil =>
          simp only [List.nil_append, Prod.mk.injEq, List.cons.injEq] at e2
          obtain ⟨⟨rfl, e3⟩, e4⟩ := e2
          exact ⟨_, _, _, _, _, _, e, by rw [hp, ← e3, ← e4]⟩
        | cons c a =>
          simp only [List.cons_append, Prod.mk.injEq, List.cons.injEq] at e2
          obtain ⟨⟨_, e3⟩, e4⟩ := e2
          exact scan_split (a := a) (by rw [hp, ← e3, ← e4])
      | _ => simp at h

/-- A property of the tokens that the steps return. -/
theorem lex_ret {E : Env} {M : St → Prop} {P : GLex.Tok → St → Prop} (hs : ∀ st s, M st → match step E st s with | .go st' _ => M st' | .ret t _ st' _ => P t st' | _ => True) :
    ∀ {f : Nat} {st : St} {s : List Nat} {t : GLex.Tok} {x : List Nat} {st' : St} {s' : List Nat}, M st → GLex.lex E f st s = some (.ret t x st' s') → P t st'
  | 0, _, _, _, _, _, _, _, h => by cases h
  | f + 1, st, s, t, x, st', s', hM, h => by
    have := hs st s hM
    rw [GLex.lex] at h
    cases e : step E st s with
    | go st1 s1 =>
      rw [e] at h this
      exact lex_ret hs this h
    | _ =>
      rw [e] at h this
      cases h
      try exact this

/-- The actions that return `%lexer`. -/
def lexerAct (C : GLex.Cond) : GLex.Act → Bool
  | .place p t => t != .named "T_LEXER" || (p == .lexer && C == .initial)
  | .ret t | .enter _ t | .opening t | .closing t => t != .named "T_LEXER"
  | .text n | .inner n => n != "T_LEXER"
  | _ => true

theorem lexer_rules : ∀ C : GLex.Cond, ∀ r ∈ rulesOf C, lexerAct C r.act = true := by
  intro C
  cases C <;> decide +kernel

theorem step_nil (E : Env) (st : St) : step E st [] = .stop ∨ step E st [] = .eof st := by
  rw [step, if_pos rfl]
  split
  · exact .inl rfl
  · exact .inr rfl

theorem step_lexer {E : Env} (st : St) (s : List Nat) : match step E st s with | .go _ _ => True | .ret t _ st' _ => t = .named "T_LEXER" → st'.place = .lexer ∧ st'.cond = .initial | _ => True := by
  by_cases hs : s = []
  · subst hs
    rcases step_nil E st with e | e <;> rw [e] <;> trivial
  obtain ⟨t, i, k, r, h1, h2, h3, h4⟩ := GLex.step_shape E st hs
  have hr := lexer_rules st.cond r (List.mem_of_getElem? h2)
  by_cases hj : r.act = .reject
  · rw [(h4 hj).2]; trivial
  rw [h3 hj]
  obtain ⟨f1, f2⟩ := feed_place st (s.take k)
  generalize hF : GLex.feed st (s.take k) = fs at f1 f2
  cases ha : r.act with
  | place p t =>
    rw [ha] at hr
    intro ht
    simp only [lexerAct, ht, bne_self_eq_false, Bool.false_or, Bool.and_eq_true, beq_iff_eq] at hr
    exact ⟨hr.1, f2.trans hr.2⟩
  | ret t => rw [ha] at hr; intro ht; simp [lexerAct, ht] at hr
  | enter _ t => rw [ha] at hr; intro ht; simp [lexerAct, ht] at hr
  | opening t => rw [ha] at hr; intro ht; simp [lexerAct, ht] at hr
  | closing t => rw [ha] at hr; intro ht; simp [lexerAct, ht] at hr
  | text n => rw [ha] at hr; intro ht; cases ht; simp [lexerAct] at hr
  | inner n => rw [ha] at hr; intro ht; cases ht; simp [lexerAct] at hr
  | arrow => intro ht; simp at ht
  | bracket => simp only [GLex.run]; cases fs.place <;> simp [GLex.finish]
  | separator => intro ht; cases ht
  | codeEnd => intro ht; simp at ht
  | argsEnd =>
    simp only [GLex.run]
    by_cases ho : fs.opened - 1 < 0
    · rw [if_pos ho]; intro ht; simp at ht
    · rw [if_neg ho]; trivial
  | typeEnd =>
    simp only [GLex.run]
    cases GLex.stripped (st.kept ++ s.take k).dropLast with
    | none => trivial
    | some t => intro ht; simp at ht
  | _ => trivial

/-- Between `%lexer` and `->`. -/
def Begun (st : St) : Prop := st.place = .lexer ∧ (st.cond = .initial ∨ st.cond = .code)

def begunAct (C : GLex.Cond) : GLex.Act → Bool
  | .skip | .newline | .unexpected | .echo | .codeStart | .codeEnd | .more | .moreNewline => true
  | .arrow | .bracket => C == .initial
  | .ret t => C == .initial && t != .named "T_ARROW"
  | .inner n => C == .initial && n != "T_ARROW"
  | .text n => C == .initial && n != "T_ARROW"
  | .place _ t | .enter _ t => t != .named "T_STRING" && t != .named "T_ARROW"
  | _ => false

theorem begun_rules : ∀ C : GLex.Cond, C = .initial ∨ C = .code → ∀ r ∈ rulesOf C, begunAct C r.act = true := by
  rintro C (rfl | rfl) <;> decide +kernel

theorem step_begun {E : Env} (st : St) (s : List Nat) (h : Begun st) : match step E st s with
    | .go st' _ => Begun st'
    | .ret t _ st' _ => (t = .named "T_STRING" → Begun st') ∧ (t = .named "T_ARROW" → Inside st')
    | _ => True := by
  obtain ⟨hp, hc⟩ := h
  by_cases hs : s = []
  · subst hs
    rcases step_nil E st with e | e <;> rw [e] <;> trivial
  obtain ⟨t, i, k, r, h1, h2, h3, h4⟩ := GLex.step_shape E st hs
  have hr := begun_rules st.cond hc r (List.mem_of_getElem? h2)
  have hj : r.act ≠ .reject := by rintro e; rw [e] at hr; cases hr
  rw [h3 hj]
  obtain ⟨f1, f2⟩ := feed_place st (s.take k)
  generalize hF : GLex.feed st (s.take k) = fs at f1 f2
  have hb : Begun fs := ⟨f1.trans hp, by rw [f2]; exact hc⟩
  cases ha : r.act with
  | skip => exact hb
  | newline => exact hb
  | echo => exact hb
  | unexpected => trivial
  | codeStart => exact ⟨f1.trans hp, .inr rfl⟩
  | codeEnd => exact ⟨fun ht => by simp at ht, fun ht => by simp at ht⟩
  | more => exact hb
  | moreNewline => exact hb
  | arrow =>
    refine ⟨fun ht => by simp at ht, fun _ => ?_⟩
    show Inside (if fs.place = .lexer then _ else _)
    rw [if_pos (f1.trans hp)]
    exact ⟨f1.trans hp, .inl rfl⟩
  | bracket =>
    simp only [GLex.run, f1.trans hp]
    exact hb
  | ret t =>
    rw [ha] at hr
    simp only [begunAct, Bool.and_eq_true, bne_iff_ne] at hr
    exact ⟨fun _ => hb, fun ht => absurd ht hr.2⟩
  | text n =>
    rw [ha] at hr
    simp only [begunAct, Bool.and_eq_true, bne_iff_ne] at hr
    exact ⟨fun _ => hb, fun ht => absurd (GLex.Tok.named.inj ht) hr.2⟩
  | inner n =>
    rw [ha] at hr
    simp only [begunAct, Bool.and_eq_true, bne_iff_ne] at hr
    exact ⟨fun _ => hb, fun ht => absurd (GLex.Tok.named.inj ht) hr.2⟩
  | place p t =>
    rw [ha] at hr
    simp only [begunAct, Bool.and_eq_true, bne_iff_ne] at hr
    exact ⟨fun ht => absurd ht hr.1, fun ht => absurd ht hr.2⟩
  | enter p t =>
    rw [ha] at hr
    simp only [begunAct, Bool.and_eq_true, bne_iff_ne] at hr
    exact ⟨fun ht => absurd ht hr.1, fun ht => absurd ht hr.2⟩
  | _ => rw [ha] at hr; cases hr

/-- Behind `%lexer`, a string or none, and `->`, the scanner is in a lexer section. -/
theorem scan_section {E : Env} {f : Nat} {st : St} {s : List Nat} {p us : List T} {t a : T} {m : List T} {r : Step} (h : GLex.scan E f st s = some (p ++ t :: (m ++ a :: us), r)) (ht : IsKey "T_LEXER" t)
    (hm : m = [] ∨ ∃ x, m = [(.named "T_STRING", x)]) (ha : IsKey "T_ARROW" a) : ∃ f' st' s', Inside st' ∧ GLex.scan E f' st' s' = some (us, r) := by
  obtain ⟨f1, st1, s1, st2, s2, f2, h1, h2⟩ := scan_split h
  have b2 : Begun st2 := by
    obtain ⟨h3, h4⟩ := lex_ret (E := E) (M := fun _ => True) (P := fun t st' => t = .named "T_LEXER" → st'.place = .lexer ∧ st'.cond = .initial)
      (fun st s _ => by have := step_lexer (E := E) st s; revert this; cases step E st s <;> simp) trivial h1 ht
    exact ⟨h3, .inl h4⟩
  have next : ∀ {f : Nat} {st : St} {s : List Nat} {t : GLex.Tok} {x : List Nat} {st' : St} {s' : List Nat}, Begun st → GLex.lex E f st s = some (.ret t x st' s') →
      (t = .named "T_STRING" → Begun st') ∧ (t = .named "T_ARROW" → Inside st') := lex_ret (P := fun t st' => (t = .named "T_STRING" → Begun st') ∧ (t = .named "T_ARROW" → Inside st')) step_begun
  have arrow : ∀ {f : Nat} {st : St} {s : List Nat}, Begun st → GLex.scan E f st s = some (a :: us, r) → ∃ f' st' s', Inside st' ∧ GLex.scan E f' st' s' = some (us, r) := by
    intro f st s hb h
    cases f with
    | zero => cases h
    | succ f =>
      rw [GLex.scan] at h
      cases e : GLex.lex E (s.length + 1) st s with
      | none => rw [e] at h; cases h
      | some q =>
        rw [e] at h
        cases q with
        | ret t' x st' s' =>
          obtain ⟨p, hp, e2⟩ := Option.map_eq_some_iff.1 h
          simp only [Prod.mk.injEq, List.cons.injEq] at e2
          obtain ⟨⟨rfl, e3⟩, e4⟩ := e2
          exact ⟨_, _, _, (next hb e).2 ha, by rw [hp, ← e3, ← e4]⟩
        | _ => simp at h
  rcases hm with rfl | ⟨x, rfl⟩
  · exact arrow b2 h2
  · cases f2 with
    | zero => cases h2
    | succ f2 =>
      rw [GLex.scan] at h2
      cases e : GLex.lex E (s2.length + 1) st2 s2 with
      | none => rw [e] at h2; cases h2
      | some q =>
        rw [e] at h2
        cases q with
        | ret t' x st' s' =>
          obtain ⟨p, hp, e2⟩ := Option.map_eq_some_iff.1 h2
          simp only [List.cons_append, List.nil_append, Prod.mk.injEq, List.cons.injEq] at e2
          obtain ⟨⟨⟨rfl, rfl⟩, e3⟩, e4⟩ := e2
          exact arrow ((next b2 e).1 rfl) (by rw [hp, ← e3, ← e4])
        | _ => simp at h2

end Verif.Top
