import Verif.Front.LookComplete
import Verif.Front.FileProps

/-!
# C100, C113: rules as written which one token of lookahead decides
-/

namespace Verif.Front

open Verif.Grammar (Tables find World Der Wf OpsOk BareOk computeFirst computeFollow)
open Verif.Gen (Ctx LL1)
open Verif.Syntax (Name Rule)
open Verif.Read (Made)
open Verif.Whole (User host run)

section
variable {toks : List (Name × Name)} {ts : List Syntax.Tok} {rs : List Rule} {st : St}

/-- What the rules are made to. -/
theorem setting_of {W : World} (h : ActRs ts rs (({} : St).tokens toks) st) (hd : DeclaredIn toks rs) (hW : Handed st.finish.1 W) (hs : ∀ r ∈ rs, Simple False r.item) (hop : OpsFine rs) :
    Setting W st.finish.1.tab rs st.finish.2 := by
  have hwf := C99_well_formed h hd hW
  obtain ⟨p1, p2, _⟩ := plain_world h hd hW hs hop
  have p4 := simple_world h hd hW hs
  obtain ⟨_, _, _, t4⟩ := C99_terminals h hd hW
  have hstart := fun r (hr : r ∈ rs) => (C99_start h hd hW hr).1
  have hbare := Grammar.bareOk_of_none p2 fun n hn => p4 _ _ hn
  obtain ⟨hb, _⟩ := built_of h hd
  obtain ⟨h1, _, h3, h4, h5, h6⟩ := finish_built hb
  have hfull : FullRs st.finish.1 rs := finish_full h (by
    have e : (({} : St).tokens toks).Knows = fun s => s ∈ toks.map (·.1) := funext fun x => propext (by rw [(tokens_built toks built_init).2]; simp [St.Knows, find])
    rw [e]; exact hd)
  obtain ⟨rules, ns, hp, hnd, hns, hall, rfl⟩ := hW
  have S := stands h1 hp hnd hns hall
  have hnodes := (Grammar.C43_nodes (st.finish.1.world rules) ns hnd hns hall).1
  have hpar : (Grammar.rewrite (st.finish.1.world rules) ns).parsed = st.finish.1.heap.length := (Grammar.foldl_addBnf ns hnd (st.finish.1.world rules) [] (Nat.le_refl _) (by simp)
    (fun m hm => ⟨st.finish.1.heap[m]'(hns m hm), List.getElem?_eq_getElem _⟩)).2.2
  have get : ∀ (n : Nat) (it : Grammar.Item), st.finish.1.heap[n]? = some it → (Grammar.rewrite (st.finish.1.world rules) ns).node n = some it := fun n it hn => (hnodes n (get_lt hn)).trans hn
  have hrule : ∀ e r, RuleRep (st.finish.1.heap[·]?) st.finish.1.tab e r → RuleRep (Grammar.rewrite (st.finish.1.world rules) ns).node st.finish.1.tab e r := by
    rintro e r ⟨m, k, g1, g2, g3⟩
    exact ⟨m, k, get _ _ g1, g2, g3.mono get (fun _ _ h => h) fun _ _ h => h⟩
  have back : ∀ {n : Nat} {it : Grammar.Item}, n < (Grammar.rewrite (st.finish.1.world rules) ns).parsed → (Grammar.rewrite (st.finish.1.world rules) ns).node n = some it → st.finish.1.heap[n]? = some it := fun hl hn => by
    rw [hpar] at hl
    rw [hnodes _ hl] at hn
    exact hn
  refine ⟨S, hwf, p1, p2, hbare, hs, fun r hr => ?_, fun n hn => ?_, fun n it hl hn h2 => ?_, fun n p hn => ?_, fun t ht => (t4 t).2 ht, fun n l c hn => p4 _ _ hn, h4, fun r hr k hk hst => ?_,
    st.finish.1.rules, ?_, h1.rules.mono hrule⟩
  · obtain ⟨_, _, _, _, _, _, h7⟩ := S.right r hr
    exact h7.valid
  · have hn' := back (Grammar.parsed_of hwf hn (by simp) (by simp)) hn
    obtain ⟨s, hs'⟩ := h1.inv.named n hn'
    refine ⟨s, hs', ?_⟩
    obtain ⟨m, hm, hc⟩ := h1.counts
    by_contra hno
    simp only [not_or] at hno
    have h8 : m s = 0 := (hm s).2 fun r hr hr' => hno.2 ⟨r, hr, hr'⟩
    have h9 : (rs.filter fun r => r.sym = s).length = 0 := by
      rw [List.length_eq_zero_iff, List.filter_eq_nil_iff]
      exact fun r hr hr' => hno.1 ⟨r, hr, by simpa using hr'⟩
    have := (hc.none s).2 (by simp only [h8, h9])
    rw [this] at hs'
    cases hs'
  · obtain ⟨r, hr, j, h7, h8⟩ := hfull n it (back hl hn) h2
    exact ⟨r, hr, j, h7, h8.mono get (fun _ _ h => h) fun _ _ h => h⟩
  · obtain ⟨r, hr, m, o, h7, ⟨p', g1, ⟨s, a, k, g2, g3, g4⟩, g5, g6⟩, h9⟩ := p4 n _ hn
    have g1 : st.finish.1.heap[m]? = _ := g1
    rw [h9] at g1
    cases g1
    exact ⟨r, hr, o, h7, p, hn, ⟨s, a, k, g2, get _ _ g3, g4⟩, g5, g6⟩
  · exact hstart r hr ⟨k, hk, hst⟩
  · have e : (Grammar.rewrite (st.finish.1.world rules) ns).rules = rules := (Grammar.foldl_rules ns _).1
    rw [e]; exact hp

/-- C113 (partial): the FIRST and FOLLOW sets of a symbol, by the rules as written: a terminal is in FIRST exactly if a sentence of the symbol begins with its name, and in FOLLOW exactly if its name may
come behind the symbol.  Missing: inlined symbols, ternary operators, bare code, `try`; rules for which one token of lookahead does not decide. -/
theorem C113_sets_partial {K : Ctx} (h : ActRs ts rs (({} : St).tokens toks) st) (hd : DeclaredIn toks rs) (hW : Handed st.finish.1 K.W) (he : K.eofTok = st.finish.2)
    (hs : ∀ r ∈ rs, Simple False r.item) (hop : OpsFine rs) (hL : Look rs) {f1 k1 f2 k2 : Nat} (hF : computeFirst K.W f1 k1 = some K.F) (hS : computeFollow K.W K.F K.eofTok f2 k2 = some K.S)
    {s x : Name} {k t : Nat} (hk : find st.finish.1.tab.symbols s = some k) (ht : find st.finish.1.tab.terminals x = some t) :
    ((k, t) ∈ K.F ↔ ∃ ω, Sentence rs s (x :: ω)) ∧ ((k, t) ∈ K.S ↔ After rs s x) := by
  have H := setting_of h hd hW hs hop
  rw [← he] at H
  refine ⟨⟨fun hf => ?_, fun ⟨ω, hω⟩ => ?_⟩, fun hf => ?_, fun ha => after_follow H hL hF hS (fun s k hal hk => ?_) ha hk ht⟩
  · rcases Grammar.C36_sound_partial H.wf H.opsOk (H.lead hL) hF hf with ⟨e, _⟩ | ⟨h1, γ, h2⟩
    · have := H.wf.zero
      rw [← e, H.stands.term _ _ ht] at this
      cases this
    · obtain ⟨y, ω, y1, y2⟩ := (H.begins hL h1 h2).2 s hk
      rw [H.stands.termInj _ _ _ y1 ht] at y2
      exact ⟨ω, y2⟩
  · obtain ⟨α, a1, a2⟩ := (sentence_der H.stands hk _).1 hω
    cases α with
    | nil => exact a1.elim
    | cons t' γ =>
      obtain ⟨a1, a3⟩ := a1
      rw [ht] at a1
      cases a1
      exact Grammar.C35_symbols_partial H.wf H.opsOk H.bare hF (H.stands.sym _ _ hk) (H.term _ (H.stands.term _ _ ht)) a2
  · obtain ⟨y, y1, y2⟩ := follow_sym H hL hF hS hk hf
    rw [H.stands.termInj _ _ _ y1 ht] at y2
    exact y2
  · have hr : ∃ r ∈ rs, r.sym = s := by
      have h1 := hal.1
      cases e : rs.filter fun r => r.sym = s with
      | nil => rw [e] at h1; cases h1
      | cons r l =>
        have : r ∈ rs.filter fun r => r.sym = s := by rw [e]; exact .head _
        obtain ⟨h2, h3⟩ := List.mem_filter.1 this
        exact ⟨r, h2, by simpa using h3⟩
    obtain ⟨r, hr, rfl⟩ := hr
    obtain ⟨k', h1, h2⟩ := (C99_start h hd hW hr).2 hal
    rw [hk] at h1
    cases h1
    exact h2

/-- C113 (partial): if one token of lookahead decides by the rules as written, it does by the nodes and the computed sets.  Missing: as in `C113_sets_partial`. -/
theorem C113_lookahead_partial {K : Ctx} (h : ActRs ts rs (({} : St).tokens toks) st) (hd : DeclaredIn toks rs) (hW : Handed st.finish.1 K.W) (he : K.eofTok = st.finish.2)
    (hs : ∀ r ∈ rs, Simple False r.item) (hop : OpsFine rs) (hL : Look rs) {f1 k1 f2 k2 : Nat} (hF : computeFirst K.W f1 k1 = some K.F) (hS : computeFollow K.W K.F K.eofTok f2 k2 = some K.S) : LL1 K := by
  have H := setting_of h hd hW hs hop
  rw [← he] at H
  exact look_ll1 H hL hF hS

/-- C100 (partial): like `C100_exactly_partial`, all conditions being about the rules as written.  Missing: inlined symbols, ternary operators, bare code, `try`; grammars that need more lookahead. -/
theorem C100_written_partial {K : Ctx} (h : ActRs ts rs (({} : St).tokens toks) st) (hd : DeclaredIn toks rs) (hW : Handed st.finish.1 K.W) (he : K.eofTok = st.finish.2)
    (hs : ∀ r ∈ rs, Simple False r.item) (hop : OpsFine rs) {r : Rule} (hr : r ∈ rs) (hal : Alone rs r.sym) (hL : Look rs) {f1 k1 f2 k2 : Nat} (hF : computeFirst K.W f1 k1 = some K.F)
    (hS : computeFollow K.W K.F K.eofTok f2 k2 = some K.S) {U : User} (hor : ∀ k, U.oracle k = true) {num : Name → Nat} {numOf : Nat → Nat} (hn : Numbered st.finish.1.tab num numOf) :
    ∃ k, find st.finish.1.tab.symbols r.sym = some k ∧ ∃ fuel0, ∀ fuel, fuel0 ≤ fuel → ∀ D L, Made D L → D.Advances →
      Fits toks num (fun x => ∃ r p u q, p < D.n ∧ D.found r p = some (u, q) ∧ u.term = .tok x) →
      ((∃ f σ, run K fuel (host L K.W numOf) U f k = some (.ok, σ)) ↔ ∃ ω, Sentence rs r.sym ω ∧ Cut D num ω) :=
  C100_exactly_partial h hd hW he hs hop hr hal (C113_lookahead_partial h hd hW he hs hop hL hF hS) hF hS hor hn

end

/-! ### With the lexer of the file -/

section
open Verif.LexSyn Verif.Auto Verif.LexFile
variable {C : Type} [CharSetLike C] {A : Chars C} {R : LexSyn.Spec.Reading} {toks : List (Name × Name)} {ts : List Syntax.Tok} {rs : List Rule} {st : St}

/-- C100 (partial): like `C100_file_partial`, all conditions on the grammar being about the rules as written.  Missing: what is missing in `C96_lexer_partial` and `C100_written_partial`. -/
theorem C100_written_file_partial (hsz : 0 < CharSetLike.size C) (hR : R.Bounded) (order : List Bits → List Bits) (ho : Enumerates order) (uni : Store C → LexSyn.Out (Store C)) (st0 : Store C) (N : Text → Lang)
    (hst : ∀ s d, st0 s = some d → d.ready = false ∧ d.nfa.Wf ∧ ∀ w, d.nfa.Lang w ↔ N s w) (ss : List (Option Text × List Decl))
    (hu : (∃ ds ss', ss = (none, ds) :: ss') ∧ uni (fun _ => none) = .ok st0 ∨ (∀ p ∈ ss, p.1 ≠ none) ∧ st0 = fun _ => none)
    (hf : ∀ p ∈ ss, FaithfulAll A R p.2) (hb : BehindFile A R N (fun s => st0 s ≠ none) ss) (hcl : LexSyn.Spec.ClosedFile (fun s => st0 s ≠ none) ss)
    (hsafe : LexSyn.Spec.SafeFile R (CharSetLike.size C) N ss) {step : List (C × Nat) → Nat → Option Nat} (hstep : ∀ d : DFA C, d.Wf → OnePer d.rules → Lexer.StepOk step d)
    (I : Numbers) {es : Nat → LexFile.Spec.Rules} (hes : ∀ r, LexFile.Spec.File R (CharSetLike.size C) I.tok I.num (I.name r) N ss (es r)) (hus : ∀ r, LexFile.Spec.Usable (es r))
    (hfail : ∀ r, LexFile.Spec.Quiet (LexSyn.Spec.last (LexSyn.Spec.bytes "qDebug() << \"error\"; exit(-1);") LexSyn.Spec.failCode (LexSyn.Spec.ofEnv (I.name r) ss)))
    (hadv : ∀ r, ∀ e ∈ es r, ∀ w, e.1 w → e.2.ahead < w.length)
    {K : Ctx} (h : ActRs ts rs (({} : St).tokens toks) st) (hd : DeclaredIn toks rs) (hW : Handed st.finish.1 K.W) (he : K.eofTok = st.finish.2)
    (hs : ∀ r ∈ rs, Simple False r.item) (hop : OpsFine rs) {r : Rule} (hr : r ∈ rs) (hal : Alone rs r.sym) (hL : Look rs) {f1 k1 f2 k2 : Nat} (hF : computeFirst K.W f1 k1 = some K.F)
    (hS : computeFollow K.W K.F K.eofTok f2 k2 = some K.S) {U : User} (hor : ∀ k, U.oracle k = true) {num : Name → Nat} {numOf : Nat → Nat} (hn : Numbered st.finish.1.tab num numOf)
    (hfit : Fits toks num fun x => ∃ r, ∃ e ∈ es r, e.2.term = .tok x) :
    ∃ k, find st.finish.1.tab.symbols r.sym = some k ∧ ∃ F, ∀ fuel, F ≤ fuel → ∃ sys, execFile A order fuel uni Sys.init ss = .ok sys ∧
      ∃ d : Nat → DFA C, (∀ r, ∃ G, ∀ fuel', G ≤ fuel' → automaton order fuel' (sys.envs (I.name r)).rules (sys.envs (I.name r)).actions = some (d r)) ∧
        ∀ buf, (∀ x ∈ buf, x < CharSetLike.size C) → ∀ L, Generated I step d sys buf L → ∃ D, LexFile.Spec.Describes es buf D ∧
          ((∃ f σ, run K fuel (host L K.W numOf) U f k = some (.ok, σ)) ↔ ∃ ω, Sentence rs r.sym ω ∧ Cut D num ω) :=
  C100_file_partial hsz hR order ho uni st0 N hst ss hu hf hb hcl hsafe hstep I hes hus hfail hadv h hd hW he hs hop hr hal (C113_lookahead_partial h hd hW he hs hop hL hF hS) hF hS hor hn hfit

end

/-! ### Examples -/

/-- Where the items of `listRules` stand. -/
theorem list_at {i : Syntax.Item} {k : List Syntax.Item} {s : Name} (h : At listRules i k s) : s = [115] ∧ ((i = .cons (.term [78]) (.star (.alt (.term [65]) (.term [67]))) ∧ k = []) ∨
    (i = .star (.alt (.term [65]) (.term [67])) ∧ k = []) ∨ (i = .term [78] ∧ k = [.star (.alt (.term [65]) (.term [67]))]) ∨
    (i = .alt (.term [65]) (.term [67]) ∧ k = [.star (.alt (.term [65]) (.term [67]))]) ∨ ((i = .term [65] ∨ i = .term [67]) ∧ k = [.star (.alt (.term [65]) (.term [67]))])) := by
  induction h with
  | rule hr => cases List.mem_singleton.1 hr; exact ⟨rfl, .inl ⟨rfl, rfl⟩⟩
  | altL _ ih => obtain ⟨rfl, ih⟩ := ih; simp at ih; obtain ⟨⟨rfl, rfl⟩, rfl⟩ := ih; simp
  | altR _ ih => obtain ⟨rfl, ih⟩ := ih; simp at ih; obtain ⟨⟨rfl, rfl⟩, rfl⟩ := ih; simp
  | consL _ ih => obtain ⟨rfl, ih⟩ := ih; simp at ih; obtain ⟨⟨rfl, rfl⟩, rfl⟩ := ih; simp
  | consR _ ih => obtain ⟨rfl, ih⟩ := ih; simp at ih; obtain ⟨⟨rfl, rfl⟩, rfl⟩ := ih; simp
  | star _ ih => obtain ⟨rfl, ih⟩ := ih; simp at ih; obtain ⟨rfl, rfl⟩ := ih; simp
  | _ _ ih => obtain ⟨_, ih⟩ := ih; simp at ih

theorem begins_term {rs : List Rule} {a t : Name} (h : Begins rs (.term a) t) : t = a := by
  obtain ⟨ω, h⟩ := h
  cases h
  rfl

theorem list_star {ω : List Name} {t : Name} (h : Sen listRules (.star (.alt (.term [65]) (.term [67]))) (t :: ω)) : t = [65] ∨ t = [67] := by
  generalize e : t :: ω = α at h
  cases h with
  | none => cases e
  | again h1 _ =>
    cases h1 with
    | left h1 => cases h1; cases e; exact .inl rfl
    | right h1 => cases h1; cases e; exact .inr rfl

theorem list_after {s t : Name} (h : After listRules s t) : t = eofName := by
  have no : ∀ {s a k s'}, ¬ At listRules (.nonterm s a) k s' := fun h => by have := list_at h; simp at this
  cases h with
  | eof => rfl
  | next h _ => exact absurd h no
  | last h _ _ => exact absurd h no
  | opNext hr e => cases List.mem_singleton.1 hr; cases e
  | opLast hr e => cases List.mem_singleton.1 hr; cases e

theorem list_follows {s t : Name} (h : Follows listRules [] s t) : t = eofName := by
  rcases h with ⟨ω, h⟩ | ⟨_, h⟩
  · cases h
  · exact list_after h

/-- `N (A | C)* -> s` -/
theorem list_look : Look listRules := by
  have ne : ([65] : Name) ≠ eofName ∧ ([67] : Name) ≠ eofName := by decide +kernel
  refine ⟨fun r hr s hs => ?_, fun i j k s h => ?_, fun i j k s m h hm h0 => ?_, fun i m k s hm h => ?_, fun i j k s h h0 => ?_, ?_, fun r hr o e => ?_, fun r hr o e => ?_, fun r hr o s a e => ?_, fun r hr o e => ?_⟩
  · cases List.mem_singleton.1 hr
    rcases hs with h | h | h <;> exact absurd h id
  · obtain ⟨_, h⟩ := list_at h
    simp only [reduceCtorEq, false_and, false_or, or_false, Syntax.Item.alt.injEq] at h
    obtain ⟨⟨rfl, rfl⟩, _⟩ := h
    refine .cons (fun m' hm' => ?_) (.cons (fun _ h => nomatch h) .nil)
    cases List.mem_singleton.1 hm'
    refine ⟨⟨_, _, .term⟩, fun t h1 h2 => ?_, fun h0 => nomatch h0⟩
    have := begins_term h1
    rw [begins_term h2] at this
    exact absurd this (by decide)
  · obtain ⟨_, h⟩ := list_at h
    simp only [reduceCtorEq, false_and, false_or, or_false, Syntax.Item.alt.injEq] at h
    obtain ⟨⟨rfl, rfl⟩, _⟩ := h
    simp only [choices, List.cons_append, List.nil_append, List.mem_cons, List.not_mem_nil, or_false] at hm
    rcases hm with rfl | rfl <;> cases h0
  · obtain ⟨_, h⟩ := list_at h
    rcases hm with rfl | rfl
    · simp only [reduceCtorEq, false_and, false_or, or_false, Syntax.Item.star.injEq] at h
      obtain ⟨rfl, rfl⟩ := h
      refine ⟨⟨[65], _, .again (α := [[65]]) (.left .term) .none⟩, fun t ⟨ω, h1⟩ h2 => ?_⟩
      have := list_follows h2
      subst this
      rcases list_star h1 with h | h
      · exact ne.1 h.symm
      · exact ne.2 h.symm
    · simp at h
  · obtain ⟨_, h⟩ := list_at h
    simp only [reduceCtorEq, false_and, or_false, Syntax.Item.cons.injEq] at h
    obtain ⟨⟨rfl, rfl⟩, _⟩ := h
    cases h0
  · exact .cons (fun _ h => nomatch h) .nil
  all_goals cases List.mem_singleton.1 hr; cases e

/-- The conditions of `C100_written_partial` hold for these rules, also those of `C113_lookahead_partial`. -/
example : LL1 listK := C113_lookahead_partial (K := listK) list_act list_declared list_handed rfl (fun r hr => by cases List.mem_singleton.1 hr; exact ⟨trivial, trivial, trivial⟩)
  (fun r hr o ho => by cases List.mem_singleton.1 hr; cases ho) list_look (f1 := 50) (k1 := 20) (f2 := 50) (k2 := 20) (by decide +kernel) (by decide +kernel)

section
open Verif.Whole Verif.LexFile Verif.LexSyn Verif.Auto

/-- The conditions of `C100_written_file_partial` hold; the text `1ax#b!` with the tokens `N A C` is accepted. -/
example : ∃ k numOf, find listSt.finish.1.tab.symbols [115] = some k ∧ Numbered listSt.finish.1.tab listNumber numOf ∧
    ∃ F, ∀ fuel, F ≤ fuel → ∃ sys, execFile asciiChars List.dedup fuel (fun _ => .stuck) Sys.init exFile = .ok sys ∧
      ∃ d : Nat → DFA (CharSet.Table 128), ∀ L, Generated exNumbers Lexer.tableStep d sys [49, 97, 120, 35, 98, 33] L → ∃ f σ, run listK fuel (host L listK.W numOf) quietUser f k = some (.ok, σ) := by
  obtain ⟨c1, c2, c3, c4, c5, c6⟩ := ex_conditions
  obtain ⟨numOf, hn⟩ := numbered_exists (C99_terminals list_act list_declared list_handed).2.1 listNumber
  obtain ⟨k, hk, F, h⟩ := C100_written_file_partial (C := CharSet.Table 128) (A := asciiChars) (R := exK) (by decide) c1 List.dedup enumerates_dedup (fun _ => .stuck) exStore exN (by simp) exFile
    (Or.inr ⟨by simp, rfl⟩) c2 c3 c4 c5 ex_tab exNumbers (es := fun _ => LexFile.exRules) (fun _ => ex_file) (fun _ => ex_usable) c6 (fun _ => ex_advances)
    (K := listK) list_act list_declared list_handed rfl (fun r hr => by cases List.mem_singleton.1 hr; exact ⟨trivial, trivial, trivial⟩) (fun r hr o ho => by cases List.mem_singleton.1 hr; cases ho) (r := listRules[0]) (.head _)
    ⟨by decide +kernel, fun r hr => by cases List.mem_singleton.1 hr; exact fun h => by rcases h with h | h | h <;> exact h⟩ list_look
    (f1 := 50) (k1 := 20) (f2 := 50) (k2 := 20) (by decide +kernel) (by decide +kernel) (U := quietUser) (fun _ => rfl) hn list_fits
  refine ⟨k, numOf, hk, hn, F, fun fuel hf => ?_⟩
  obtain ⟨sys, h1, d, h2, h3⟩ := h fuel hf
  refine ⟨sys, h1, d, fun L hL => ?_⟩
  obtain ⟨D, d1, d2⟩ := h3 _ (by decide) L hL
  refine d2.2 ⟨[[78], [65], [67]], ⟨_, .head _, rfl, .cons (α := [[78]]) .term (.again (α := [[65]]) (.left .term) (.again (α := [[67]]) (.right .term) .none))⟩, ?_⟩
  exact list_yields d1

end

theorem sum_at {i : Syntax.Item} {k : List Syntax.Item} {s : Name} (h : At sumRules i k s) : k = [] ∧ ((i = .op ⟨.sym [97] [], sumDecls⟩ ∧ s = [115]) ∨ (i = .term [78] ∧ s = [97])) := by
  induction h with
  | rule hr =>
    simp only [sumRules, List.mem_cons, List.not_mem_nil, _root_.or_false] at hr
    rcases hr with rfl | rfl <;> simp
  | _ _ ih => obtain ⟨_, ih⟩ := ih; simp at ih

theorem sum_after {t : Name} (h : After sumRules [115] t) : t = eofName := by
  have no : ∀ {s a k s'}, ¬ At sumRules (.nonterm s a) k s' := fun h => by have := sum_at h; simp at this
  generalize e : ([115] : Name) = s at h
  cases h with
  | eof => rfl
  | next h _ => exact absurd h no
  | last h _ _ => exact absurd h no
  | opNext hr e' hb =>
    simp only [sumRules, List.mem_cons, List.not_mem_nil, _root_.or_false] at hr
    rcases hr with rfl | rfl
    · cases e'; cases hb; exact absurd e (by decide)
    · cases e'
  | opLast hr e' hb =>
    simp only [sumRules, List.mem_cons, List.not_mem_nil, _root_.or_false] at hr
    rcases hr with rfl | rfl
    · cases e'; cases hb; exact absurd e (by decide)
    · cases e'

/-- `%< a %bin A 1 %left %post C 2 %> s ;  N -> a ;` -/
theorem sum_look : Look sumRules := by
  have two : ∀ {r : Rule} {o : Syntax.OpExpr}, r ∈ sumRules → r.item = .op o → o = ⟨.sym [97] [], sumDecls⟩ ∧ r.sym = [115] := by
    intro r o hr e
    simp only [sumRules, List.mem_cons, List.not_mem_nil, _root_.or_false] at hr
    rcases hr with rfl | rfl <;> cases e
    exact ⟨rfl, rfl⟩
  refine ⟨fun r hr s hs => ?_, fun i j k s h => ?_, fun i j k s m h hm h0 => ?_, fun i m k s hm h => ?_, fun i j k s h h0 => ?_, ?_, fun r hr o e => ?_, fun r hr o e d hd hp => ?_, fun r hr o s a e hb d hd hp => ?_, fun r hr o e q q' hm => ?_⟩
  · simp only [sumRules, List.mem_cons, List.not_mem_nil, _root_.or_false] at hr
    rcases hr with rfl | rfl
    · obtain ⟨a, h⟩ := hs
      cases h
      exact ⟨[[78]], sumRules[1], .tail _ (.head _), rfl, .term⟩
    · exact absurd hs id
  · have := sum_at h; simp at this
  · have := sum_at h; simp at this
  · have := sum_at h; rcases hm with rfl | rfl <;> simp at this
  · have := sum_at h; simp at this
  · refine .cons (fun r' hr' => ?_) (.cons (fun _ h => nomatch h) .nil)
    cases List.mem_singleton.1 hr'
    exact fun h => absurd h (by decide)
  · obtain ⟨rfl, _⟩ := two hr e
    decide +kernel
  · obtain ⟨rfl, h2⟩ := two hr e
    rw [h2]
    simp only [sumDecls, List.mem_cons, List.not_mem_nil, _root_.or_false] at hd
    refine ⟨fun h => ?_, fun q q' h => ?_⟩
    · have := sum_after h
      rcases hd with rfl | rfl <;> revert this <;> decide +kernel
    · simp [sumDecls] at h
  · obtain ⟨rfl, _⟩ := two hr e
    simp only [sumDecls, List.mem_cons, List.not_mem_nil, _root_.or_false] at hd
    rcases hd with rfl | rfl <;> simp at hp
  · obtain ⟨rfl, _⟩ := two hr e
    simp [sumDecls] at hm

example : LL1 sumK := C113_lookahead_partial (K := sumK) sum_act sum_declared sum_handed rfl sum_simple sum_fine sum_look (f1 := 50) (k1 := 20) (f2 := 50) (k2 := 20) (by decide +kernel) (by decide +kernel)

/-- The conditions of `C113_sets_partial` hold: `A` may come behind `a`, so it is in the FOLLOW set of `a`; it does not begin a sentence of `a`. -/
example : ∃ k t, find sumSt.finish.1.tab.symbols [97] = some k ∧ find sumSt.finish.1.tab.terminals [65] = some t ∧ (k, t) ∈ sumK.S ∧ (k, t) ∉ sumK.F := by
  have hk : ∃ k, find sumSt.finish.1.tab.symbols [97] = some k := Option.isSome_iff_exists.1 (by decide +kernel)
  have ht : ∃ t, find sumSt.finish.1.tab.terminals [65] = some t := Option.isSome_iff_exists.1 (by decide +kernel)
  obtain ⟨k, hk⟩ := hk
  obtain ⟨t, ht⟩ := ht
  obtain ⟨h1, h2⟩ := C113_sets_partial (K := sumK) sum_act sum_declared sum_handed rfl sum_simple sum_fine sum_look (f1 := 50) (k1 := 20) (f2 := 50) (k2 := 20) (by decide +kernel) (by decide +kernel) hk ht
  refine ⟨k, t, hk, ht, h2.2 (.opNext (r := sumRules[0]) (.head _) rfl rfl (.head _) rfl), fun hf => ?_⟩
  obtain ⟨ω, r, hr, e, hs⟩ := h1.1 hf
  simp only [sumRules, List.mem_cons, List.not_mem_nil, _root_.or_false] at hr
  rcases hr with rfl | rfl
  · cases e
  · cases hs

/-- The conditions of `C100_written_partial` hold; the tokens `N A N C` are accepted. -/
example : ∃ k numOf, find sumSt.finish.1.tab.symbols [115] = some k ∧ Numbered sumSt.finish.1.tab listNumber numOf ∧ ∃ F, ∀ fuel, F ≤ fuel → ∀ D L, Read.Made D L → D.Advances →
    Fits listToks listNumber (fun x => ∃ r p u q, p < D.n ∧ D.found r p = some (u, q) ∧ u.term = .tok x) → Cut D listNumber [[78], [65], [78], [67]] →
    ∃ f σ, run sumK fuel (host L sumK.W numOf) Whole.quietUser f k = some (.ok, σ) := by
  obtain ⟨numOf, hn⟩ := numbered_exists (C99_terminals sum_act sum_declared sum_handed).2.1 listNumber
  have m1 : sumRules[0] ∈ sumRules := .head _
  have m2 : sumRules[1] ∈ sumRules := .tail _ (.head _)
  obtain ⟨k, hk, F, h⟩ := C100_written_partial (K := sumK) sum_act sum_declared sum_handed rfl sum_simple sum_fine m1
    ⟨by decide +kernel, fun r hr => by
      simp only [sumRules, List.mem_cons, List.not_mem_nil, _root_.or_false] at hr
      rcases hr with rfl | rfl
      · rintro ⟨a, e⟩; cases e
      · exact fun h => h⟩ sum_look
    (f1 := 50) (k1 := 20) (f2 := 50) (k2 := 20) (by decide +kernel) (by decide +kernel) (U := Whole.quietUser) (fun _ => rfl) hn
  refine ⟨k, numOf, hk, hn, F, fun fuel hf D L hm ha hfit hc => (h fuel hf D L hm ha hfit).2 ⟨_, ⟨_, m1, rfl, ?_⟩, hc⟩⟩
  have b : Sen sumRules (.op ⟨.sym [97] [], sumDecls⟩) [[78]] := .opBase (s := [97]) (a := []) rfl (.nonterm m2 rfl .term)
  exact .opBin (q := ⟨[65], [], []⟩) (.head _) b (.opPost (q := ⟨[67], [], []⟩) (.tail _ (.head _)) b)

end Verif.Front
