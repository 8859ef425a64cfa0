import Verif.Front.LookProps
import Verif.Whole.ReturnProps
import Verif.Gen.LookProps

/-!
# C117 for grammar files: the generated parser with the generated lexer decides every text
-/

namespace Verif.Front

open Verif.Grammar (Tables find World Der Wf OpsOk BareOk computeFirst computeFollow Occurs)
open Verif.Gen (Ctx LL1 Returns)
open Verif.Syntax (Name Rule)
open Verif.Read (Made)
open Verif.Whole (User host run)
open Verif.LexSyn Verif.Auto Verif.LexFile

section
variable {C : Type} [CharSetLike C] {A : Chars C} {R : LexSyn.Spec.Reading} {toks : List (Name × Name)} {ts : List Syntax.Tok} {rs : List Rule} {st : St}

/-- What occurs in the rules stands for an item which does not have `EOF`, or is the rule, or a base. -/
private theorem occurs_rep {W : World} {T : Tables Name} (hst : Stands W T rs) (ht : ∀ r ∈ rs, Terms (· ≠ eofName) r.item) {n : Nat} (h : Occurs W n) :
    (∃ i s, W.node n = some (.evolve i s)) ∧ n ∈ W.rules ∨ (∃ i, IRep W.node T n i ∧ Terms (· ≠ eofName) i) ∨ ∃ s, W.node n = some (.nonterm s) := by
  induction h with
  | rule hr => obtain ⟨r, -, m, k, h1, -⟩ := hst.left _ hr; exact .inl ⟨⟨_, _, h1⟩, hr⟩
  | @part n m _ hm ih =>
    rcases ih with ⟨⟨i, s, e⟩, hr⟩ | ⟨i, hi, hti⟩ | ⟨s, e⟩
    · obtain ⟨r, h1, m', k, h2, -, h3⟩ := hst.left _ hr
      have : m = m' := by cases hm <;> simp_all
      subst this
      exact .inr (.inl ⟨_, h3, ht r h1⟩)
    · rcases hi.cases with hi | ⟨o, rfl, p, h1, ⟨_, _, k, -, h2, -⟩, -⟩
      · refine .inr (.inl ?_)
        cases i with
        | op o => exact hi.elim
        | wild => exact hi.elim
        | zero => simp only [Rep] at hi; cases hm <;> simp_all
        | code => simp only [Rep] at hi; cases hm <;> simp_all
        | term => simp only [Rep] at hi; have := hi.1; cases hm <;> simp_all
        | nonterm => obtain ⟨k, h1, -⟩ := hi; cases hm <;> simp_all
        | inl => obtain ⟨k, h1, -⟩ := hi; cases hm <;> simp_all
        | ann a i => obtain ⟨k, h1, h2⟩ := hi; exact ⟨i, (show m = k by cases hm <;> simp_all) ▸ h2.irep, hti⟩
        | plus i => obtain ⟨k, h1, h2⟩ := hi; exact ⟨i, (show m = k by cases hm <;> simp_all) ▸ h2.irep, hti⟩
        | star i => obtain ⟨k, h1, h2⟩ := hi; exact ⟨i, (show m = k by cases hm <;> simp_all) ▸ h2.irep, hti⟩
        | act i => obtain ⟨k, h1, h2⟩ := hi; exact ⟨i, (show m = k by cases hm <;> simp_all) ▸ h2.irep, hti⟩
        | cond c i => obtain ⟨k, h1, h2⟩ := hi; exact ⟨i, (show m = k by cases hm <;> simp_all) ▸ h2.irep, hti⟩
        | recover i => obtain ⟨k, h1, h2⟩ := hi; exact ⟨i, (show m = k by cases hm <;> simp_all) ▸ h2.irep, hti⟩
        | alt i j =>
          obtain ⟨k, l, h1, h2, h3⟩ := hi
          rcases (show m = k ∨ m = l by cases hm <;> simp_all) with rfl | rfl
          · exact ⟨i, h2.irep, hti.1⟩
          · exact ⟨j, h3.irep, hti.2⟩
        | cons i j =>
          obtain ⟨k, l, h1, h2, h3⟩ := hi
          rcases (show m = k ∨ m = l by cases hm <;> simp_all) with rfl | rfl
          · exact ⟨i, h2.irep, hti.1⟩
          · exact ⟨j, h3.irep, hti.2⟩
        | rollback i j =>
          obtain ⟨k, l, h1, h2, h3⟩ := hi
          rcases (show m = k ∨ m = l by cases hm <;> simp_all) with rfl | rfl
          · exact ⟨i, h2.irep, hti.1⟩
          · exact ⟨j, h3.irep, hti.2⟩
      · have : m = p.base := by cases hm <;> simp_all
        subst this
        exact .inr (.inr ⟨_, h2⟩)
    · cases hm <;> simp_all

/-- C117 (partial) for rules as written: if one token of lookahead decides by the rules and they do not have the token `EOF`, there is no left recursion and no loop over something that may be empty, by
the nodes.  Missing: as in `C113_lookahead_partial`. -/
theorem C117_written_partial {K : Ctx} (h : ActRs ts rs (({} : St).tokens toks) st) (hd : DeclaredIn toks rs) (hW : Handed st.finish.1 K.W) (he : K.eofTok = st.finish.2)
    (hs : ∀ r ∈ rs, Simple False r.item) (hop : OpsFine rs) (hL : Look rs) (ht : ∀ r ∈ rs, Terms (· ≠ eofName) r.item) {f1 k1 f2 k2 : Nat} (hF : computeFirst K.W f1 k1 = some K.F)
    (hS : computeFollow K.W K.F K.eofTok f2 k2 = some K.S) : Returns K := by
  have H := setting_of h hd hW hs hop
  rw [← he] at H
  obtain ⟨p1, p2, p3⟩ := plain_world h hd hW hs hop
  obtain ⟨σ, hσ⟩ := H.fill hL
  obtain ⟨g1, g2⟩ := Gen.C117_look_partial H.wf H.plain H.opsOk H.bare p3 (H.lead hL) H.noTry (look_ll1 H hL hF hS) hF hS H.term fun r _ i s hi => ⟨σ s, hσ.2.1 s (H.wf.symbols r s (.inr (.inr ⟨i, hi⟩))), hσ.2.2 s⟩
  have inj : ∀ {s}, find st.finish.1.tab.terminals s = some K.eofTok → s = eofName := fun h => H.stands.termInj _ _ _ h H.eof
  refine ⟨g1, fun n i h1 h2 => .inl (g2 n i h1 (.inl h2)), fun n i h1 h2 => .inl (g2 n i h1 (.inr h2)), fun ho => ?_, fun n o ho hn => ?_⟩
  · have ht' := H.stands.term _ _ H.eof
    rcases occurs_rep H.stands ht ho with ⟨⟨i, s, e⟩, -⟩ | ⟨i, hi, hti⟩ | ⟨s, e⟩
    · simp [e] at ht'
    · rcases hi.cases with hi | ⟨o, rfl, p, h1, -⟩
      · cases i with
        | op o => exact hi.elim
        | wild => exact hi.elim
        | term x => exact hti (inj hi.2)
        | zero => simp only [Rep] at hi; simp [hi] at ht'
        | code => simp only [Rep] at hi; simp [hi] at ht'
        | alt i j => obtain ⟨_, _, h1, -⟩ := hi; simp [h1] at ht'
        | cons i j => obtain ⟨_, _, h1, -⟩ := hi; simp [h1] at ht'
        | rollback i j => obtain ⟨_, _, h1, -⟩ := hi; simp [h1] at ht'
        | _ => obtain ⟨_, h1, -⟩ := hi; simp [h1] at ht'
      · simp [h1] at ht'
    · simp [e] at ht'
  · obtain ⟨r, hr, e, h1, p, h2, -, l, -⟩ := H.ops n o hn
    rw [hn] at h2; cases h2
    have hte := ht r hr
    rw [h1] at hte
    simp only [Terms] at hte
    intro hm
    simp only [List.mem_append, List.mem_map] at hm
    rcases hm with (((((hm | hm) | hm) | ⟨x, hm, hx⟩) | ⟨x, hm, hx⟩) | ⟨x, hm, hx⟩) | ⟨x, hm, hx⟩
    · obtain ⟨s, h3, h4⟩ := l.pre.left _ hm; obtain ⟨q, pr, h5, rfl⟩ := mem_pres.1 h3; exact hte _ h5 q (by simp [operators]) (inj h4)
    · obtain ⟨s, h3, h4⟩ := l.post.left _ hm; obtain ⟨q, pr, a, h5, rfl⟩ := mem_posts.1 h3; exact hte _ h5 q (by simp [operators]) (inj h4)
    · obtain ⟨s, h3, h4⟩ := l.bin.left _ hm; obtain ⟨q, pr, a, h5, rfl⟩ := mem_bins.1 h3; exact hte _ h5 q (by simp [operators]) (inj h4)
    · obtain ⟨s, h3, h4, -⟩ := l.tern.left _ hm; obtain ⟨q, q', pr, a, h5, rfl⟩ := mem_terns.1 h3; exact hte _ h5 q (by simp [operators]) (inj (hx ▸ h4))
    · obtain ⟨s, h3, -, h4⟩ := l.tern.left _ hm; obtain ⟨q, q', pr, a, h5, rfl⟩ := mem_terns.1 h3; exact hte _ h5 q' (by simp [operators]) (inj (hx ▸ h4))
    · obtain ⟨s, h3, h4, -⟩ := l.paren.left _ hm; obtain ⟨q, q', h5, rfl⟩ := mem_parens.1 h3; exact hte _ h5 q (by simp [operators]) (inj (hx ▸ h4))
    · obtain ⟨s, h3, -, h4⟩ := l.paren.left _ hm; obtain ⟨q, q', h5, rfl⟩ := mem_parens.1 h3; exact hte _ h5 q' (by simp [operators]) (inj (hx ▸ h4))

/-- C117 (partial) for files: with the lexer and the rules of a file as in `C100_written_file_partial`, whose rules do not have the token `EOF`, the generated parser returns for every
text, and with success exactly if the rules of the lexer cut the text into tokens whose names are a sentence of the start symbol.  Missing: what is missing in these theorems. -/
theorem C117_file_partial (hsz : 0 < CharSetLike.size C) (hR : R.Bounded) (order : List Bits → List Bits) (ho : Enumerates order) (uni : Store C → LexSyn.Out (Store C)) (st0 : Store C) (N : Text → Lang)
    (hst : ∀ s d, st0 s = some d → d.ready = false ∧ d.nfa.Wf ∧ ∀ w, d.nfa.Lang w ↔ N s w) (ss : List (Option Text × List Decl))
    (hu : (∃ ds ss', ss = (none, ds) :: ss') ∧ uni (fun _ => none) = .ok st0 ∨ (∀ p ∈ ss, p.1 ≠ none) ∧ st0 = fun _ => none)
    (hf : ∀ p ∈ ss, FaithfulAll A R p.2) (hb : BehindFile A R N (fun s => st0 s ≠ none) ss) (hcl : LexSyn.Spec.ClosedFile (fun s => st0 s ≠ none) ss)
    (hsafe : LexSyn.Spec.SafeFile R (CharSetLike.size C) N ss) {step : List (C × Nat) → Nat → Option Nat} (hstep : ∀ d : DFA C, d.Wf → OnePer d.rules → Lexer.StepOk step d)
    (I : Numbers) {es : Nat → LexFile.Spec.Rules} (hes : ∀ r, LexFile.Spec.File R (CharSetLike.size C) I.tok I.num (I.name r) N ss (es r)) (hus : ∀ r, LexFile.Spec.Usable (es r))
    (hfail : ∀ r, LexFile.Spec.Quiet (LexSyn.Spec.last (LexSyn.Spec.bytes "qDebug() << \"error\"; exit(-1);") LexSyn.Spec.failCode (LexSyn.Spec.ofEnv (I.name r) ss)))
    (hadv : ∀ r, ∀ e ∈ es r, ∀ w, e.1 w → e.2.ahead < w.length)
    {K : Ctx} (h : ActRs ts rs (({} : St).tokens toks) st) (hd : DeclaredIn toks rs) (hW : Handed st.finish.1 K.W) (he : K.eofTok = st.finish.2)
    (hs : ∀ r ∈ rs, Simple False r.item) (hop : OpsFine rs) {r : Rule} (hr : r ∈ rs) (hal : Alone rs r.sym) (hL : Look rs) (ht : ∀ r ∈ rs, Terms (· ≠ eofName) r.item) {f1 k1 f2 k2 : Nat} (hF : computeFirst K.W f1 k1 = some K.F)
    (hS : computeFollow K.W K.F K.eofTok f2 k2 = some K.S) {U : User} (hor : ∀ k, U.oracle k = true) {num : Name → Nat} {numOf : Nat → Nat} (hn : Numbered st.finish.1.tab num numOf)
    (hfit : Fits toks num fun x => ∃ r, ∃ e ∈ es r, e.2.term = .tok x) :
    ∃ k, find st.finish.1.tab.symbols r.sym = some k ∧ ∃ F, ∀ fuel, F ≤ fuel → ∃ sys, execFile A order fuel uni Sys.init ss = .ok sys ∧
      ∃ d : Nat → DFA C, (∀ r, ∃ G, ∀ fuel', G ≤ fuel' → automaton order fuel' (sys.envs (I.name r)).rules (sys.envs (I.name r)).actions = some (d r)) ∧
        ∀ buf, (∀ x ∈ buf, x < CharSetLike.size C) → ∀ L, Generated I step d sys buf L → ∃ D, LexFile.Spec.Describes es buf D ∧
          ∃ f o σ, run K fuel (host L K.W numOf) U f k = some (o, σ) ∧ (o = .ok ↔ ∃ ω, Sentence rs r.sym ω ∧ Cut D num ω) := by
  obtain ⟨k, hk, h0⟩ := (C99_start h hd hW hr).2 hal
  obtain ⟨p1, p2, p3⟩ := plain_world h hd hW hs hop
  have p4 := simple_world h hd hW hs
  obtain ⟨q1, q2, q3⟩ := fits_world h hd hW hfit hn
  obtain ⟨F1, h1⟩ := C96_made hsz hR order ho uni st0 N hst ss hu hf hb hcl hsafe hstep I hes hus hfail
  obtain ⟨F2, h2⟩ := Whole.C117_text_decides_partial (U := U) (num := numOf) (C99_well_formed h hd hW) p1 p2 (Grammar.bareOk_of_none p2 fun n hn => p4 _ _ hn) p3 (fun n l r hn => p4 _ _ hn)
    (C113_lookahead_partial h hd hW he hs hop hL hF hS) (C117_written_partial h hd hW he hs hop hL ht hF hS) hF hS hor ((C99_sentences h hd hW).2.2 _ k hk).1 h0
  refine ⟨k, hk, max F1 F2, fun fuel hfuel => ?_⟩
  obtain ⟨sys, s1, d, s2, s3⟩ := h1 fuel (by omega)
  refine ⟨sys, s1, d, s2, fun buf hbuf L hL' => ?_⟩
  obtain ⟨D, d1, d2, d3⟩ := s3 buf hbuf L hL'
  obtain ⟨f, o, σ, e1, e2⟩ := h2 fuel (by omega) D L d2 (Whole.together_of d1 (d3 hadv) q1 (by rw [he]; exact q2) fun r e he x hx => q3 x ⟨r, e, he, hx⟩)
  exact ⟨D, d1, f, o, σ, e1, e2.trans (sentences_cut h hd hW hn hk)⟩

end

/-! ### Examples -/

theorem list_noEof : ∀ r ∈ listRules, Terms (· ≠ eofName) r.item := fun r hr => by
  cases List.mem_singleton.1 hr
  have : ([78] : Name) ≠ eofName ∧ ([65] : Name) ≠ eofName ∧ ([67] : Name) ≠ eofName := by decide +kernel
  exact ⟨this.1, this.2.1, this.2.2⟩

theorem list_returns : Returns listK := Gen.returns_of (show Gen.returnsT listK 12 (fun s => 100 - s) = true by decide +kernel) fun _ h => nomatch h

/-- The same from the rules as written. -/
example : Returns listK := C117_written_partial (K := listK) list_act list_declared list_handed rfl (fun r hr => by cases List.mem_singleton.1 hr; exact ⟨trivial, trivial, trivial⟩)
  (fun r hr o ho => by cases List.mem_singleton.1 hr; cases ho) list_look list_noEof (f1 := 50) (k1 := 20) (f2 := 50) (k2 := 20) (by decide +kernel) (by decide +kernel)

/-- An operator rule. -/
example : Returns sumK := Gen.returns_of (show Gen.returnsT sumK 12 (fun s => s) = true by decide +kernel) fun _ h => nomatch h

/-- `N (A | C)* -> s` with the lexer of `exFile`: the generated parser decides every text. -/
example : ∃ k numOf, find listSt.finish.1.tab.symbols [115] = some k ∧ Numbered listSt.finish.1.tab listNumber numOf ∧
    ∃ F, ∀ fuel, F ≤ fuel → ∃ sys, execFile asciiChars List.dedup fuel (fun _ => .stuck) Sys.init exFile = .ok sys ∧
      ∃ d : Nat → DFA (CharSet.Table 128), ∀ buf, (∀ x ∈ buf, x < 128) → ∀ L, Generated exNumbers Lexer.tableStep d sys buf L → ∃ D, LexFile.Spec.Describes (fun _ => LexFile.exRules) buf D ∧
        ∃ f o σ, run listK fuel (host L listK.W numOf) Whole.quietUser f k = some (o, σ) ∧ (o = .ok ↔ ∃ ω, Sentence listRules [115] ω ∧ Cut D listNumber ω) := by
  obtain ⟨c1, c2, c3, c4, c5, c6⟩ := ex_conditions
  obtain ⟨numOf, hn⟩ := numbered_exists (C99_terminals list_act list_declared list_handed).2.1 listNumber
  obtain ⟨k, hk, F, h⟩ := C117_file_partial (C := CharSet.Table 128) (A := asciiChars) (R := exK) (by decide) c1 List.dedup enumerates_dedup (fun _ => .stuck) exStore exN (by simp) exFile
    (Or.inr ⟨by simp, rfl⟩) c2 c3 c4 c5 ex_tab exNumbers (es := fun _ => LexFile.exRules) (fun _ => ex_file) (fun _ => ex_usable) c6 (fun _ => ex_advances)
    (K := listK) list_act list_declared list_handed rfl (fun r hr => by cases List.mem_singleton.1 hr; exact ⟨trivial, trivial, trivial⟩) (fun r hr o ho => by cases List.mem_singleton.1 hr; cases ho) (r := listRules[0]) (.head _)
    ⟨by decide +kernel, fun r hr => by cases List.mem_singleton.1 hr; exact fun h => by rcases h with h | h | h <;> exact h⟩ list_look list_noEof
    (f1 := 50) (k1 := 20) (f2 := 50) (k2 := 20) (by decide +kernel) (by decide +kernel) (U := Whole.quietUser) (fun _ => rfl) hn list_fits
  refine ⟨k, numOf, hk, hn, F, fun fuel hf => ?_⟩
  obtain ⟨sys, h1, d, -, h3⟩ := h fuel hf
  exact ⟨sys, h1, d, fun buf hbuf L hL => h3 buf hbuf L hL⟩

end Verif.Front
