import Verif.Whole.Sample
import Verif.LexFile.Props

/-!
# C97: from the grammar file to the accepted texts
-/

namespace Verif.Whole

open Verif.Gen Verif.TokStream Verif.Read Verif.Grammar Verif.LexSyn Verif.Auto Verif.LexFile

section
variable {C : Type} [CharSetLike C] {A : Chars C} {R : LexSyn.Spec.Reading}

/-- The lexer of a file belongs together with the grammar, if the tokens of its rules are terminals. -/
theorem together_of {es : Nat → LexFile.Spec.Rules} {buf : List Nat} {D : Read.Spec} (hd : LexFile.Spec.Describes es buf D) (ha : D.Advances) {W : World} {eof : Nat} {num : Nat → Nat}
    (hi : ∀ a b, W.node a = some .term → W.node b = some .term → num a = num b → a = b) (he : eof ∈ W.terminals ∧ num eof = 1000)
    (hk : ∀ r, ∀ e ∈ es r, ∀ x, e.2.term = .tok x → ∃ t ∈ W.terminals, num t = x) : Together D W eof num := by
  refine ⟨ha, hi, he, fun r p u q x hp hf hx => ?_⟩
  obtain ⟨_, _, ⟨i, M, h1, _⟩, _⟩ := hd.found r p u q (by rw [← hd.n]; exact hp) hf
  exact hk r _ (List.mem_of_getElem? h1) x hx

/-- C97 (partial): from the file to the parser.  A file with lexer sections as in `C96_lexer_partial`, none of whose rules matches the empty word, and rules as in `C97_exactly_partial`: if the tokens
of the lexer are terminals of the grammar with different numbers, then on every text the generated parser with the generated lexer accepts exactly if the pieces into which the rules of the lexer cut
the text give a sentence of the start symbol.  Missing: what is missing in these two theorems. -/
theorem C97_file_partial (hsz : 0 < CharSetLike.size C) (hR : R.Bounded) (order : List Bits → List Bits) (ho : Enumerates order) (uni : Store C → LexSyn.Out (Store C)) (st0 : Store C) (N : Text → Lang)
    (hst : ∀ s d, st0 s = some d → d.ready = false ∧ d.nfa.Wf ∧ ∀ w, d.nfa.Lang w ↔ N s w) (ss : List (Option Text × List Decl))
    (hu : (∃ ds ss', ss = (none, ds) :: ss') ∧ uni (fun _ => none) = .ok st0 ∨ (∀ p ∈ ss, p.1 ≠ none) ∧ st0 = fun _ => none)
    (hf : ∀ p ∈ ss, FaithfulAll A R p.2) (hb : BehindFile A R N (fun s => st0 s ≠ none) ss) (hcl : LexSyn.Spec.ClosedFile (fun s => st0 s ≠ none) ss)
    (hsafe : LexSyn.Spec.SafeFile R (CharSetLike.size C) N ss) {step : List (C × Nat) → Nat → Option Nat} (hstep : ∀ d : DFA C, d.Wf → OnePer d.rules → Lexer.StepOk step d)
    (I : Numbers) {es : Nat → LexFile.Spec.Rules} (hes : ∀ r, LexFile.Spec.File R (CharSetLike.size C) I.tok I.num (I.name r) N ss (es r)) (hus : ∀ r, LexFile.Spec.Usable (es r))
    (hfail : ∀ r, LexFile.Spec.Quiet (LexSyn.Spec.last (LexSyn.Spec.bytes "qDebug() << \"error\"; exit(-1);") LexSyn.Spec.failCode (LexSyn.Spec.ofEnv (I.name r) ss)))
    (hadv : ∀ r, ∀ e ∈ es r, ∀ w, e.1 w → e.2.ahead < w.length)
    {K : Ctx} (hw : Wf K.W) (hp : Plain K.W) (hops : OpsOk K.W) (hbare : BareOk K.W) (hl : OpsLoop K.W)
    (hc : ∀ n l r, K.W.node n ≠ some (.tryc l r)) (hll : LL1 K) {f1 k1 f2 k2 : Nat} (hF : computeFirst K.W f1 k1 = some K.F)
    (hS : computeFollow K.W K.F K.eofTok f2 k2 = some K.S) {U : User} (hor : ∀ k, U.oracle k = true) {s : Nat} (hs : K.W.node s = some .sym) (h0 : s ∈ K.W.start)
    {num : Nat → Nat} (hi : ∀ a b, K.W.node a = some .term → K.W.node b = some .term → num a = num b → a = b) (he : K.eofTok ∈ K.W.terminals ∧ num K.eofTok = 1000)
    (hk : ∀ r, ∀ e ∈ es r, ∀ x, e.2.term = .tok x → ∃ t ∈ K.W.terminals, num t = x) :
    ∃ F, ∀ fuel, F ≤ fuel → ∃ sys, execFile A order fuel uni Sys.init ss = .ok sys ∧
      ∃ d : Nat → DFA C, (∀ r, ∃ G, ∀ fuel', G ≤ fuel' → automaton order fuel' (sys.envs (I.name r)).rules (sys.envs (I.name r)).actions = some (d r)) ∧
        ∀ buf, (∀ x ∈ buf, x < CharSetLike.size C) → ∀ L, Generated I step d sys buf L → ∃ D, LexFile.Spec.Describes es buf D ∧
          ((∃ f σ, run K fuel (host L K.W num) U f s = some (.ok, σ)) ↔ ∃ ω, Der K.W s ω ∧ (∀ t ∈ ω, t ∈ K.W.terminals) ∧ Yields D num ω) := by
  obtain ⟨F1, h1⟩ := C96_made hsz hR order ho uni st0 N hst ss hu hf hb hcl hsafe hstep I hes hus hfail
  obtain ⟨F2, h2⟩ := C97_exactly_partial (U := U) (num := num) hw hp hops hbare hl hc hll hF hS hor hs h0
  refine ⟨max F1 F2, fun fuel hfuel => ?_⟩
  obtain ⟨sys, s1, d, s2, s3⟩ := h1 fuel (by omega)
  refine ⟨sys, s1, d, s2, fun buf hbuf L hL => ?_⟩
  obtain ⟨D, d1, d2, d3⟩ := s3 buf hbuf L hL
  exact ⟨D, d1, h2 fuel (by omega) D L d2 (together_of d1 (d3 hadv) hi he hk)⟩

end

/-! ### An example: the lexer of `LexFile.exSection` with the grammar `N (A | C)* -> s` -/

/-- 1 is `N`, 2 is `A`, 3 is `C`, 4 is `s`, 9 is `EOF`. -/
def listWorld : World := rewrite {
  heap := [.zero, .term, .term, .term, .sym, .alt 2 3, .star 5, .cons 1 6, .evolve 7 4, .term]
  parsed := 0
  rules := [8]
  zero := 0
  terminals := [1, 2, 3, 9]
  start := [4]
  bnf := fun _ => none } [6]

def listCtx : Ctx := ctxOf listWorld 9

/-- The numbers that `LexFile.exNumbers` gives to the names. -/
def listNum (t : Nat) : Nat := match t with
  | 1 => 1078
  | 2 => 1065
  | 3 => 1067
  | _ => 1000

def listNull (n : Nat) : Bool := [0, 6, 10, 11].contains n

theorem list_wf : Wf listCtx.W := wf_of_wfB (W := listWorld) (by decide +kernel)

theorem list_lead : LeadOk listCtx.W ∧ OpsOk listCtx.W :=
  of_leadB (W := listWorld) (nb := listNull) (S := starts listWorld listNull 6) list_wf (by decide +kernel)

theorem list_ll1 : LL1 listCtx ∧ OpsLoop listCtx.W := ll1_of_ll1B (K := listCtx) (nb := listNull) (by decide +kernel)

theorem list_noTry : ∀ n l r, listCtx.W.node n ≠ some (.tryc l r) := by
  intro n l r hn
  have h : (List.range listWorld.heap.length).all (fun n => match listWorld.node n with | some (.tryc _ _) => false | _ => true) = true := by decide +kernel
  have := List.all_eq_true.1 h n (List.mem_range.2 (lt_of_node hn))
  rw [show listWorld.node n = _ from hn] at this
  cases this

theorem list_inj : ∀ a b, listCtx.W.node a = some .term → listCtx.W.node b = some .term → listNum a = listNum b → a = b := by
  have ht : ∀ a, listCtx.W.node a = some .term → a ∈ listWorld.terminals := by
    intro a ha
    have h : (List.range listWorld.heap.length).all (fun n => listWorld.node n != some .term || listWorld.terminals.contains n) = true := by decide +kernel
    have := List.all_eq_true.1 h a (List.mem_range.2 (lt_of_node ha))
    rw [show listWorld.node a = _ from ha] at this
    simpa using this
  intro a b ha hb
  have h1 := ht a ha
  have h2 := ht b hb
  have h : ∀ a ∈ listWorld.terminals, ∀ b ∈ listWorld.terminals, listNum a = listNum b → a = b := by decide +kernel
  exact h a h1 b h2

theorem list_known : ∀ e ∈ exRules, ∀ x, e.2.term = .tok x → ∃ t ∈ listCtx.W.terminals, listNum t = x := by
  intro e he x hx
  simp only [exRules, List.mem_cons, List.not_mem_nil, _root_.or_false] at he
  rcases he with rfl | rfl | rfl | rfl | rfl <;> simp only [Term.tok.injEq, reduceCtorEq] at hx <;> subst hx
  · exact ⟨1, by decide +kernel, rfl⟩
  · exact ⟨2, by decide +kernel, rfl⟩
  · exact ⟨3, by decide +kernel, rfl⟩
  · exact ⟨3, by decide +kernel, rfl⟩

/-- The tokens of `1ax#b!`: `1` is `N`, `a` is `A`, `x` is passed over, `#b` is `C`, and no rule matches `!`. -/
theorem list_yields {D : Read.Spec} (d : LexFile.Spec.Describes (fun _ => exRules) [49, 97, 120, 35, 98, 33] D) : Yields D listNum [1, 2, 3] := by
  have f0 : D.found 0 0 = some ({ term := .tok 1078 }, 1) := by
    refine C96_picks d (p := 0) (k := 1) (by decide) ⟨by decide, ⟨0, _, rfl, (num_lang _).2 ⟨by simp, by simp⟩, fun j hj => by omega⟩, fun k' h1 h2 e he hk => ?_⟩
    simp only [exRules, List.mem_cons, List.not_mem_nil, _root_.or_false] at he
    have hk' : k' = 2 ∨ k' = 3 ∨ k' = 4 ∨ k' = 5 ∨ k' = 6 := by simp at h2; omega
    rcases hk' with rfl | rfl | rfl | rfl | rfl <;> rcases he with rfl | rfl | rfl | rfl | rfl
    all_goals first
      | exact absurd (((num_lang _).1 hk).2 97 (by simp)) (by omega)
      | simpa using (ex_ahead _).1 hk
      | simpa using (ex_coll _).1 hk
      | simpa using (ex_hash _).1 hk.1
      | simpa using (ex_comment _).1 hk
  have f1 : D.found 0 1 = some ({ ahead := 1, term := .tok 1065 }, 3) := by
    refine C96_picks d (p := 1) (k := 2) (by decide) ⟨by decide, ⟨1, _, rfl, (ex_ahead _).2 (Or.inl rfl), fun j hj e he => ?_⟩, fun k' h1 h2 e he hk => ?_⟩
    · obtain rfl : j = 0 := by omega
      cases he; exact ex_digit _ _ (by omega)
    · simp only [exRules, List.mem_cons, List.not_mem_nil, _root_.or_false] at he
      have hk3 : k' = 3 ∨ k' = 4 ∨ k' = 5 := by simp at h2; omega
      rcases hk3 with rfl | rfl | rfl <;> rcases he with rfl | rfl | rfl | rfl | rfl
      all_goals first
        | exact ex_digit _ _ (by omega) hk
        | simpa using (ex_ahead _).1 hk
        | simpa using (ex_coll _).1 hk
        | simpa using (ex_hash _).1 hk.1
        | simpa using (ex_comment _).1 hk
  have f2 : D.found 0 2 = some ({ term := .skip }, 3) := by
    refine C96_picks d (p := 2) (k := 1) (by decide) ⟨by decide, ⟨2, _, rfl, (ex_coll _).2 (Or.inl rfl), fun j hj e he => ?_⟩, fun k' h1 h2 e he hk => ?_⟩
    · match j, hj with
      | 0, _ => cases he; exact ex_digit _ _ (by omega)
      | 1, _ => cases he; exact fun h => by simpa using (ex_ahead _).1 h
    · simp only [exRules, List.mem_cons, List.not_mem_nil, _root_.or_false] at he
      have hk3 : k' = 2 ∨ k' = 3 ∨ k' = 4 := by simp at h2; omega
      rcases hk3 with rfl | rfl | rfl <;> rcases he with rfl | rfl | rfl | rfl | rfl
      all_goals first
        | exact ex_digit _ _ (by omega) hk
        | simpa using (ex_ahead _).1 hk
        | simpa using (ex_coll _).1 hk
        | simpa using (ex_hash _).1 hk.1
        | simpa using (ex_comment _).1 hk
  have f3 : D.found 0 3 = some ({ ahead := 1, term := .tok 1067 }, 6) := by
    refine C96_picks d (p := 3) (k := 3) (by decide) ⟨by decide, ⟨4, _, rfl, (ex_comment _).2 ⟨[98], rfl, by simp, by simp⟩, fun j hj e he => ?_⟩, fun k' h1 h2 => by simp at h2; omega⟩
    match j, hj with
    | 0, _ => cases he; exact ex_digit _ _ (by omega)
    | 1, _ => cases he; exact fun h => by simpa using (ex_ahead _).1 h
    | 2, _ => cases he; exact fun h => by simpa using (ex_coll _).1 h
    | 3, _ => cases he; exact fun h => h.2 ((ex_contains _).2 (by simp))
  have f5 : D.found 0 5 = none := by
    cases hf : D.found 0 5 with
    | none => rfl
    | some v =>
      obtain ⟨u, q⟩ := v
      obtain ⟨_, hq, ⟨i, M, i1, i2, _⟩, _⟩ := d.found 0 5 u q (by decide) hf
      have he := List.mem_of_getElem? i1
      simp only [exRules, List.mem_cons, List.not_mem_nil, _root_.or_false] at he
      have hq' : q - 5 = 0 ∨ q - 5 = 1 := by simp at hq; omega
      rcases hq' with h | h <;> rw [h] at i2 <;> rcases he with he | he | he | he | he <;> cases he
      all_goals first
        | exact absurd rfl ((num_lang _).1 i2).1
        | exact absurd i2 (ex_digit _ _ (by omega))
        | simpa using (ex_ahead _).1 i2
        | simpa using (ex_coll _).1 i2
        | simpa using (ex_hash _).1 i2.1
        | simpa using (ex_comment _).1 i2
  have hn : D.n = 6 := d.n
  refine ⟨[⟨1078, 0, 0⟩, ⟨1065, 1, 1⟩, ⟨1067, 3, 4⟩, ⟨1000, 5, 5⟩], ?_, rfl⟩
  exact .tok (q := 1) (r' := 0) (.tok (by omega) f0 rfl) (.tok (q := 2) (r' := 0) (.tok (by omega) f1 rfl) (.skip (q := 3) (r' := 0) (.skip (by omega) f2 rfl)
    (.tok (q := 5) (r' := 0) (.tok (by omega) f3 rfl) (.stop (.fail (by omega) f5) .nil))))

theorem list_sentence : Der listCtx.W 4 [1, 2, 3] ∧ ∀ t ∈ [1, 2, 3], t ∈ listCtx.W.terminals := by
  refine ⟨.expand (r := 8) (i := 7) (by decide +kernel) (by decide +kernel) (by decide +kernel) ?_, by decide +kernel⟩
  refine .cons (l := 1) (r := 6) (α := [1]) (β := [2, 3]) (by decide +kernel) (.term (by decide +kernel)) ?_
  refine .starS (i := 5) (α := [2]) (β := [3]) (by decide +kernel) (.altL (l := 2) (r := 3) (by decide +kernel) (.term (by decide +kernel))) ?_
  exact .starS (i := 5) (α := [3]) (β := []) (by decide +kernel) (.altR (l := 2) (r := 3) (by decide +kernel) (.term (by decide +kernel))) (.star0 (i := 5) (by decide +kernel))

/-- The conditions of `C97_file_partial` hold of the section and the grammar; the text `1ax#b!` is accepted. -/
example : ∃ F, ∀ fuel, F ≤ fuel → ∃ sys, execFile asciiChars List.dedup fuel (fun _ => .stuck) Sys.init exFile = .ok sys ∧
    ∃ d : Nat → DFA (CharSet.Table 128), (∀ r, ∃ G, ∀ fuel', G ≤ fuel' → automaton List.dedup fuel' (sys.envs (exNumbers.name r)).rules (sys.envs (exNumbers.name r)).actions = some (d r)) ∧
      ∀ L, Generated exNumbers Lexer.tableStep d sys [49, 97, 120, 35, 98, 33] L → ∃ f σ, run listCtx fuel (host L listCtx.W listNum) quietUser f 4 = some (.ok, σ) := by
  obtain ⟨c1, c2, c3, c4, c5, c6⟩ := ex_conditions
  obtain ⟨F, h⟩ := C97_file_partial (C := CharSet.Table 128) (A := asciiChars) (R := exK) (by decide) c1 List.dedup enumerates_dedup (fun _ => .stuck) exStore exN (by simp) exFile
    (Or.inr ⟨by simp, rfl⟩) c2 c3 c4 c5 ex_tab exNumbers (es := fun _ => exRules) (fun _ => ex_file) (fun _ => ex_usable) c6 (fun _ => ex_advances)
    list_wf (plain_of_plainB (W := listWorld) (by decide +kernel)) list_lead.2 (bareOk_of_none list_lead.2 (of_noBare (W := listWorld) (by decide +kernel))) list_ll1.2 list_noTry list_ll1.1
    (f1 := 50) (k1 := 20) (f2 := 50) (k2 := 20) (by decide +kernel) (by decide +kernel) (U := quietUser) (fun _ => rfl) (s := 4) (by decide +kernel) (by decide +kernel) list_inj
    (by decide +kernel) (fun _ => list_known)
  refine ⟨F, fun fuel hf => ?_⟩
  obtain ⟨sys, h1, d, h2, h3⟩ := h fuel hf
  refine ⟨sys, h1, d, h2, fun L hL => ?_⟩
  obtain ⟨D, d1, d2⟩ := h3 _ (by decide) L hL
  exact d2.2 ⟨[1, 2, 3], list_sentence.1, list_sentence.2, list_yields d1⟩

end Verif.Whole
