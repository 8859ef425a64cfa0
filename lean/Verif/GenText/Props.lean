import Verif.GenText.Funs
import Verif.GenText.FollowElems
import Verif.Gen.CompleteProps

/-!
# C115: the text of the parse functions is C++ that does what `Gen` says

`GenText.Spec` says how tokens are read and what is done by the statements that are read.  Here the text written by the code generator (`GenText.Model`) is compared with the parser of
`Gen.Model` about which C47, C48, C49, C63 and C64 speak.
-/

namespace Verif.GenText

open Verif.Grammar
open Verif.Gen (Env Ctx Stmt State Out exec parseFun rulesOf parse onInput)
open Spec

variable {E : Env} {F : Nat → Option Tree} {X : Nat → CState → Bool → CState → Prop} {o : Opts} {K : Ctx} {fuel f s : Nat}

/-- The sets are those of the generator, and `needStateManagement` is set if there is a try block (kdev-pg.g, `try_item`). -/
structure Made (o : Opts) (K : Ctx) : Prop where
  wf : Wf K.W
  first : ∃ f k, computeFirst K.W f k = some K.F
  follow : ∃ f k, computeFollow K.W K.F K.eofTok f k = some K.S
  eof : K.W.node K.eofTok = some .term
  mgmt : ∀ n l r, K.W.node n = some (.tryc l r) → o.mgmt = true

theorem Made.fits (h : Made o K) : Fits o K where
  first n x hx := by
    obtain ⟨f, k, hF⟩ := h.first
    rcases computeFirst_elems hF (mem_of.1 hx) with rfl | hx
    · exact .inr h.wf.zero
    · exact .inl (by simpa [isTerm] using h.wf.terminals _ hx)
  follow n x hx := by
    obtain ⟨f, k, hS⟩ := h.follow
    exact .inl (by simpa [isTerm] using computeFollow_elems h.eof hS (mem_of.1 hx))
  mgmt := h.mgmt

/-- C115: the text of a parse function is one statement, and it can be read in one way only. -/
theorem C115_reads (h : Made o K) {ts : Toks} (ht : funText o K fuel s = some ts) : ∃ t, Reads .stmt ts t [] ∧ ∀ t' r, Reads .stmt ts t' r → t' = t ∧ r = [] := by
  obtain ⟨b, t, -, h2, -⟩ := fun_good (E := ⟨fun _ => 0, fun _ => true, fun _ u => u⟩) (F := fun _ => none) (X := fun _ _ _ _ => False) (P := fun _ => none) (N := 0) h.fits nofun ht
  exact ⟨t, h2, fun t' r h' => by
    obtain ⟨rfl, rfl⟩ := Reads.unique h2 h'
    exact ⟨rfl, rfl⟩⟩

/-- So there are functions read from the texts. -/
theorem read_exists (h : Made o K) : ∃ F, Read o K fuel F := by
  have : ∀ s, ∃ t : Option Tree, match funText o K fuel s with
    | none => t = none
    | some ts => ∃ t', t = some t' ∧ Reads .stmt ts t' [] := by
    intro s
    cases e : funText o K fuel s with
    | none => exact ⟨none, rfl⟩
    | some ts =>
      obtain ⟨t, h1, -⟩ := C115_reads h e
      exact ⟨some t, t, rfl, h1⟩
  exact ⟨fun s => (this s).choose, fun s => (this s).choose_spec⟩

/-- C115: if the parser of `Gen` ends, a call of the parse function with this text ends with the same result, the same position in the input, the same number of reports, and the same state of the user and of
the blocking of errors; and the text allows nothing else.  Missing: the text of operator rules (`visitOperator`); functions without text (`X`) are assumed to do what `Gen` says, and to do only that.  Also
missing: arguments of rules that are members of nodes, and that the text does not end if the parser of `Gen` does not end. -/
theorem C115_runs_partial (h : Made o K) (hR : Read o K fuel F) (hX : Externals E F X o (parseFun K fuel) K.eofTok) (hd : ∀ s σ b σ' b' σ'', X s σ b σ' → X s σ b' σ'' → b = b' ∧ σ' = σ'')
    {st : State} {σ : CState} (A : Alike o st σ) {out : Out} {st' : State} (hp : parse K fuel E f s st = some (out, st')) :
    ∃ σ', Run E F X (.call s) σ (.val (out = .ok)) σ' ∧ Alike o st' σ' ∧ ∀ r σ'', Run E F X (.call s) σ r σ'' → r = .val (out = .ok) ∧ σ'' = σ' := by
  unfold parse at hp
  split at hp
  · cases hp
  · next b hb =>
    have R : Rel o st.enter σ := { A with saved := nofun, block := nofun }
    obtain ⟨σ', h1, R'⟩ := calls_ok h.fits hR hX f s b st.enter σ out st' hb R hp
    refine ⟨σ', h1, { R'.alike with }, fun r σ'' h2 => ?_⟩
    obtain ⟨rfl, rfl⟩ := Run.unique hd h1 h2
    exact ⟨rfl, rfl⟩

/-- Symbols without rules have no function; `main` refuses grammars where one is used (C41). -/
def absent (_ : Nat) (σ : CState) (b : Bool) (σ' : CState) : Prop := b = false ∧ σ' = σ

theorem externals_absent (hR : Read o K fuel F) (ht : ∀ s, rulesOf K.W s ≠ [] → (funText o K fuel s).isSome) : Externals E F absent o (parseFun K fuel) K.eofTok := by
  intro f s b st σ out st' hs hb A hx
  have h0 : rulesOf K.W s = [] := by
    apply Classical.byContradiction
    intro hn
    have h1 := hR s
    obtain ⟨ts, e⟩ := Option.isSome_iff_exists.1 (ht s hn)
    rw [e] at h1
    obtain ⟨t, h2, -⟩ := h1
    rw [hs] at h2
    cases h2
  rw [parseFun, h0] at hb
  cases hb
  cases f with
  | zero => cases hx
  | succ f =>
    cases hx
    exact ⟨_, ⟨by simp [Gen.leave], rfl⟩, { A with }⟩

/-- C115 for grammars where all rules have a text: there are no operator rules. -/
theorem C115_grammar_partial (h : Made o K) (ht : ∀ s, rulesOf K.W s ≠ [] → (funText o K fuel s).isSome) (hR : Read o K fuel F) {st : State} {σ : CState} (A : Alike o st σ) {out : Out} {st' : State}
    (hp : parse K fuel E f s st = some (out, st')) :
    ∃ σ', Run E F absent (.call s) σ (.val (out = .ok)) σ' ∧ Alike o st' σ' ∧ ∀ r σ'', Run E F absent (.call s) σ r σ'' → r = .val (out = .ok) ∧ σ'' = σ' :=
  C115_runs_partial h hR (externals_absent hR ht) (by rintro s σ b σ' b' σ'' ⟨rfl, rfl⟩ ⟨rfl, rfl⟩; exact ⟨rfl, rfl⟩) A hp

/-- With C48: in a grammar without operator rules that one token of lookahead decides, the text of the function of a start symbol returns true on each sentence of the symbol, after reading all of it. -/
theorem C115_sentences_partial (h : Made o K) (hp : Gen.Plain K.W) (ho : OpsOk K.W) (hb : BareOk K.W) (hc : ∀ n l r, K.W.node n ≠ some (.tryc l (some r))) (hll : Gen.LL1 K)
    (ht : ∀ s, rulesOf K.W s ≠ [] → (funText o K fuel s).isSome) (hR : Read o K fuel F) (hs : K.W.node s = some .sym) (h0 : s ∈ K.W.start) {ω : List Nat} (hd : Der K.W s ω) (hω : ∀ t ∈ ω, t ∈ K.W.terminals) :
    ∃ σ, Run (onInput K.eofTok ω) F absent (.call s) {} (.val true) σ ∧ σ.pos = ω.length ∧ ∀ r σ', Run (onInput K.eofTok ω) F absent (.call s) {} r σ' → r = .val true ∧ σ' = σ := by
  obtain ⟨f1, k1, hF⟩ := h.first
  obtain ⟨f2, k2, hS⟩ := h.follow
  have hfun : ∀ s, ∃ b, parseFun K fuel s = some b := by
    intro s
    by_cases h1 : rulesOf K.W s = []
    · exact ⟨_, by rw [parseFun, h1]; rfl⟩
    · obtain ⟨ts, e⟩ := Option.isSome_iff_exists.1 (ht s h1)
      obtain ⟨b, -, h2, -⟩ := fun_good (E := ⟨fun _ => 0, fun _ => true, fun _ u => u⟩) (F := fun _ => none) (X := fun _ _ _ _ => False) (P := fun _ => none) (N := 0) h.fits nofun e
      exact ⟨b, h2⟩
  have R : Gen.Ready K (onInput K.eofTok ω) fuel := ⟨h.wf, hp, ho, hb, hc, hll, (computeFirst_quiet hF).1, (computeFirst_quiet hF).2, (followLoop_quiet _ _ _ hS).1, fun s _ => hfun s, fun _ => rfl⟩
  have hend : (onInput K.eofTok ω).inp (({} : State).pos + ω.length) = K.eofTok := by simp [onInput]
  have hfol : (s, K.eofTok) ∈ K.S := by
    cases hd with
    | sym => exact absurd (h.wf.terminals s (hω s (by simp))) (by rw [hs]; simp)
    | expand _ hr hi _ => exact (followLoop_quiet _ _ _ hS).2 _ (mem_initFollow hr hi h0)
    | _ hn => rw [hs] at hn; cases hn
  obtain ⟨st1, h1, h2⟩ := (Gen.complete R hd hω).call hs 0 {} (Gen.reads_getD K.eofTok ω []) (by rw [hend]; exact h.eof) (by rw [hend]; exact hfol)
  obtain ⟨f, st', h3, h4⟩ := Gen.parse_of_call h1
  obtain ⟨σ, h5, h6, h7⟩ := C115_grammar_partial (σ := {}) h ht hR { pos := rfl, asked := rfl, blocked := rfl, errors := rfl, user := rfl, mgmt := fun _ => rfl } h3
  exact ⟨σ, h5, by rw [h6.pos, h4, h2]; simp, h7⟩

/-! ### Examples -/

theorem symbols_of (W : World) {s : Nat} (h : rulesOf W s ≠ []) : ∃ r ∈ W.rules, ∃ i, W.node r = some (.evolve i s) := by
  obtain ⟨r, hr⟩ := List.exists_mem_of_ne_nil _ h
  rw [rulesOf, List.mem_reverse, List.mem_filter] at hr
  obtain ⟨h1, h2⟩ := hr
  split at h2
  · next i s' e =>
    rw [decide_eq_true_eq] at h2
    exact ⟨r, h1, i, h2 ▸ e⟩
  · cases h2

/-- `try/rollback (A B) catch (A C) -> x;  try/recover (x D) E -> s;` -/
theorem try_made : Made {} Gen.tryCtx where
  wf := Gen.try_wf
  first := ⟨50, 20, by decide +kernel⟩
  follow := ⟨50, 20, by decide +kernel⟩
  eof := by decide +kernel
  mgmt _ _ _ _ := rfl

theorem try_texts (s : Nat) (h : rulesOf Gen.tryCtx.W s ≠ []) : (funText {} Gen.tryCtx 20 s).isSome := by
  obtain ⟨r, hr, i, e⟩ := symbols_of _ h
  have : r = 11 ∨ r = 17 := by simpa [Gen.tryCtx, Gen.tryWorld] using hr
  rcases this with rfl | rfl
  · rw [show Gen.tryCtx.W.node 11 = some (.evolve 10 6) by decide +kernel] at e
    cases e
    decide +kernel
  · rw [show Gen.tryCtx.W.node 17 = some (.evolve 15 7) by decide +kernel] at e
    cases e
    decide +kernel

/-- The text for `x`, with one `try` block and a jump into the handler. -/
example : funText { ast := false } Gen.tryCtx 20 6 = some ([.lb, .kIf, .lp, .w .yytoken, .w .«==», .sym .Token_ 1, .rp, .lb, .code 11] ++
    [.w .bool, .num .blockErrors_ 1, .w .«=», .w .blockErrors, .lp, .w .true, .rp, .semi] ++
    [.w .qint64, .num .try_startToken_ 1, .w .«=», .w .tokenStream, .w .«->», .w .index, .lp, .rp, .w .«-», .w .«1», .semi] ++
    [.w .ParserState, .w .«*», .num .try_startState_ 1, .w .«=», .w .copyCurrentState, .lp, .rp, .semi, .lb] ++
    [.kIf, .lp, .w .yytoken, .w .«!=», .sym .Token_ 1, .rp, .kGoto, .num .__catch_ 1, .semi, .w .yylex, .lp, .rp, .semi] ++
    [.kIf, .lp, .w .yytoken, .w .«!=», .sym .Token_ 2, .rp, .kGoto, .num .__catch_ 1, .semi, .w .yylex, .lp, .rp, .semi, .rb] ++
    [.w .blockErrors, .lp, .num .blockErrors_ 1, .rp, .semi, .kIf, .lp, .num .try_startState_ 1, .rp, .w .delete, .num .try_startState_ 1, .semi] ++
    [.kIf, .lp, .w .false, .rp, .lb, .num .__catch_ 1, .colon, .kIf, .lp, .num .try_startState_ 1, .rp, .lb, .w .restoreState, .lp, .num .try_startState_ 1, .rp, .semi,
      .w .delete, .num .try_startState_ 1, .semi, .rb] ++
    [.w .blockErrors, .lp, .num .blockErrors_ 1, .rp, .semi, .w .rewind, .lp, .num .try_startToken_ 1, .rp, .semi] ++
    tokToks { ast := false } 1 0 ++ lexToks ++ tokToks { ast := false } 3 0 ++ lexToks ++ [.rb, .rb, .kElse, .lb, .kReturn, .w .false, .semi, .rb, .kReturn, .w .true, .semi, .rb]) := by decide +kernel

example {ts : Toks} (h : funText {} Gen.tryCtx 20 7 = some ts) : ∃ t, Reads .stmt ts t [] ∧ ∀ t' r, Reads .stmt ts t' r → t' = t ∧ r = [] := C115_reads try_made h

/-- On `A C D E` the body of the `try` block fails, and the handler is entered by a jump; all is read, and nothing is reported. -/
example : ∃ F, Read {} Gen.tryCtx 20 F ∧ ∃ σ, Run (onInput 16 [1, 3, 4, 5]) F absent (.call 7) {} (.val true) σ ∧ σ.pos = 4 ∧ σ.errors = 0 ∧ σ.blocked = false := by
  obtain ⟨F, hF⟩ := read_exists (fuel := 20) try_made
  obtain ⟨st, h1, h2, h3, h4⟩ : ∃ st, parse Gen.tryCtx 20 (onInput 16 [1, 3, 4, 5]) 60 7 {} = some (.ok, st) ∧ st.pos = 4 ∧ st.errors = 0 ∧ st.blocked = false :=
    ⟨((parse Gen.tryCtx 20 (onInput 16 [1, 3, 4, 5]) 60 7 {}).getD (.failed, {})).2, by decide +kernel⟩
  obtain ⟨σ, h5, h6, -⟩ := C115_grammar_partial try_made try_texts hF (σ := {}) { pos := rfl, asked := rfl, blocked := rfl, errors := rfl, user := rfl, mgmt := fun _ => rfl } h1
  exact ⟨F, hF, σ, h5, h6.pos.trans h2, h6.errors.trans h3, h6.blocked.trans h4⟩

/-- `A (B)* x -> s;  C | D -> x;` with 1 `A`, 2 `B`, 3 `C`, 4 `D`, 5 `s`, 6 `x`, 14 the end. -/
def listWorld : World := rewrite {
  heap := [.zero, .term, .term, .term, .term, .sym, .sym, .star 2, .cons 1 7, .nonterm 6, .cons 8 9, .evolve 10 5, .alt 3 4, .evolve 12 6, .term]
  parsed := 0
  rules := [11, 13]
  zero := 0
  terminals := [1, 2, 3, 4]
  start := [5]
  bnf := fun _ => none } [7]

def listCtx : Ctx := Gen.ctxOf listWorld 14

theorem list_made : Made {} listCtx where
  wf := wf_of_wfB (by decide +kernel)
  first := ⟨50, 20, by decide +kernel⟩
  follow := ⟨50, 20, by decide +kernel⟩
  eof := by decide +kernel
  mgmt _ _ _ _ := rfl

theorem list_texts (s : Nat) (h : rulesOf listCtx.W s ≠ []) : (funText {} listCtx 20 s).isSome := by
  obtain ⟨r, hr, i, e⟩ := symbols_of _ h
  rw [show listCtx.W.rules = [11, 13] by decide +kernel] at hr
  have : r = 11 ∨ r = 13 := by simpa using hr
  rcases this with rfl | rfl
  · rw [show listCtx.W.node 11 = some (.evolve 10 5) by decide +kernel] at e
    cases e
    decide +kernel
  · rw [show listCtx.W.node 13 = some (.evolve 12 6) by decide +kernel] at e
    cases e
    decide +kernel

theorem list_ops : ∀ n q, listCtx.W.node n ≠ some (.op q) := by
  intro n q h
  have h1 : (listCtx.W.heap.all fun it => match it with | .op _ => false | _ => true) = true := by decide +kernel
  have := List.all_eq_true.1 h1 _ (List.mem_of_getElem? h)
  cases this

/-- `A B B C` is a sentence; the text returns true. -/
example : ∃ F, Read {} listCtx 20 F ∧ ∃ σ, Run (onInput 14 [1, 2, 2, 3]) F absent (.call 5) {} (.val true) σ ∧ σ.pos = 4 := by
  obtain ⟨F, hF⟩ := read_exists (fuel := 20) list_made
  have ho : OpsOk listCtx.W := fun n q h => absurd h (list_ops n q)
  have hd : Der listCtx.W 5 [1, 2, 2, 3] := .expand (r := 11) (i := 10) (by decide +kernel) (by decide +kernel) (by decide +kernel)
    (.cons (l := 8) (r := 9) (α := [1, 2, 2]) (β := [3]) (by decide +kernel)
      (.cons (l := 1) (r := 7) (α := [1]) (β := [2, 2]) (by decide +kernel) (.term (by decide +kernel))
        (.starS (i := 2) (α := [2]) (β := [2]) (by decide +kernel) (.term (by decide +kernel)) (.starS (i := 2) (α := [2]) (β := []) (by decide +kernel) (.term (by decide +kernel)) (.star0 (i := 2) (by decide +kernel)))))
      (.nonterm (s := 6) (by decide +kernel) (.expand (r := 13) (i := 12) (by decide +kernel) (by decide +kernel) (by decide +kernel) (.altL (l := 3) (r := 4) (by decide +kernel) (.term (by decide +kernel))))))
  obtain ⟨σ, h1, h2, -⟩ := C115_sentences_partial list_made (Gen.plain_of_plainB (by decide +kernel)) ho (bareOk_of_none ho (of_noBare (by decide +kernel))) (Gen.noCatch_of (by decide +kernel))
    (Gen.ll1_of_ll1B (nb := fun n => [0, 7, 15, 16].contains n) (by decide +kernel)).1 list_texts hF (by decide +kernel) (by decide +kernel) hd (by decide +kernel)
  exact ⟨F, hF, σ, h1, h2⟩

end Verif.GenText
