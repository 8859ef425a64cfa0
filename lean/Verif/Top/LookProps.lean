import Verif.Top.Props
import Verif.Front.LookProps

/-!
# C104: rules as written which one token of lookahead decides
-/

namespace Verif.Top

open Verif.Front hiding St
open Verif.Auto Verif.LexFile Verif.LexSyn
open Verif.Grammar (find computeFirst computeFollow)
open Verif.Gen (Ctx)
open Verif.Whole (User host run)

/-- C104 (partial): like `C104_accepted_partial`, all conditions on the grammar being about the rules as written.  Missing: what is missing in `C96_lexer_partial` and `C100_written_partial`. -/
theorem C104_written_partial {E : GLex.Env} {s : List Nat} {F : Top.File} {w : Top.World} (hread : Reads E s F) (hrun : F.run = some w) (hv : ∀ r ∈ F.rules, Valid r.item) (hd : DeclaredIn w.tokens F.rules)
    {C : Type} [CharSetLike C] {A : Chars C} {R : LexSyn.Spec.Reading} (order : List Bits → List Bits) (ho : Enumerates order) {fuelA : Nat} (hA : Alphabet order fuelA w.type C A) (hR : R.Bounded)
    (uni : Store C → LexSyn.Out (Store C)) (st0 : Store C) (N : LexSyn.Text → Lang) (hst : ∀ s d, st0 s = some d → d.ready = false ∧ d.nfa.Wf ∧ ∀ w, d.nfa.Lang w ↔ N s w)
    (hu : (∃ ds ss', w.sections = (none, ds) :: ss') ∧ uni (fun _ => none) = .ok st0 ∨ (∀ p ∈ w.sections, p.1 ≠ none) ∧ st0 = fun _ => none)
    (hf : ∀ p ∈ w.sections, FaithfulAll A R p.2) (hb : BehindFile A R N (fun s => st0 s ≠ none) w.sections) (hcl : LexSyn.Spec.ClosedFile (fun s => st0 s ≠ none) w.sections)
    (hsafe : LexSyn.Spec.SafeFile R (CharSetLike.size C) N w.sections) {step : List (C × Nat) → Nat → Option Nat} (hstep : ∀ d : DFA C, d.Wf → OnePer d.rules → Lexer.StepOk step d)
    (I : Numbers) {es : Nat → LexFile.Spec.Rules} (hes : ∀ r, LexFile.Spec.File R (CharSetLike.size C) I.tok I.num (I.name r) N w.sections (es r)) (hus : ∀ r, LexFile.Spec.Usable (es r))
    (hfail : ∀ r, LexFile.Spec.Quiet (LexSyn.Spec.last (LexSyn.Spec.bytes "qDebug() << \"error\"; exit(-1);") LexSyn.Spec.failCode (LexSyn.Spec.ofEnv (I.name r) w.sections)))
    (hadv : ∀ r, ∀ e ∈ es r, ∀ w, e.1 w → e.2.ahead < w.length) :
    (∃ us st, ActRs us F.rules (({} : Front.St).tokens w.tokens) st) ∧ ∀ {us st}, ActRs us F.rules (({} : Front.St).tokens w.tokens) st → ∀ {K : Ctx}, Handed st.finish.1 K.W → K.eofTok = st.finish.2 → (∀ r ∈ F.rules, Simple False r.item) → OpsFine F.rules →
      ∀ {r : Syntax.Rule}, r ∈ F.rules → Alone F.rules r.sym → Look F.rules → ∀ {f1 k1 f2 k2 : Nat}, computeFirst K.W f1 k1 = some K.F → computeFollow K.W K.F K.eofTok f2 k2 = some K.S →
      ∀ {U : User}, (∀ k, U.oracle k = true) → ∀ {num : Syntax.Name → Nat} {numOf : Nat → Nat}, Numbered st.finish.1.tab num numOf → Fits w.tokens num (fun x => ∃ r, ∃ e ∈ es r, e.2.term = .tok x) →
      ∃ k, find st.finish.1.tab.symbols r.sym = some k ∧ ∃ G, ∀ fuel, G ≤ fuel → ∃ sys, execFile A order fuel uni Sys.init w.sections = .ok sys ∧
        ∃ d : Nat → DFA C, (∀ r, ∃ G, ∀ fuel', G ≤ fuel' → automaton order fuel' (sys.envs (I.name r)).rules (sys.envs (I.name r)).actions = some (d r)) ∧
          ∀ buf, (∀ x ∈ buf, x < CharSetLike.size C) → ∀ L, Generated I step d sys buf L → ∃ D, LexFile.Spec.Describes es buf D ∧
            ((∃ f σ, run K fuel (host L K.W numOf) U f k = some (.ok, σ)) ↔ ∃ ω, Sentence F.rules r.sym ω ∧ Cut D num ω) := by
  obtain ⟨h1, h2⟩ := C104_accepted_partial hread hrun hv hd order ho hA hR uni st0 N hst hu hf hb hcl hsafe hstep I hes hus hfail hadv
  exact ⟨h1, fun hact _ hW he hs hop _ hr hal hL _ _ _ _ hF hS => h2 hact hW he hs hop hr hal (C113_lookahead_partial hact hd hW he hs hop hL hF hS) hF hS⟩

/-- The conditions of `C104_written_partial` hold for the file of the example; the text `1ax#b!` is accepted. -/
example : ∃ k numOf, find listSt.finish.1.tab.symbols [115] = some k ∧ Numbered listSt.finish.1.tab listNumber numOf ∧
    ∃ F, ∀ fuel, F ≤ fuel → ∃ sys, execFile asciiChars List.dedup fuel (fun _ => .stuck) Sys.init exWorld.sections = .ok sys ∧
      ∃ d : Nat → DFA (CharSet.Table 128), ∀ L, Generated exNumbers Lexer.tableStep d sys [49, 97, 120, 35, 98, 33] L → ∃ f σ, run listK fuel (host L listK.W numOf) Whole.quietUser f k = some (.ok, σ) := by
  obtain ⟨c1, c2, c3, c4, c5, c6⟩ := ex_conditions
  obtain ⟨numOf, hn⟩ := numbered_exists (C99_terminals list_act list_declared list_handed).2.1 listNumber
  obtain ⟨-, h⟩ := C104_written_partial ex_reads ex_run (fun r hr => by cases List.mem_singleton.1 hr; exact ⟨trivial, trivial, trivial⟩) list_declared (C := CharSet.Table 128) (A := asciiChars) (R := exK)
    List.dedup enumerates_dedup (fuelA := 0) .tAscii c1 (fun _ => .stuck) exStore exN (by simp) (Or.inr ⟨by simp [exWorld], rfl⟩) c2 c3 c4 c5 ex_tab exNumbers (es := fun _ => LexFile.exRules)
    (fun _ => ex_file) (fun _ => ex_usable) c6 (fun _ => ex_advances)
  obtain ⟨k, hk, G, h⟩ := h list_act (K := listK) list_handed rfl (fun r hr => by cases List.mem_singleton.1 hr; exact ⟨trivial, trivial, trivial⟩) (fun r hr o ho => by cases List.mem_singleton.1 hr; cases ho) (r := listRules[0]) (.head _)
    ⟨by decide +kernel, fun r hr => by cases List.mem_singleton.1 hr; exact fun h => by rcases h with h | h | h <;> exact h⟩ list_look
    (f1 := 50) (k1 := 20) (f2 := 50) (k2 := 20) (by decide +kernel) (by decide +kernel) (U := Whole.quietUser) (fun _ => rfl) hn list_fits
  refine ⟨k, numOf, hk, hn, G, fun fuel hf => ?_⟩
  obtain ⟨sys, h1, d, h2, h3⟩ := h fuel hf
  refine ⟨sys, h1, d, fun L hL => ?_⟩
  obtain ⟨D, d1, d2⟩ := h3 _ (by decide) L hL
  refine d2.2 ⟨[[78], [65], [67]], ⟨_, .head _, rfl, .cons (α := [[78]]) .term (.again (α := [[65]]) (.left .term) (.again (α := [[67]]) (.right .term) .none))⟩, ?_⟩
  exact Whole.list_yields d1

end Verif.Top
