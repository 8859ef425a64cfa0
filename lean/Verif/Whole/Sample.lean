import Verif.Whole.Ahead
import Verif.Read.Props

/-!
# C97, C98: a grammar and a lexer that meet the conditions; text that is not looked at
-/

namespace Verif.Whole

open Verif.Gen Verif.TokStream Verif.Read Verif.Grammar

/-- `A (B A)* -> s`; 1 is `A`, 2 is `B`, 3 is `s`, 8 is `EOF`. -/
def pairsWorld : World := rewrite {
  heap := [.zero, .term, .term, .sym, .cons 2 1, .star 4, .cons 1 5, .evolve 6 3, .term]
  parsed := 0
  rules := [7]
  zero := 0
  terminals := [1, 2, 8]
  start := [3]
  bnf := fun _ => none } [5]

def pairsCtx : Ctx := ctxOf pairsWorld 8

/-- Item 8 has the number of `EOF`, items 1 and 2 those of `Read.readSpec`. -/
def pairsNum (t : Nat) : Nat := if t = 8 then 1000 else 1000 + t

def quietUser : User := ⟨fun _ => true, fun _ n => n⟩

theorem pairs_wf : Wf pairsCtx.W := wf_of_wfB (W := pairsWorld) (by decide +kernel)

theorem pairs_plain : Plain pairsCtx.W := plain_of_plainB (W := pairsWorld) (by decide +kernel)

def pairsNull (n : Nat) : Bool := [0, 5, 9, 10].contains n

theorem pairs_lead : LeadOk pairsCtx.W ∧ OpsOk pairsCtx.W :=
  of_leadB (W := pairsWorld) (nb := pairsNull) (S := starts pairsWorld pairsNull 6) pairs_wf (by decide +kernel)

theorem pairs_bare : BareOk pairsCtx.W := bareOk_of_none pairs_lead.2 (of_noBare (W := pairsWorld) (by decide +kernel))

theorem pairs_ll1 : LL1 pairsCtx ∧ OpsLoop pairsCtx.W := ll1_of_ll1B (K := pairsCtx) (nb := pairsNull) (by decide +kernel)

theorem pairs_noTry : ∀ n l r, pairsCtx.W.node n ≠ some (.tryc l r) := by
  intro n l r hn
  have h : (List.range pairsWorld.heap.length).all (fun n => match pairsWorld.node n with | some (.tryc _ _) => false | _ => true) = true := by decide +kernel
  have := List.all_eq_true.1 h n (List.mem_range.2 (lt_of_node hn))
  rw [show pairsWorld.node n = _ from hn] at this
  cases this

theorem pairs_first : computeFirst pairsCtx.W 50 20 = some pairsCtx.F := by decide +kernel

theorem pairs_follow : computeFollow pairsCtx.W pairsCtx.F pairsCtx.eofTok 50 20 = some pairsCtx.S := by decide +kernel

theorem pairs_inj : ∀ a b, pairsCtx.W.node a = some .term → pairsCtx.W.node b = some .term → pairsNum a = pairsNum b → a = b := by
  have ht : ∀ a, pairsCtx.W.node a = some .term → a ∈ pairsWorld.terminals := by
    intro a ha
    have h : (List.range pairsWorld.heap.length).all (fun n => pairsWorld.node n != some .term || pairsWorld.terminals.contains n) = true := by decide +kernel
    have := List.all_eq_true.1 h a (List.mem_range.2 (lt_of_node ha))
    rw [show pairsWorld.node a = _ from ha] at this
    simpa using this
  intro a b ha hb
  have h1 := ht a ha
  have h2 := ht b hb
  have h : ∀ a ∈ pairsWorld.terminals, ∀ b ∈ pairsWorld.terminals, pairsNum a = pairsNum b → a = b := by decide +kernel
  exact h a h1 b h2

theorem pairs_eof : pairsCtx.eofTok ∈ pairsCtx.W.terminals ∧ pairsNum pairsCtx.eofTok = 1000 := by decide +kernel

/-- The grammar belongs together with the lexer of `Read.readSpec`. -/
theorem pairs_together : Together readSpec pairsCtx.W pairsCtx.eofTok pairsNum where
  adv := readSpec_made.2
  inj := pairs_inj
  eof := pairs_eof
  known := by
    intro r p u q x _ h hx
    have : x = 1001 ∨ x = 1002 := by
      simp only [readSpec] at h
      split at h <;> cases h <;> simp_all
    rcases this with rfl | rfl
    · exact ⟨1, by decide +kernel, rfl⟩
    · exact ⟨2, by decide +kernel, rfl⟩

/-- The conditions of `C97_exactly_partial` hold of the grammar. -/
theorem pairs_exactly : ∃ fuel0, ∀ fuel, fuel0 ≤ fuel → ∀ D L, Made D L → Together D pairsCtx.W pairsCtx.eofTok pairsNum →
    ((∃ f σ, run pairsCtx fuel (host L pairsCtx.W pairsNum) quietUser f 3 = some (.ok, σ)) ↔ ∃ ω, Der pairsCtx.W 3 ω ∧ (∀ t ∈ ω, t ∈ pairsCtx.W.terminals) ∧ Yields D pairsNum ω) :=
  C97_exactly_partial pairs_wf pairs_plain pairs_lead.2 pairs_bare pairs_ll1.2 pairs_noTry pairs_ll1.1 pairs_first pairs_follow (fun _ => rfl) (by decide +kernel) (by decide +kernel)

/-- The parser on the input `aa /ccba` of the lexer: accepted with the tokens `A B A` and the end. -/
example : Made readSpec readLx ∧ Together readSpec pairsCtx.W pairsCtx.eofTok pairsNum ∧
    (run pairsCtx 20 (host readLx pairsCtx.W pairsNum) quietUser 60 3).map (fun r => (r.1, r.2.lx.str.buf)) =
      some (.ok, [⟨1001, 0, 1⟩, ⟨1002, 3, 6⟩, ⟨1001, 7, 7⟩, ⟨1000, 8, 8⟩]) := ⟨readSpec_made.1, pairs_together, by decide +kernel⟩

/-- `LA(1)` to `LA(4)` after the first token is read are the four tokens; `LA(0)` would be before the first. -/
example : ((PState.init.lex (host readLx pairsCtx.W pairsNum)).bind fun σ => ([1, 2, 3, 4] : List Int).mapM fun k => (σ.la (host readLx pairsCtx.W pairsNum) 20 k).map fun r => (r.2.kind, r.1.lx.str.idx)) =
    some [(1001, 1), (1002, 1), (1001, 1), (1000, 1)] ∧
    ((PState.init.lex (host readLx pairsCtx.W pairsNum)).map fun σ => σ.la (host readLx pairsCtx.W pairsNum) 20 0) = some none := by
  refine ⟨by decide +kernel, by decide +kernel⟩

/-- There `LA` can be called: the state is in sync, as C98 asks. -/
example : ∃ σ, PState.init.lex (host readLx pairsCtx.W pairsNum) = some σ ∧ Read.run readLx 45 .init [.read] = some (σ.lx, [(0, ⟨1001, 0, 1⟩)]) ∧ InSync σ := by
  refine ⟨((PState.init.lex (host readLx pairsCtx.W pairsNum)).getD .init), by decide +kernel, by decide +kernel, ?_⟩
  exact ⟨⟨0, by decide +kernel, by decide +kernel⟩, by decide +kernel⟩

/-- `"a" A; " ";` on `a a`: some rule matches everywhere. -/
def fullSpec : Read.Spec := ⟨3, fun _ p => if p = 1 then some ({ term := .skip }, 2) else some ({ term := .tok 1001 }, p + 1)⟩

example : (∀ r p, p < fullSpec.n → fullSpec.found r p ≠ none) ∧ (∀ r p u q, fullSpec.found r p = some (u, q) → u.term ≠ .tok 1000) ∧
    Tokens fullSpec 0 0 [⟨1001, 0, 0⟩, ⟨1001, 2, 2⟩, ⟨1000, 3, 3⟩] := by
  have e0 : 0 < fullSpec.n := by decide
  have e1 : 1 < fullSpec.n := by decide
  have e2 : 2 < fullSpec.n := by decide
  have e3 : fullSpec.n ≤ 3 := by decide
  refine ⟨fun r p _ => ?_, fun r p u q h => ?_,
    .tok (q := 1) (r' := 0) (.tok e0 rfl rfl) (.skip (q := 2) (r' := 0) (.skip e1 rfl rfl) (.tok (q := 3) (r' := 0) (.tok e2 rfl rfl) (.stop (.eof e3) .nil)))⟩
  · dsimp only [fullSpec]
    split <;> simp
  · dsimp only [fullSpec] at h
    split at h <;> cases h <;> simp

/-! ### Text that is not looked at -/

/-- `"a" A; "b" B; %fail [: :];` on the input `a!ba`. -/
def gapSpec : Read.Spec where
  n := 4
  found _ p := match p with
    | 0 => some ({ term := .tok 1001 }, 1)
    | 2 => some ({ term := .tok 1002 }, 3)
    | 3 => some ({ term := .tok 1001 }, 4)
    | _ => none

def gapLx : Lx where
  n := 4
  scan r p := match gapSpec.found r p with
    | none => some (p, 0)
    | some (_, q) => some (q, p + 1)
  code r a _ := match a with
    | 0 => []
    | p + 1 => match gapSpec.found r p with
      | none => []
      | some (u, _) => (if u.ahead = 0 then [] else [.back u.ahead]) ++ (match u.next with | none => [] | some r' => [.ruleSet r']) ++
          [match u.term with | .tok x => .ret x | .skip => .skip | .more => .cont]

theorem gapSpec_ok {r p : Nat} {u : Rule} {q : Nat} (h : gapSpec.found r p = some (u, q)) : u.ahead = 0 ∧ p < q ∧ q ≤ 4 ∧ (u.term = .tok 1001 ∨ u.term = .tok 1002) := by
  simp only [gapSpec] at h
  split at h <;> first | (cases h; decide) | cases h

theorem gap_made : Made gapSpec gapLx ∧ gapSpec.Advances := by
  refine ⟨⟨rfl, ?_⟩, ?_⟩
  · intro r p hp
    cases h : gapSpec.found r p with
    | none => exact ⟨0, by simp [gapLx, h], fun s => rfl⟩
    | some v =>
      obtain ⟨u, q⟩ := v
      obtain ⟨h1, _, _⟩ := gapSpec_ok h
      exact ⟨by omega, p + 1, by simp [gapLx, h], fun s => by simp only [gapLx, h]; cases u.next <;> cases u.term <;> rfl⟩
  · intro r p u q _ h
    obtain ⟨h1, h2, h3, _⟩ := gapSpec_ok h
    exact ⟨by omega, h3⟩

theorem gap_together : Together gapSpec pairsCtx.W pairsCtx.eofTok pairsNum where
  adv := gap_made.2
  inj := pairs_inj
  eof := pairs_eof
  known := by
    intro r p u q x _ h hx
    rcases (gapSpec_ok h).2.2.2 with h | h <;> rw [hx] at h <;> cases h
    · exact ⟨1, by decide +kernel, rfl⟩
    · exact ⟨2, by decide +kernel, rfl⟩

/-- C97: that a text is accepted does not mean that all of it was read: where no rule matches and the action for this does nothing, the lexer reports `EOF`.  Here `a!ba` is accepted as `A`, with
the `EOF` at 1; no error is reported. -/
theorem C97_fails_rest : Made gapSpec gapLx ∧ Together gapSpec pairsCtx.W pairsCtx.eofTok pairsNum ∧ ∃ σ, run pairsCtx 20 (host gapLx pairsCtx.W pairsNum) quietUser 60 3 = some (.ok, σ) ∧
    σ.errors = 0 ∧ σ.lx.str.buf = [⟨1001, 0, 0⟩, ⟨1000, 1, 1⟩] ∧ gapSpec.n = 4 := by
  refine ⟨gap_made.1, gap_together, ((run pairsCtx 20 (host gapLx pairsCtx.W pairsNum) quietUser 60 3).getD (.ok, .init)).2, by decide +kernel, by decide +kernel, by decide +kernel, rfl⟩

end Verif.Whole
