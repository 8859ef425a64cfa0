import Verif.Main.Model
import Verif.Check.SymbolProps
import Verif.Check.ConflictProps

/-!
# When the rules are refused
-/

namespace Verif.Main

open Verif.Grammar Verif.Check

theorem total_zero {g : Nat → Option Nat} : ∀ {rs : List Nat} {e : Nat}, total g rs = some e → (e = 0 ↔ ∀ r ∈ rs, g r = some 0)
  | [], e, h => by cases h; simp
  | r :: rs, e, h => by
    obtain ⟨a, ha, h⟩ := Option.bind_eq_some_iff.1 h
    obtain ⟨b, hb, rfl⟩ := Option.map_eq_some_iff.1 h
    have := total_zero hb
    simp only [List.mem_cons, forall_eq_or_imp, ← this, ha, Option.some.injEq]
    omega

theorem total_some {g : Nat → Option Nat} : ∀ {rs : List Nat} {e : Nat}, total g rs = some e → ∀ r ∈ rs, ∃ a, g r = some a
  | [], _, _, r, hr => by cases hr
  | r :: rs, e, h, r', hr' => by
    obtain ⟨a, ha, h⟩ := Option.bind_eq_some_iff.1 h
    obtain ⟨b, hb, rfl⟩ := Option.map_eq_some_iff.1 h
    rcases List.mem_cons.1 hr' with rfl | hr'
    · exact ⟨a, ha⟩
    · exact total_some hb r' hr'

theorem total_of {g : Nat → Option Nat} : ∀ {rs : List Nat}, (∀ r ∈ rs, ∃ a, g r = some a) → ∃ e, total g rs = some e
  | [], _ => ⟨0, rfl⟩
  | r :: rs, h => by
    obtain ⟨a, ha⟩ := h r (by simp)
    obtain ⟨b, hb⟩ := total_of (g := g) (rs := rs) fun r hr => h r (by simp [hr])
    exact ⟨a + b, by rw [total, ha, hb]; rfl⟩

theorem withCut_nil (W : World) : withCut W [] = W := by
  cases W
  have : ∀ l : List Item, l.mapIdx (fun _ it => it) = l := fun l => List.ext_getElem (by simp) (by simp)
  simp [withCut, this]

/-- What is accepted: the conditions on the rules without which an error is reported. -/
structure Accepted (I : Input) : Prop where
  acyclic : InlineAcyclic I.W
  inlined : NoInlinedOp I.W
  bases : OpsOk I.W
  productive : ∀ r i s, r ∈ I.W.rules → I.W.node r = some (.evolve i s) → Productive I.W s
  symbols : ∀ r ∈ I.W.rules, SymbolsOk I.W I.D r
  tokens : ∀ r ∈ I.W.rules, TokensOk I.W I.eofs r

/-- The checks made if no error is found in the inlining. -/
theorem checkRules_ok {I : Input} (hw : Wf I.W) {fuel : Nat} {ignore : Bool} {c : Counts} (h : checkRules I fuel ignore = some c) :
    (c.errors = 0 → InlineAcyclic I.W ∧ NoInlinedOp I.W) ∧ (InlineAcyclic I.W ∧ NoInlinedOp I.W →
    ∃ F S, computeFirst I.W fuel fuel = some F ∧ computeFollow I.W F I.eof fuel fuel = some S ∧
      (if ignore then some 0 else total (fun r => (firstFollow I.W F S fuel r).map List.length) I.W.rules) = some c.firstFollow ∧
      (if ignore then some 0 else total (fun r => (firstFirst I.W F fuel r).map List.length) I.W.rules) = some c.firstFirst ∧
      (∀ r ∈ I.W.rules, ∃ e, emptyOp I.W F fuel r = some e) ∧ 
      (c.errors = 0 ↔ (∀ r ∈ I.W.rules, emptyFirst I.W F r = 0) ∧ (∀ r ∈ I.W.rules, emptyOp I.W F fuel r = some 0) ∧
        (∀ r ∈ I.W.rules, SymbolsOk I.W I.D r) ∧ ∀ r ∈ I.W.rules, TokensOk I.W I.eofs r)) := by
  unfold checkRules at h
  split at h
  · next cut e1 hi =>
    obtain ⟨-, h1, h2⟩ := C42_refused_iff_cyclic hw hi
    obtain ⟨e2, he2, h⟩ := Option.bind_eq_some_iff.1 h
    obtain ⟨F, hF, h⟩ := Option.bind_eq_some_iff.1 h
    obtain ⟨S, hS, h⟩ := Option.bind_eq_some_iff.1 h
    obtain ⟨c1, hc1, h⟩ := Option.bind_eq_some_iff.1 h
    obtain ⟨c2, hc2, h⟩ := Option.bind_eq_some_iff.1 h
    obtain ⟨e3, he3, h⟩ := Option.bind_eq_some_iff.1 h
    obtain ⟨e4, he4, h⟩ := Option.bind_eq_some_iff.1 h
    obtain ⟨e5, he5, h⟩ := Option.bind_eq_some_iff.1 h
    obtain ⟨e6, he6, rfl⟩ := Option.map_eq_some_iff.1 h
    refine ⟨fun h0 => h1.1 (by simp only at h0; omega), fun hac => ?_⟩
    have he1 := h1.2 hac
    have hcut := h2 he1
    subst he1 hcut
    rw [withCut_nil] at he2 hF hS hc1 hc2 he3 he4 he5 he6
    have z2 : e2 = 0 := by
      refine (total_zero he2).2 fun r hr => ?_
      obtain ⟨a, ha⟩ := total_some he2 r hr
      rw [ha, emptyOp_ok hw (F := []) (fun _ _ _ _ _ _ h => by cases h) (.rule hr) ha]
    subst z2
    refine ⟨F, S, hF, hS, hc1, hc2, total_some he4, ?_⟩
    have t3 := total_zero he3
    have t4 := total_zero he4
    have t5 := total_zero he5
    have t6 := total_zero he6
    have s3 : e3 = 0 ↔ ∀ r ∈ I.W.rules, emptyFirst I.W F r = 0 := by simpa using t3
    have s5 : e5 = 0 ↔ ∀ r ∈ I.W.rules, SymbolsOk I.W I.D r := by
      rw [t5]
      constructor
      · exact fun h r hr => (symbols_iff hw hr (h r hr)).1 rfl
      · intro h r hr
        obtain ⟨a, ha⟩ := total_some he5 r hr
        rw [ha, (symbols_iff hw hr ha).2 (h r hr)]
    have s6 : e6 = 0 ↔ ∀ r ∈ I.W.rules, TokensOk I.W I.eofs r := by
      rw [t6]
      constructor
      · exact fun h r hr => (tokens_iff hw (h r hr)).1 rfl
      · intro h r hr
        obtain ⟨a, ha⟩ := total_some he6 r hr
        rw [ha, (tokens_iff hw ha).2 (h r hr)]
    simp only
    rw [← s3, ← t4, ← s5, ← s6]
    omega
  · cases h

/-- C41: no error is counted exactly if the rules are acceptable. -/
theorem C41_errors_partial {I : Input} (hw : Wf I.W) (hb : ∀ n, I.W.node n ≠ some (.action none)) (hocc : ∀ n o, I.W.node n = some (.op o) → Occurs I.W n)
    (hl : LeadOk I.W) {fuel : Nat} {ignore : Bool} {c : Counts} (h : checkRules I fuel ignore = some c) : c.errors = 0 ↔ Accepted I := by
  obtain ⟨h1, h2⟩ := checkRules_ok hw h
  have key : InlineAcyclic I.W ∧ NoInlinedOp I.W → (c.errors = 0 ↔ Accepted I) := by
    rintro ⟨ha, hn⟩
    obtain ⟨F, S, hF, hS, -, -, ht, hiff⟩ := h2 ⟨ha, hn⟩
    rw [hiff]
    have hop : (∀ r ∈ I.W.rules, emptyOp I.W F fuel r = some 0) ↔ OpsOk I.W := by
      rw [← C41_empty_operator_partial hw hb hocc hl hF (f := fuel) (es := fun r => (emptyOp I.W F fuel r).getD 0) (by
        intro r hr
        obtain ⟨e, he⟩ := ht r hr
        rw [he]; rfl)]
      refine forall₂_congr fun r hr => ?_
      obtain ⟨e, he⟩ := ht r hr
      rw [he]
      simp
    rw [hop]
    constructor
    · rintro ⟨g1, g2, g3, g4⟩
      exact ⟨ha, hn, g2, fun r i s hr hi => (C41_empty_first_partial hw g2 (bareOk_of_none g2 hb) hl hF hi).1 (g1 r hr), g3, g4⟩
    · rintro ⟨-, -, g2, g1, g3, g4⟩
      refine ⟨fun r hr => ?_, g2, g3, g4⟩
      obtain ⟨-, i, s, hi⟩ := hw.rules r hr
      exact (C41_empty_first_partial hw g2 (bareOk_of_none g2 hb) hl hF hi).2 (g1 r i s hr hi)
  constructor
  · exact fun h0 => (key (h1 h0)).1 h0
  · exact fun ha => (key ⟨ha.acyclic, ha.inlined⟩).2 ha

/-- C41: without cycles in the inlining the checks end (there being no bare actions, see `C40_fails_bare_action`). -/
theorem C41_checks_end {I : Input} (hw : Wf I.W) (ht : I.W.terminals.Nodup) (he : I.W.node I.eof = some .term) (hb : ∀ n, I.W.node n ≠ some (.action none))
    (ha : InlineAcyclic I.W) (hn : NoInlinedOp I.W) : ∃ f0, ∀ fuel, f0 ≤ fuel → ∀ ignore, ∃ c, checkRules I fuel ignore = some c := by
  obtain ⟨f1, h1⟩ := C42_check_ends hw
  have acc : ∀ r ∈ I.W.rules, Acc (fun m n => Gen.Visits I.W n m) r := by
    obtain ⟨cut, e, hi⟩ := h1 f1 (Nat.le_refl _)
    have h0 := (C42_refused_iff_cyclic hw hi).2.1.2 ⟨ha, hn⟩
    subst h0
    intro r hr
    refine acc_of_fin hw r (hw.rules r hr).1 fun m s r' hb hm hr' => ?_
    exact acc_rule hw (inlRules_fin hw hi r hr m s hb hm).1 r' hr'
  have each : ∀ rs, (∀ r ∈ rs, r ∈ I.W.rules) → ∃ f0, ∀ F f, f0 ≤ f → ∃ e, total (emptyOp I.W F f) rs = some e := by
    intro rs
    induction rs with
    | nil => exact fun _ => ⟨0, fun F f _ => ⟨0, rfl⟩⟩
    | cons r rs ih =>
      intro hr
      obtain ⟨-, i, s, hi⟩ := hw.rules r (hr r (by simp))
      obtain ⟨g1, k1⟩ := emptyOp_ends hw (acc r (hr r (by simp))) ⟨_, hi⟩
      obtain ⟨g2, k2⟩ := ih fun r h => hr r (by simp [h])
      refine ⟨g1 + g2, fun F f hf => ?_⟩
      obtain ⟨a, ha⟩ := k1 F f (by omega)
      obtain ⟨b, hb⟩ := k2 F f (by omega)
      exact ⟨a + b, by rw [total, ha, hb]; rfl⟩
  obtain ⟨f2, h2⟩ := each I.W.rules fun _ h => h
  refine ⟨f1 + f2 + enough I.W + I.W.heap.length * I.W.heap.length + 2 + I.W.parsed, fun fuel hf ignore => ?_⟩
  obtain ⟨cut, e1, hi⟩ := h1 fuel (by omega)
  have hcut : cut = [] := by
    have := C42_refused_iff_cyclic hw hi
    exact this.2.2 (this.2.1.2 ⟨ha, hn⟩)
  subst hcut
  obtain ⟨e2, he2⟩ := h2 [] fuel (by omega)
  obtain ⟨F, hF⟩ := C38_first hw ht (f := fuel) (k := fuel) (by omega) (by omega)
  obtain ⟨S, hS⟩ := C38_follow (F := F) hw he (f := fuel) (k := fuel) (by omega) (by omega)
  obtain ⟨c1, hc1⟩ : ∃ c1, (if ignore then some 0 else total (fun r => (firstFollow I.W F S fuel r).map List.length) I.W.rules) = some c1 := by
    cases ignore with
    | true => exact ⟨0, rfl⟩
    | false =>
      refine total_of fun r hr => ?_
      obtain ⟨cs, h⟩ := C40_ends_partial (F := F) (S := S) hw hb hr (f := fuel) (by omega)
      exact ⟨_, by rw [h]; rfl⟩
  obtain ⟨c2, hc2⟩ : ∃ c2, (if ignore then some 0 else total (fun r => (firstFirst I.W F fuel r).map List.length) I.W.rules) = some c2 := by
    cases ignore with
    | true => exact ⟨0, rfl⟩
    | false =>
      refine total_of fun r hr => ?_
      obtain ⟨cs, h⟩ := firstFirst_total (F := F) hw hr (f := fuel) (by omega)
      exact ⟨_, by rw [h]; rfl⟩
  obtain ⟨e3, he3⟩ := total_of (g := fun r => some (emptyFirst I.W F r)) (rs := I.W.rules) fun r _ => ⟨_, rfl⟩
  obtain ⟨e4, he4⟩ := h2 F fuel (by omega)
  obtain ⟨e5, he5⟩ := total_of (g := undefinedSymbols I.W I.D fuel) (rs := I.W.rules) fun r hr => by
    obtain ⟨e, h, -⟩ := C41_symbols_partial (D := I.D) hw hr (f := fuel) (by omega)
    exact ⟨e, h⟩
  obtain ⟨e6, he6⟩ := total_of (g := undefinedTokens I.W I.eofs fuel) (rs := I.W.rules) fun r hr => by
    obtain ⟨e, h, -⟩ := C41_tokens_partial (E := I.eofs) hw hr (f := fuel) (by omega)
    exact ⟨e, h⟩
  refine ⟨{ errors := e1 + e2 + e3 + e4 + e5 + e6, firstFirst := c2, firstFollow := c1 }, ?_⟩
  unfold checkRules
  rw [hi]
  simp only [withCut_nil]
  rw [he2, Option.bind_some, hF, Option.bind_some, hS, Option.bind_some, hc1, Option.bind_some, hc2, Option.bind_some, he3, Option.bind_some, he4, Option.bind_some,
    he5, Option.bind_some, he6, Option.map_some]

/-! ### Examples -/

/-- `A B* -> x;  C @x -> s`. -/
def fine : Input where
  W := rewrite { heap := [.zero, .term, .term, .term, .term, .sym, .sym, .star 2, .cons 1 7, .evolve 8 5, .inlined (some 5), .cons 3 10, .evolve 11 6], parsed := 0, rules := [9, 12], zero := 0, terminals := [1, 2, 3], start := [6], bnf := fun _ => none } [7]
  D := {}
  eof := 4
  eofs := []
  hasLexer := false
  states := []
  tokenStream := []

theorem fine_wf : Wf fine.W := wf_of_wfB (by decide +kernel)

theorem fine_counts (ignore : Bool) : checkRules fine 100 ignore = some {} := by cases ignore <;> decide +kernel

theorem fine_lead : LeadOk fine.W ∧ OpsOk fine.W :=
  of_leadB (nb := fun n => n = 0 ∨ n = 7 ∨ 14 ≤ n) (S := starts fine.W (fun n => n = 0 ∨ n = 7 ∨ 14 ≤ n) 8) fine_wf (by decide +kernel)

example : Accepted fine := (C41_errors_partial (c := {}) fine_wf (of_noBare (by decide +kernel)) (fun n o h => by
  exfalso
  have := List.all_eq_true.1 (show (List.range fine.W.heap.length).all (fun n => match fine.W.node n with | some (.op _) => false | _ => true) = true by decide +kernel) n
    (List.mem_range.2 (lt_of_node h))
  rw [h] at this
  cases this) fine_lead.1 (fine_counts false)).1 rfl

example : ∃ f0, ∀ fuel, f0 ≤ fuel → ∀ ignore, ∃ c, checkRules fine fuel ignore = some c := by
  obtain ⟨ha, hn⟩ := (checkRules_ok fine_wf (fine_counts false)).1 rfl
  exact C41_checks_end fine_wf (by decide +kernel) (by decide +kernel) (of_noBare (by decide +kernel)) ha hn

/-- Operators: `A` before and `B` after; `B` is not declared, and the symbol `x` of the operands has no rule. -/
def wrongOp : Input where
  W := rewrite { heap := [.zero, .term, .term, .term, .sym, .nonterm 4, .op { base := 5, pre := [1], post := [2] }, .sym, .evolve 6 7], parsed := 0, rules := [8], zero := 0, terminals := [1], start := [7], bnf := fun _ => none } [6]
  D := {}
  eof := 3
  eofs := []
  hasLexer := false
  states := []
  tokenStream := []

/-- C41 fails for operator expressions: their tokens and the symbol of their operands are not checked. -/
theorem C41_fails_operator : Wf wrongOp.W ∧ Occurs wrongOp.W 5 ∧ Mentions wrongOp.W 5 4 ∧ ¬ Defined wrongOp.W 4 ∧
    (∃ o, Occurs wrongOp.W 6 ∧ wrongOp.W.node 6 = some (.op o) ∧ 2 ∈ o.post ∧ 2 ∉ wrongOp.W.terminals) ∧ checkRules wrongOp 200 false = some {} := by
  have h6 : Occurs wrongOp.W 6 := .part (.rule (r := 8) (by decide +kernel)) (.evolve (i := 6) (s := 7) (by decide +kernel))
  have n6 : wrongOp.W.node 6 = some (.op { base := 5, pre := [1], post := [2] }) := by decide +kernel
  refine ⟨wf_of_wfB (by decide +kernel), .part h6 (.opBase n6), .inl (by decide +kernel), ?_, ⟨_, h6, n6, by decide, by decide +kernel⟩, by decide +kernel⟩
  rintro ⟨r, i, hr, hi⟩
  have hr : r = 8 := by
    have : wrongOp.W.rules = [8] := by decide +kernel
    simpa [this] using hr
  subst hr
  have : wrongOp.W.node 8 = some (.evolve 6 7) := by decide +kernel
  rw [this] at hi
  cases hi

/-- `(A | EOF B) -> s` without a declaration of `EOF`. -/
def wrongEof : Input where
  W := { heap := [.zero, .term, .term, .term, .term, .cons 2 3, .alt 1 5, .sym, .evolve 6 7], parsed := 9, rules := [8], zero := 0, terminals := [1, 3], start := [7], bnf := fun _ => none }
  D := {}
  eof := 4
  eofs := [2, 4]
  hasLexer := false
  states := []
  tokenStream := []

/-- C41 fails for a token named `EOF`: it is accepted without declaration, though the FIRST sets computed before do not have it. -/
theorem C41_fails_eof : Wf wrongEof.W ∧ Occurs wrongEof.W 2 ∧ wrongEof.W.node 2 = some .term ∧ 2 ∉ wrongEof.W.terminals ∧ checkRules wrongEof 100 false = some {} ∧
    Der wrongEof.W 6 [2, 3] ∧ ∃ F, computeFirst wrongEof.W 100 100 = some F ∧ (6, 2) ∉ F :=
  ⟨wf_of_wfB (by decide +kernel), .part (.part (.part (.rule (r := 8) (by decide)) (.evolve (i := 6) (s := 7) (by decide +kernel))) (.altR (l := 1) (r := 5) (by decide +kernel)))
    (.consL (l := 2) (r := 3) (by decide +kernel)), by decide +kernel, by decide, by decide +kernel,
    .altR (l := 1) (r := 5) (by decide +kernel) (.cons (l := 2) (r := 3) (α := [2]) (β := [3]) (by decide +kernel) (.term (by decide +kernel)) (.term (by decide +kernel))),
    (computeFirst wrongEof.W 100 100).getD [], by decide +kernel, by decide +kernel⟩

/-- `A -> s [ x: ..; y: .. ]`: the second declaration is of an AST node of a symbol that does not exist. -/
def wrongDecl : Input where
  W := { heap := [.zero, .term, .term, .sym, .evolve 1 3], parsed := 5, rules := [4], zero := 0, terminals := [1], start := [3], bnf := fun _ => none }
  D := { decls := fun n => if n = 4 then [⟨false, 0⟩, ⟨true, 1⟩] else [] }
  eof := 2
  eofs := []
  hasLexer := false
  states := []
  tokenStream := []

/-- C41 fails for declarations: only the first of a list is checked. -/
theorem C41_fails_declaration : Wf wrongDecl.W ∧ (∃ d ∈ wrongDecl.D.decls 4, ¬ DeclOk wrongDecl.W wrongDecl.D d) ∧ checkRules wrongDecl 100 false = some {} :=
  ⟨wf_of_wfB (by decide +kernel), ⟨⟨true, 1⟩, by simp [wrongDecl], fun h => by obtain ⟨s, h, -⟩ := h rfl; cases h⟩, by decide +kernel⟩

/-- An undefined symbol is noticed: `A x -> s`. -/
def undefined : Input where
  W := { heap := [.zero, .term, .term, .sym, .nonterm 3, .cons 1 4, .sym, .evolve 5 6], parsed := 8, rules := [7], zero := 0, terminals := [1], start := [6], bnf := fun _ => none }
  D := {}
  eof := 2
  eofs := []
  hasLexer := false
  states := []
  tokenStream := []

example : checkRules undefined 100 false = some { errors := 1 } := by decide +kernel

end Verif.Main
