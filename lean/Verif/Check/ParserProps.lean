import Verif.Check.ConflictProps
import Verif.Gen.CompleteProps

/-!
# What the reports of the conflict checkers mean for the generated parser

`NoReport`: the two checkers report nothing for any rule.  `Unchecked`: what they do not look at.  Together they give the conditions under
which the parser accepts the sentences of the grammar.
-/

namespace Verif.Check

open Verif.Grammar Verif.Gen

/-- Neither conflict checker reports anything. -/
def NoReport (K : Ctx) (f : Nat) : Prop := ∀ r ∈ K.W.rules, firstFirst K.W K.F f r = some [] ∧ firstFollow K.W K.F K.S f r = some []

/-- The conditions on the grammar that no conflict checker examines. -/
structure Unchecked (K : Ctx) : Prop where
  /-- no rule is listed twice, the tokens are declared (`UndefinedTokenChecker` reports those that are not) -/
  distinct : K.W.rules.Nodup
  declared : ∀ n, Occurs K.W n → K.W.node n = some .term → n ∈ K.W.terminals
  /-- only the last alternative can be without a token in FIRST, and an alternative that can be empty has none -/
  altToken : ∀ n l r ms, Occurs K.W n → n < K.W.parsed → K.W.node n = some (.alt l r) → Choice K.W n ms → ms.Pairwise fun m _ => ∃ t, First K m t
  altNull : ∀ n l r ms m, Occurs K.W n → n < K.W.parsed → K.W.node n = some (.alt l r) → Choice K.W n ms → m ∈ ms → Nullable K.W m → Silent K m
  /-- no token of FIRST in FOLLOW, for choices that end with `0` and for repetitions `+` -/
  optional : ∀ n l r, Occurs K.W n → n < K.W.parsed → K.W.node n = some (.alt l r) → (∃ k, isZero K.W k r = some true) → ∀ t, First K n t → (n, t) ∉ K.S
  starToken : ∀ n i, Occurs K.W n → K.W.node n = some (.star i) → ∃ t, First K n t
  plus : ∀ n i, Occurs K.W n → K.W.node n = some (.plus i) → (∃ t, First K n t) ∧ ∀ t, First K n t → (n, t) ∉ K.S
  /-- several rules for a symbol: only the first rule in the grammar can be empty, then no token of the others may follow the symbol -/
  rules : K.W.rules.reverse.Pairwise fun r r' => ∀ i i' s, K.W.node r = some (.evolve i s) → K.W.node r' = some (.evolve i' s) →
    (∃ t, First K r t) ∧ (Nullable K.W i' → ∀ t, First K r t → (s, t) ∉ K.S) ∧
    (reduces K.W K.F i = some true → ¬ Nullable K.W i' ∧ ∀ t, First K r' t → (s, t) ∉ K.S)
  /-- operator expressions and start symbols, as in `LL1` -/
  opAfter : ∀ n o, K.W.node n = some (.op o) → (o.post ++ o.bin).Nodup ∧ ∀ t ∈ o.post ++ o.bin, (n, t) ∉ K.S ∧ t ∉ o.paren.map (·.2)
  opBefore : ∀ n o s, K.W.node n = some (.op o) → K.W.node o.base = some (.nonterm s) →
    (o.pre ++ o.paren.map (·.1)).Nodup ∧ ∀ t ∈ o.pre ++ o.paren.map (·.1), ¬ First K s t
  opStart : ∀ n o r s, K.W.node n = some (.op o) → o.paren ≠ [] → r ∈ K.W.rules → K.W.node r = some (.evolve n s) → s ∉ K.W.start
  start : ∀ s t, s ∈ K.W.start → K.W.node s = some .sym → (s, t) ∈ K.S → K.W.node t = some .term → t = K.eofTok

section
variable {K : Ctx}

theorem clash_nil {n t : Nat} {a b : List Nat} (h : clash n a b = []) (ha : t ∈ a) (hb : t ∈ b) : False := by
  obtain ⟨xs, h1, -⟩ := clash_of (n := n) ha hb
  rw [h] at h1
  cases h1

theorem first_in (U : Unchecked K) {f1 k1 : Nat} (hF : computeFirst K.W f1 k1 = some K.F) {n t : Nat} (hn : Occurs K.W n) (h : First K n t) : (n, t) ∈ K.F := by
  unfold First at h
  split at h
  · next e =>
    subst h
    exact (computeFirst_quiet hF).2 _ (by simp [initFirst]; exact .inr (U.declared _ hn e))
  · exact h.2

theorem first_term {n t : Nat} (h : First K n t) : K.W.node t = some .term := by
  unfold First at h
  split at h
  · next e => subst h; exact e
  · exact h.1

theorem first_up (hw : Wf K.W) {f1 k1 : Nat} (hF : computeFirst K.W f1 k1 = some K.F) {n l r m t : Nat} (hn : Occurs K.W n) (ha : K.W.node n = some (.alt l r))
    (hm : m = l ∨ m = r) (ht : K.W.node t = some .term) (h : (m, t) ∈ K.F) : (n, t) ∈ K.F := by
  obtain ⟨b, V, hv, -⟩ := occurs_seen hw (computeFirst_quiet hF).1 hn
  have ev := hv.ev (computeFirst_quiet hF).1
  obtain ⟨-, -, h1, h2⟩ := ev_two ev (.inl ha)
  rcases hm with rfl | rfl
  · exact h1 t h (by simp [passes, ht])
  · exact h2 t h (by simp [passes, ht])

theorem choice_first (hw : Wf K.W) {f1 k1 : Nat} (hF : computeFirst K.W f1 k1 = some K.F) {n : Nat} {ms : List Nat} (hc : Choice K.W n ms) (hn : Occurs K.W n) :
    ∀ m ∈ ms, Occurs K.W m ∧ ∀ t, K.W.node t = some .term → (m, t) ∈ K.F → (n, t) ∈ K.F := by
  induction hc with
  | leaf => intro m hm; rw [List.mem_singleton] at hm; subst hm; exact ⟨hn, fun _ _ h => h⟩
  | alt ha _ _ ih1 ih2 =>
    intro m hm
    rcases List.mem_append.1 hm with hm | hm
    · obtain ⟨h1, h2⟩ := ih1 (.part hn (.altL ha)) m hm
      exact ⟨h1, fun t ht h => first_up hw hF hn ha (.inl rfl) ht (h2 t ht h)⟩
    · obtain ⟨h1, h2⟩ := ih2 (.part hn (.altR ha)) m hm
      exact ⟨h1, fun t ht h => first_up hw hF hn ha (.inr rfl) ht (h2 t ht h)⟩

theorem choice_apart (hw : Wf K.W) (U : Unchecked K) {f f1 k1 : Nat} (hF : computeFirst K.W f1 k1 = some K.F) {r n : Nat} {ms : List Nat} (hr : r ∈ K.W.rules)
    (hq : firstFirst K.W K.F f r = some []) (hc : Choice K.W n ms) (hn : Below K.W r n) :
    ms.Pairwise fun m m' => ∀ t, First K m t → ¬ First K m' t := by
  induction hc with
  | leaf => simp
  | @alt n a b l1 l2 ha ca cb ih1 ih2 =>
    have ha' : Below K.W r a := .part hn (.altL ha)
    have hb' : Below K.W r b := .part hn (.altR ha)
    refine List.pairwise_append.2 ⟨ih1 ha', ih2 hb', fun m hm m' hm' t h1 h2 => ?_⟩
    obtain ⟨o1, u1⟩ := choice_first hw hF ca (below_occ hr ha') m hm
    obtain ⟨o2, u2⟩ := choice_first hw hF cb (below_occ hr hb') m' hm'
    have g1 := u1 t (first_term h1) (first_in U hF o1 h1)
    have g2 := u2 t (first_term h1) (first_in U hF o2 h2)
    obtain ⟨xs, h3, -⟩ := clash_of (n := n) (mem_of.2 g1) (mem_of.2 g2)
    have := mem_firstFirst hq (below_inside hw hn (by rw [ha]; simp)) (c := (n, xs)) (by rw [firstFirstAt, ha]; exact h3)
    cases this

/-- An item that occurs belongs to a rule. -/
theorem occ_below {W : World} {n : Nat} (h : Occurs W n) : ∃ r ∈ W.rules, Below W r n := by
  induction h with
  | rule hr => exact ⟨_, hr, .refl⟩
  | part _ hp ih => obtain ⟨r, h1, h2⟩ := ih; exact ⟨r, h1, .part h2 hp⟩

/-- A grammar for which no conflict is reported, and which meets the conditions that are not examined, is decided by one token of lookahead. -/
theorem ll1_of_noReport (hw : Wf K.W) (ho : OpsOk K.W) (hb : BareOk K.W) (U : Unchecked K) {f f1 k1 : Nat} (hq : NoReport K f)
    (hF : computeFirst K.W f1 k1 = some K.F) : LL1 K where
  alt n l r ms hoc hp hn hc := by
    obtain ⟨q, hq', hbl⟩ := occ_below hoc
    have h1 := U.altToken n l r ms hoc hp hn hc
    have h2 := choice_apart hw U hF hq' (hq q hq').1 hc hbl
    have occ := choice_first hw hF hc (below_occ hq' hbl)
    have h3 : ms.Pairwise fun m m' => Nullable K.W m' → ∀ t, First K m t → (n, t) ∉ K.S := by
      refine List.Pairwise.imp_of_mem (R := fun _ _ => True) (fun {m m'} hm hm' _ hnull t ht hs => ?_) (List.pairwise_of_forall fun _ _ => trivial)
      have nn : Nullable K.W n := choice_der hc m' hm' _ hnull
      have hF' : (n, t) ∈ K.F := (occ m hm).2 t (first_term ht) (first_in U hF (occ m hm).1 ht)
      have hft : First K n t := by unfold First; rw [if_neg (by rw [hn]; simp)]; exact ⟨first_term ht, hF'⟩
      obtain ⟨ys, g1, g2⟩ := mem_firstFollow (hq q hq').2 (below_inside hw hbl (by rw [hn]; simp))
      simp only [firstFollowAt, hn] at g1
      obtain ⟨z, hz1, hz2⟩ := Option.bind_eq_some_iff.1 g1
      cases z with
      | true => exact U.optional n l r hoc hp hn ⟨_, hz1⟩ t hft hs
      | false =>
        have red : reduces K.W K.F n = some true := C34_nullable_partial hw ho hb hF hn (by simp) nn
        simp only [Bool.false_eq_true, if_false, red, Option.map_some, if_true, Option.some.injEq] at hz2
        obtain ⟨xs, h3, -⟩ := clash_of (n := n) (mem_of.2 hF') (mem_of.2 hs)
        have := g2 _ (hz2 ▸ h3)
        cases this
    exact ((h1.and h2).and h3).imp fun {m m'} h => ⟨h.1.1, h.1.2, h.2⟩
  altNull := U.altNull
  star n i hoc hn := by
    refine ⟨U.starToken n i hoc hn, fun t ht hs => ?_⟩
    obtain ⟨q, hq', hbl⟩ := occ_below hoc
    obtain ⟨ys, g1, g2⟩ := mem_firstFollow (hq q hq').2 (below_inside hw hbl (by rw [hn]; simp))
    simp only [firstFollowAt, hn, Option.some.injEq] at g1
    obtain ⟨xs, h3, -⟩ := clash_of (n := n) (mem_of.2 (first_in U hF (below_occ hq' hbl) ht)) (mem_of.2 hs)
    have := g2 _ (g1 ▸ h3)
    cases this
  plus := U.plus
  rules := by
    have hd : K.W.rules.reverse.Pairwise fun r r' => r ≠ r' := by
      rw [List.pairwise_reverse]
      exact List.Pairwise.imp (fun h => h.symm) U.distinct
    refine List.Pairwise.imp_of_mem (fun {r r'} hr hr' h i i' s h1 h2 => ?_) (U.rules.and hd)
    obtain ⟨g1, g2, g3⟩ := h.1 i i' s h1 h2
    refine ⟨g1, fun t ht ht' => ?_, g2, g3⟩
    have hr := List.mem_reverse.1 hr
    have hr' := List.mem_reverse.1 hr'
    obtain ⟨xs, h3, -⟩ := clash_of (n := r) (mem_of.2 (first_in U hF (.rule hr') ht')) (mem_of.2 (first_in U hF (.rule hr) ht))
    have := mem_firstFirst (hq r hr).1 .refl (c := (r, xs)) (by
      rw [firstFirstAt, h1]
      exact List.mem_flatMap.2 ⟨r', mem_env.2 ⟨hr', i', h2⟩, by rw [if_neg h.2.symm]; exact h3⟩)
    cases this
  opAfter := U.opAfter
  opBefore := U.opBefore
  opStart := U.opStart
  start := U.start

/-- C48: if no conflict is reported, the parse function of a symbol accepts and consumes each sentence of the symbol that is followed by
a token of the FOLLOW set, provided that the grammar meets the conditions that no checker examines (`Unchecked`).  Missing: these
conditions (without them the claim is false, below), and what is missing in `C48_accepts_partial`. -/
theorem C48_no_report_partial {E : Env} (hw : Wf K.W) (hp : Plain K.W) (ho : OpsOk K.W) (hb : BareOk K.W) (hl : OpsLoop K.W)
    (hc : ∀ n l r, K.W.node n ≠ some (.tryc l (some r))) (U : Unchecked K) {f f1 k1 f2 k2 : Nat} (hq : NoReport K f) (hF : computeFirst K.W f1 k1 = some K.F)
    (hS : computeFollow K.W K.F K.eofTok f2 k2 = some K.S) (hor : ∀ k, E.oracle k = true) :
    ∃ fuel0, ∀ fuel, fuel0 ≤ fuel → ∀ s ω st, K.W.node s = some .sym → Der K.W s ω → (∀ t ∈ ω, t ∈ K.W.terminals) → Reads E.inp st.pos ω →
      K.W.node (E.inp (st.pos + ω.length)) = some .term → (s, E.inp (st.pos + ω.length)) ∈ K.S →
      ∃ f st', parse K fuel E f s st = some (.ok, st') ∧ st'.pos = st.pos + ω.length :=
  C48_accepts_partial hw hp ho hb hl hc (ll1_of_noReport hw ho hb U hq hF) hF hS hor

/-! ### Deciding the conditions for a concrete grammar -/

def uncheckedB (K : Ctx) : Bool := decide K.W.rules.Nodup &&
  (List.range K.W.heap.length).all fun n => (match K.W.node n with
    | some (.alt _ r) => K.W.parsed ≤ n || isZero K.W (K.W.heap.length + 1) r == some false || (firsts K n).all fun t => !(K.S.of n).contains t
    | _ => true) && (match K.W.node n with
    | some it => it.parts.all fun m => !isTerm K.W m || K.W.terminals.contains m
    | none => true)

theorem isZero_agree {W : World} : ∀ {f g n : Nat} {a b : Bool}, isZero W f n = some a → isZero W g n = some b → a = b
  | 0, _, _, _, _, h, _ => by cases h
  | _ + 1, 0, _, _, _, _, h => by cases h
  | f + 1, g + 1, n, a, b, h, h' => by
    unfold isZero at h h'
    split at h <;> rename_i e <;> simp only [e] at h'
    all_goals first
      | exact isZero_agree h h'
      | (rw [h] at h'; exact Option.some.inj h')

theorem unchecked_of (hw : Wf K.W) (hl : LL1 K) (h : uncheckedB K = true) : Unchecked K := by
  simp only [uncheckedB, Bool.and_eq_true, decide_eq_true_eq] at h
  obtain ⟨h0, h1⟩ := h
  have at' : ∀ {n it}, K.W.node n = some it → _ := fun {n it} (hn : K.W.node n = some it) => List.all_eq_true.1 h1 n (List.mem_range.2 (lt_of_node hn))
  have alt : ∀ {n l r}, n < K.W.parsed → K.W.node n = some (.alt l r) → isZero K.W (K.W.heap.length + 1) r = some false ∨ ∀ t ∈ firsts K n, t ∉ K.S.of n := by
    intro n l r hp hn
    have := at' hn
    simp only [hn, Bool.and_eq_true, Bool.or_eq_true, decide_eq_true_eq, beq_iff_eq, List.all_eq_true, Bool.not_eq_true'] at this
    rcases this.1 with (h | h) | h
    · omega
    · exact .inl h
    · refine .inr fun t ht hs => ?_
      have := h t ht
      rw [List.contains_iff_mem.2 hs] at this
      cases this
  refine ⟨h0, ?_, ?_, hl.altNull, ?_, fun n i ho hn => (hl.star n i ho hn).1, hl.plus, ?_, hl.opAfter, hl.opBefore, hl.opStart, hl.start⟩
  · intro n ho hn
    cases ho with
    | rule hr =>
      obtain ⟨-, i, s, hi⟩ := hw.rules n hr
      rw [hi] at hn; cases hn
    | @part m _ _ hp =>
      obtain ⟨it, hit, hm⟩ := part_iff.1 hp
      have := at' hit
      simp only [hit, Bool.and_eq_true, List.all_eq_true] at this
      simpa [isTerm, hn] using this.2 n hm
  · intro n l r ms ho hp hn hc
    exact (hl.alt n l r ms ho hp hn hc).imp fun h => h.1
  · rintro n l r _ hp hn ⟨k, hk⟩ t ht hs
    rcases alt hp hn with h | h
    · exact absurd (isZero_agree hk h) (by simp)
    · exact h t (first_iff.1 ht) (mem_of.2 hs)
  · exact hl.rules.imp fun {r r'} h i i' s h1 h2 => ⟨(h i i' s h1 h2).1, (h i i' s h1 h2).2.2.1, (h i i' s h1 h2).2.2.2⟩

end

def noReportB (K : Ctx) (f : Nat) : Bool := K.W.rules.all fun r => firstFirst K.W K.F f r == some [] && firstFollow K.W K.F K.S f r == some []

theorem noReport_of {K : Ctx} {f : Nat} (h : noReportB K f = true) : NoReport K f := fun r hr => by
  have := List.all_eq_true.1 h r hr
  simpa using this

/-- The sample grammar meets the conditions and has no reports. -/
theorem sample_unchecked : Unchecked sampleCtx ∧ NoReport sampleCtx 60 :=
  ⟨unchecked_of (K := sampleCtx) sample_wf sample_ll1.1 (by decide +kernel), noReport_of (by decide +kernel)⟩

example {E : Env} (hor : ∀ k, E.oracle k = true) : ∃ fuel0, ∀ fuel, fuel0 ≤ fuel → ∀ s ω st, sampleCtx.W.node s = some .sym → Der sampleCtx.W s ω →
    (∀ t ∈ ω, t ∈ sampleCtx.W.terminals) → Reads E.inp st.pos ω → sampleCtx.W.node (E.inp (st.pos + ω.length)) = some .term →
    (s, E.inp (st.pos + ω.length)) ∈ sampleCtx.S → ∃ f st', parse sampleCtx fuel E f s st = some (.ok, st') ∧ st'.pos = st.pos + ω.length := by
  have h1 : computeFirst sampleCtx.W 200 20 = some sampleCtx.F := by simp only [sampleCtx]; exact sample_first
  have h2 : computeFollow sampleCtx.W sampleCtx.F sampleCtx.eofTok 200 20 = some sampleCtx.S := by simp only [sampleCtx]; exact sample_follow
  have h3 : ∀ n l r, sampleCtx.W.node n ≠ some (.tryc l (some r)) := noCatch_of (W := sampleCtx.W) (by decide +kernel)
  exact C48_no_report_partial (K := sampleCtx) sample_wf sample_plain sample_lead.2 sample_bare sample_ll1.2 h3 sample_unchecked.1 sample_unchecked.2 h1 h2 hor

/-! ### Sentences that are refused though nothing is reported -/

/-- A sentence of a start symbol is refused, and no conflict is reported for the grammar. -/
def RefusedQuietly (W : World) (eof s : Nat) (ω : List Nat) : Prop := Refused W eof s ω ∧ NoReport (ctxOf W eof) 20

/-- `A+ A -> s`: all sentences are refused. -/
theorem C48_fails_plus : RefusedQuietly plusA 6 4 [1, 1] := by
  refine ⟨⟨wf_of_wfB (by decide +kernel), plain_of_plainB (by decide +kernel), by decide +kernel, by decide +kernel, by decide +kernel,
    .expand (r := 5) (i := 3) (by decide +kernel) (by decide +kernel) (by decide +kernel)
      (.cons (l := 2) (r := 1) (α := [1]) (β := [1]) (by decide +kernel) (.plus1 (i := 1) (by decide +kernel) (.term (by decide +kernel))) (.term (by decide +kernel))),
    ((parse (ctxOf plusA 6) 20 (onInput 6 [1, 1]) 60 4 {}).getD (.ok, {})).2, by decide +kernel⟩, noReport_of (by decide +kernel)⟩

/-- `(A | 0) A -> s`: the sentence `A` is refused. -/
theorem C48_fails_optional : RefusedQuietly optional 6 4 [1] := by
  refine ⟨⟨wf_of_wfB (by decide +kernel), plain_of_plainB (by decide +kernel), by decide +kernel, by decide +kernel, by decide +kernel,
    .expand (r := 5) (i := 3) (by decide +kernel) (by decide +kernel) (by decide +kernel)
      (.cons (l := 2) (r := 1) (α := []) (β := [1]) (by decide +kernel) (.altR (l := 1) (r := 0) (by decide +kernel) (.zero (by decide +kernel))) (.term (by decide +kernel))),
    ((parse (ctxOf optional 6) 20 (onInput 6 [1]) 60 4 {}).getD (.ok, {})).2, by decide +kernel⟩, noReport_of (by decide +kernel)⟩

/-- `A -> x;  0 -> x;  x A -> s`: the rule `0` comes first, so that `A A` is refused. -/
theorem C48_fails_symbol : RefusedQuietly nullSym 9 7 [1, 1] := by
  refine ⟨⟨wf_of_wfB (by decide +kernel), plain_of_plainB (by decide +kernel), by decide +kernel, by decide +kernel, by decide +kernel,
    .expand (r := 8) (i := 6) (by decide +kernel) (by decide +kernel) (by decide +kernel)
      (.cons (l := 5) (r := 1) (α := [1]) (β := [1]) (by decide +kernel) (.nonterm (s := 2) (by decide +kernel)
        (.expand (r := 3) (i := 1) (by decide +kernel) (by decide +kernel) (by decide +kernel) (.term (by decide +kernel)))) (.term (by decide +kernel))),
    ((parse (ctxOf nullSym 9) 20 (onInput 9 [1, 1]) 60 7 {}).getD (.ok, {})).2, by decide +kernel⟩, noReport_of (by decide +kernel)⟩

/-- Nothing is reported either for the grammars of `C48_fails_nullable`, `C48_fails_empty_first`, `C48_fails_empty_rule` and `C48_fails_paren`. -/
theorem C48_fails_no_report : RefusedQuietly nullAltWorld 12 5 [3] ∧ RefusedQuietly emptyFirstWorld 5 2 [1] ∧ RefusedQuietly emptyRuleWorld 5 2 [1] ∧
    RefusedQuietly parenWorld 11 7 [3, 1, 4] :=
  ⟨⟨C48_fails_nullable, noReport_of (by decide +kernel)⟩, ⟨C48_fails_empty_first, noReport_of (by decide +kernel)⟩,
    ⟨C48_fails_empty_rule, noReport_of (by decide +kernel)⟩, ⟨C48_fails_paren, noReport_of (by decide +kernel)⟩⟩

end Verif.Check
