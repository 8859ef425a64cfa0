import Verif.Gen.Complete
import Verif.Gen.Total
import Verif.Gen.Props

/-!
# Generated parsers accept the sentences of their grammar

The conditions are those of the FIRST and FOLLOW properties and those of Spec.lean (`Plain`, `LL1`); all user conditions are
assumed to hold.
-/

namespace Verif.Gen

open Verif.Grammar

section
variable {K : Ctx} {E : Env}

theorem parse_of_call {fuel s : Nat} {st st' : State} (h : Goes K E fuel (.call s 0) st st') :
    ∃ f st1, parse K fuel E f s st = some (.ok, st1) ∧ st1.pos = st'.pos := by
  obtain ⟨f, h⟩ := h
  cases f with
  | zero => cases h
  | succ f =>
    simp only [exec, step, Option.bind_eq_some_iff, Option.map_eq_some_iff] at h
    obtain ⟨b, hb, ⟨o, st1⟩, h3, h4⟩ := h
    cases o with
    | ok =>
      simp only [returned, Prod.mk.injEq, true_and] at h4
      exact ⟨f, st1, by simp only [parse, hb, h3], by rw [← h4]; rfl⟩
    | failed => simp [returned, complain, leave] at h4
    | goto j => simp [returned, complain, leave] at h4

/-- C48: in a grammar that one token of lookahead decides, the parse function of a symbol accepts and consumes each sentence of
the symbol that is followed by a token of the FOLLOW set.  Missing: inlined non-terminals, ternary operators, try/rollback with catch,
user conditions that do not hold, grammars where a choice depends on what follows an alternative that can be empty; for the
last the claim is false (below). -/
theorem C48_accepts_partial (hw : Wf K.W) (hp : Plain K.W) (ho : OpsOk K.W) (hb : BareOk K.W) (hl : OpsLoop K.W)
    (hc : ∀ n l r, K.W.node n ≠ some (.tryc l (some r))) (hll : LL1 K) {f1 k1 f2 k2 : Nat} (hF : computeFirst K.W f1 k1 = some K.F)
    (hS : computeFollow K.W K.F K.eofTok f2 k2 = some K.S) (hor : ∀ k, E.oracle k = true) :
    ∃ fuel0, ∀ fuel, fuel0 ≤ fuel → ∀ s ω st, K.W.node s = some .sym → Der K.W s ω → (∀ t ∈ ω, t ∈ K.W.terminals) → Reads E.inp st.pos ω →
      K.W.node (E.inp (st.pos + ω.length)) = some .term → (s, E.inp (st.pos + ω.length)) ∈ K.S →
      ∃ f st', parse K fuel E f s st = some (.ok, st') ∧ st'.pos = st.pos + ω.length := by
  obtain ⟨f0, hf0⟩ := parseFun_total (K := K) hw hl (fun _ _ => searchRule_node hw) fun r hr => acc_plain hw hp.noInline r (hw.rules r hr).1
  refine ⟨f0, fun fuel hfuel s ω st hs hd hω hr ha hf => ?_⟩
  have R : Ready K E fuel := ⟨hw, hp, ho, hb, hc, hll, (computeFirst_quiet hF).1, (computeFirst_quiet hF).2, (followLoop_quiet _ _ _ hS).1,
    fun s _ => hf0 fuel hfuel s, hor⟩
  obtain ⟨st', h, h2⟩ := (complete R hd hω).call hs 0 st hr ha hf
  obtain ⟨f, st1, h3, h4⟩ := parse_of_call h
  exact ⟨f, st1, h3, h4.trans h2⟩

theorem reads_getD (eof : Nat) : ∀ (ω pre : List Nat), Reads (fun p => (pre ++ ω).getD p eof) pre.length ω
  | [], _ => trivial
  | t :: ω, pre => ⟨by simp, by
    have := reads_getD eof ω (pre ++ [t])
    simpa using this⟩

/-- C48: the function of a start symbol accepts each of its sentences. -/
theorem C48_start_partial (hw : Wf K.W) (hp : Plain K.W) (ho : OpsOk K.W) (hb : BareOk K.W) (hl : OpsLoop K.W)
    (hc : ∀ n l r, K.W.node n ≠ some (.tryc l (some r))) (hll : LL1 K) {f1 k1 f2 k2 : Nat} (hF : computeFirst K.W f1 k1 = some K.F)
    (hS : computeFollow K.W K.F K.eofTok f2 k2 = some K.S) (he : K.W.node K.eofTok = some .term) {s : Nat} (hs : K.W.node s = some .sym)
    (h0 : s ∈ K.W.start) :
    ∃ fuel0, ∀ fuel, fuel0 ≤ fuel → ∀ ω, Der K.W s ω → (∀ t ∈ ω, t ∈ K.W.terminals) →
      ∃ f st', parse K fuel (onInput K.eofTok ω) f s {} = some (.ok, st') ∧ st'.pos = ω.length := by
  have hex : ∃ fuel0, ∀ fuel, fuel0 ≤ fuel → ∀ s, ∃ b, parseFun K fuel s = some b :=
    parseFun_total (K := K) hw hl (fun _ _ => searchRule_node hw) fun r hr => acc_plain hw hp.noInline r (hw.rules r hr).1
  obtain ⟨f0, hf0⟩ := hex
  refine ⟨f0, fun fuel hfuel ω hd hω => ?_⟩
  have R : Ready K (onInput K.eofTok ω) fuel := ⟨hw, hp, ho, hb, hc, hll, (computeFirst_quiet hF).1, (computeFirst_quiet hF).2, (followLoop_quiet _ _ _ hS).1,
    fun s _ => hf0 fuel hfuel s, fun _ => rfl⟩
  have hend : (onInput K.eofTok ω).inp (({} : State).pos + ω.length) = K.eofTok := by simp [onInput]
  have hfol : (s, K.eofTok) ∈ K.S := by
    cases hd with
    | sym => exact absurd (hw.terminals s (hω s (by simp))) (by rw [hs]; simp)
    | expand _ hr hi _ => exact (followLoop_quiet _ _ _ hS).2 _ (mem_initFollow hr hi h0)
    | _ hn => rw [hs] at hn; cases hn
  obtain ⟨st', h, h2⟩ := (complete R hd hω).call hs 0 {} (reads_getD K.eofTok ω []) (by rw [hend]; exact he) (by rw [hend]; exact hfol)
  obtain ⟨f, st1, h3, h4⟩ := parse_of_call h
  exact ⟨f, st1, h3, by rw [h4, h2]; simp⟩

end

/-! ### Deciding the conditions for concrete grammars -/

def firsts (K : Ctx) (n : Nat) : List Nat := if K.W.node n = some .term then [n] else (K.F.of n).filter (isTerm K.W)

theorem first_iff {K : Ctx} {n t : Nat} : First K n t ↔ t ∈ firsts K n := by
  unfold First firsts
  split
  · simp
  · simp [List.mem_filter, mem_of, isTerm, and_comm]

def silentB (K : Ctx) (n : Nat) : Bool := !isTerm K.W n && (K.F.of n).all fun x => K.W.node x = some .zero

theorem silent_of {K : Ctx} {n : Nat} (h : silentB K n = true) : Silent K n := by
  simp only [silentB, Bool.and_eq_true, Bool.not_eq_true', isTerm, decide_eq_false_iff_not, List.all_eq_true, decide_eq_true_eq] at h
  exact ⟨h.1, fun x hx => h.2 x (mem_of.mpr hx)⟩

/-- Tokens `a` come before tokens `b`, and what follows is `fol`. -/
def apartB (K : Ctx) (nb : Bool) (fol a b : Nat) : Bool :=
  !(firsts K a).isEmpty && (firsts K a).all fun t => !(firsts K b).contains t && (!nb || !(K.S.of fol).contains t)

theorem apart_of {K : Ctx} {nb : Bool} {fol a b : Nat} (h : apartB K nb fol a b = true) :
    (∃ t, First K a t) ∧ (∀ t, First K a t → ¬ First K b t) ∧ (nb = true → ∀ t, First K a t → (fol, t) ∉ K.S) := by
  simp only [apartB, Bool.and_eq_true, Bool.not_eq_true', List.all_eq_true, Bool.or_eq_true] at h
  obtain ⟨h1, h2⟩ := h
  refine ⟨?_, fun t ht hb => ?_, fun hn t ht hs => ?_⟩
  · cases e : firsts K a with
    | nil => rw [e] at h1; simp at h1
    | cons t l => exact ⟨t, first_iff.mpr (by simp [e])⟩
  · have := (h2 t (first_iff.mp ht)).1
    rw [List.contains_iff_mem.mpr (first_iff.mp hb)] at this
    cases this
  · have := (h2 t (first_iff.mp ht)).2
    rw [hn, List.contains_iff_mem.mpr (mem_of.mpr hs)] at this
    simp at this

theorem choice_unique {W : World} : ∀ {f n : Nat} {l ms : List Nat}, flatten W f n = some l → Choice W n ms → ms = l
  | 0, _, _, _, h, _ => by simp [flatten] at h
  | f + 1, n, l, ms, h, hc => by
    cases hc with
    | leaf hn =>
      unfold flatten at h
      split at h
      · next l' r' e => exact absurd e (hn _ _)
      · simpa using h
    | alt hn h1 h2 =>
      simp only [flatten, hn, Option.bind_eq_some_iff, Option.map_eq_some_iff] at h
      obtain ⟨x, hx, y, hy, rfl⟩ := h
      rw [choice_unique hx h1, choice_unique hy h2]

def isCatchB (W : World) (n : Nat) : Bool := match W.node n with
  | some (.tryc _ (some _)) => true
  | _ => false

def loopB (K : Ctx) (n : Nat) : Bool := !(firsts K n).isEmpty && (firsts K n).all fun t => !(K.S.of n).contains t

theorem loop_of {K : Ctx} {n : Nat} (h : loopB K n = true) : (∃ t, First K n t) ∧ ∀ t, First K n t → (n, t) ∉ K.S := by
  simp only [loopB, Bool.and_eq_true, Bool.not_eq_true', List.all_eq_true] at h
  refine ⟨?_, fun t ht hs => ?_⟩
  · cases e : firsts K n with
    | nil => rw [e] at h; simp at h
    | cons t l => exact ⟨t, first_iff.mpr (by simp [e])⟩
  · have := h.2 t (first_iff.mp ht)
    rw [List.contains_iff_mem.mpr (mem_of.mpr hs)] at this
    cases this

def rulePairB (K : Ctx) (nb : Nat → Bool) (r r' : Nat) : Bool := match K.W.node r, K.W.node r' with
  | some (.evolve i s), some (.evolve i' s') => s != s' || (apartB K (nb i') s r r' &&
      (reduces K.W K.F i != some true || (!nb i' && (firsts K r').all fun t => !(K.S.of s).contains t)))
  | _, _ => true

def opLL (K : Ctx) (n : Nat) (o : OpItem) : Bool :=
  ¬ (o.post = [] ∧ o.bin = [] ∧ o.tern = []) &&
  decide (o.post ++ o.bin).Nodup && ((o.post ++ o.bin).all fun t => !(K.S.of n).contains t && !(o.paren.map (·.2)).contains t) &&
  (match K.W.node o.base with
    | some (.nonterm s) => decide (o.pre ++ o.paren.map (·.1)).Nodup && (o.pre ++ o.paren.map (·.1)).all fun t => !(firsts K s).contains t
    | _ => true) &&
  (o.paren = [] || K.W.rules.all fun r => match K.W.node r with
    | some (.evolve i s) => i != n || !K.W.start.contains s
    | _ => true)

def ll1B (K : Ctx) (nb : Nat → Bool) : Bool := nullOk K.W nb &&
  ((List.range K.W.heap.length).all fun n => match K.W.node n with
    | some (.alt _ _) => K.W.parsed ≤ n || match flatten K.W (K.W.heap.length + 1) n with
      | none => false
      | some ms => decide (ms.Pairwise fun m m' => apartB K (nb m') n m m' = true) && ms.all fun m => !nb m || silentB K m
    | some (.star _) => loopB K n
    | some (.plus _) => loopB K n
    | some (.op o) => opLL K n o
    | _ => true) &&
  decide (K.W.rules.reverse.Pairwise fun r r' => rulePairB K nb r r' = true) &&
  K.W.start.all fun s => (K.S.of s).all fun t => !isTerm K.W t || t = K.eofTok

theorem ll1_of_ll1B {K : Ctx} {nb : Nat → Bool} (h : ll1B K nb = true) : LL1 K ∧ OpsLoop K.W := by
  simp only [ll1B, Bool.and_eq_true] at h
  obtain ⟨⟨⟨h0, h1⟩, h2⟩, h3⟩ := h
  have at' : ∀ {n it}, K.W.node n = some it → _ := fun {n it} (hn : K.W.node n = some it) => List.all_eq_true.1 h1 n (List.mem_range.2 (lt_of_node hn))
  have alts : ∀ {n l r ms}, n < K.W.parsed → K.W.node n = some (.alt l r) → Choice K.W n ms →
      (ms.Pairwise fun m m' => apartB K (nb m') n m m' = true) ∧ ∀ m ∈ ms, nb m = true → silentB K m = true := by
    intro n l r ms hl hn hc
    have := at' hn
    simp only [hn, Bool.or_eq_true, decide_eq_true_eq] at this
    rcases this with h | h
    · omega
    · split at h
      · cases h
      · next l' e =>
        rw [choice_unique e hc]
        simp only [Bool.and_eq_true, decide_eq_true_eq, List.all_eq_true, Bool.or_eq_true, Bool.not_eq_true'] at h
        refine ⟨h.1, fun m hm hnb => ?_⟩
        rcases h.2 m hm with h' | h'
        · rw [hnb] at h'; cases h'
        · exact h'
  have ops : ∀ {n o}, K.W.node n = some (.op o) → _ := fun {n o} (hn : K.W.node n = some (.op o)) => by
    have := at' hn
    simp only [hn, opLL, Bool.and_eq_true, decide_eq_true_eq] at this
    exact this
  refine ⟨⟨?_, ?_, ?_, ?_, ?_, ?_, ?_, ?_, ?_⟩, ?_⟩
  · intro n l r ms _ hl hn hc
    refine (alts hl hn hc).1.imp fun {m m'} h => ?_
    obtain ⟨g1, g2, g3⟩ := apart_of h
    exact ⟨g1, g2, fun hm => g3 (null_of_nullOk h0 hm)⟩
  · intro n l r ms m _ hl hn hc hm hnull
    exact silent_of ((alts hl hn hc).2 m hm (null_of_nullOk h0 hnull))
  · intro n i _ hn
    have := at' hn
    rw [hn] at this
    exact loop_of this
  · intro n i _ hn
    have := at' hn
    rw [hn] at this
    exact loop_of this
  · refine (decide_eq_true_eq.mp h2).imp fun {r r'} h i i' s hr hr' => ?_
    simp only [rulePairB, hr, hr', bne_self_eq_false, Bool.false_or, Bool.and_eq_true] at h
    obtain ⟨g1, g2, g3⟩ := apart_of h.1
    refine ⟨g1, g2, fun hm => g3 (null_of_nullOk h0 hm), fun he => ?_⟩
    have h' := h.2
    simp only [he, bne_self_eq_false, Bool.false_or, Bool.and_eq_true, Bool.not_eq_true', List.all_eq_true] at h'
    refine ⟨fun hm => ?_, fun t ht hs => ?_⟩
    · rw [null_of_nullOk h0 hm] at h'; simp at h'
    · have := h'.2 t (first_iff.mp ht)
      rw [List.contains_iff_mem.mpr (mem_of.mpr hs)] at this
      cases this
  · intro n o hn
    obtain ⟨⟨⟨⟨-, g1⟩, g2⟩, -⟩, -⟩ := ops hn
    refine ⟨g1, fun t ht => ?_⟩
    have := List.all_eq_true.1 g2 t ht
    simp only [Bool.and_eq_true, Bool.not_eq_true'] at this
    refine ⟨fun hs => ?_, fun hm => ?_⟩
    · rw [List.contains_iff_mem.mpr (mem_of.mpr hs)] at this; simp at this
    · rw [List.contains_iff_mem.mpr hm] at this; simp at this
  · intro n o s hn hs
    obtain ⟨⟨⟨⟨-, -⟩, -⟩, g⟩, -⟩ := ops hn
    simp only [hs, Bool.and_eq_true, decide_eq_true_eq] at g
    refine ⟨g.1, fun t ht hf => ?_⟩
    have := List.all_eq_true.1 g.2 t ht
    rw [List.contains_iff_mem.mpr (first_iff.mp hf)] at this
    cases this
  · intro n o r s hn hne hr hnr hs
    obtain ⟨⟨⟨⟨-, -⟩, -⟩, -⟩, g⟩ := ops hn
    simp only [Bool.or_eq_true, decide_eq_true_eq] at g
    rcases g with g | g
    · exact hne g
    · have := List.all_eq_true.1 g r hr
      simp only [hnr, bne_self_eq_false, Bool.false_or, Bool.not_eq_true'] at this
      rw [List.contains_iff_mem.mpr hs] at this
      cases this
  · intro s t hs _ ht hn
    have := List.all_eq_true.1 (List.all_eq_true.1 h3 s hs) t (mem_of.mpr ht)
    simpa [isTerm, hn] using this
  · intro n o hn
    obtain ⟨⟨⟨⟨g, -⟩, -⟩, -⟩, -⟩ := ops hn
    exact g

/-- No try/rollback with a catch part. -/
theorem noCatch_of {W : World} (h : (List.range W.heap.length).all (fun n => !isCatchB W n) = true) : ∀ n l r, W.node n ≠ some (.tryc l (some r)) := by
  intro n l r hn
  have := List.all_eq_true.1 h n (List.mem_range.2 (lt_of_node hn))
  simp [isCatchB, hn] at this

theorem sample_ll1 : LL1 sampleCtx ∧ OpsLoop sampleList := ll1_of_ll1B (nb := sampleNull) (by decide +kernel)

theorem sample_eof : sampleCtx.W.node sampleCtx.eofTok = some .term ∧ sampleCtx.W.node 5 = some .sym ∧ 5 ∈ sampleCtx.W.start := by decide +kernel

/-- The function of `list` accepts every sentence of the sample grammar. -/
theorem sample_complete : ∃ fuel0, ∀ fuel, fuel0 ≤ fuel → ∀ ω, Der sampleCtx.W 5 ω → (∀ t ∈ ω, t ∈ sampleCtx.W.terminals) →
    ∃ f st', parse sampleCtx fuel (onInput sampleCtx.eofTok ω) f 5 {} = some (.ok, st') ∧ st'.pos = ω.length := by
  have h1 : computeFirst sampleCtx.W 200 20 = some sampleCtx.F := by simp only [sampleCtx]; exact sample_first
  have h2 : computeFollow sampleCtx.W sampleCtx.F sampleCtx.eofTok 200 20 = some sampleCtx.S := by simp only [sampleCtx]; exact sample_follow
  have h3 : ∀ n l r, sampleCtx.W.node n ≠ some (.tryc l (some r)) := noCatch_of (W := sampleCtx.W) (by decide +kernel)
  have h4 : Wf sampleCtx.W := sample_wf
  have h5 : Plain sampleCtx.W := sample_plain
  have h6 : OpsOk sampleCtx.W := sample_lead.2
  have h7 : BareOk sampleCtx.W := sample_bare
  have h8 : OpsLoop sampleCtx.W := sample_ll1.2
  exact C48_start_partial h4 h5 h6 h7 h8 h3 sample_ll1.1 h1 h2 sample_eof.1 sample_eof.2.1 sample_eof.2.2

example : ∃ f st', parse sampleCtx 100 (onInput 24 [1, 4, 2, 21, 2, 3, 2]) f 5 {} = some (.ok, st') ∧ st'.pos = 7 := ⟨60, { pos := 7, user := 160 }, by decide +kernel, rfl⟩

/-! ### Sentences that are refused

The first three grammars are LL(1) as the term is usually understood. -/

/-- A context for a grammar, with the FIRST and FOLLOW sets computed for it. -/
def ctxOf (W : World) (eof : Nat) : Ctx :=
  let F := (computeFirst W 50 20).getD []
  { W, F, S := (computeFollow W F eof 50 20).getD [], eofTok := eof }

/-- The context is the one of the generator, the word is a sentence of symbol `s`, and the function of `s` returns false. -/
def Refused (W : World) (eof s : Nat) (ω : List Nat) : Prop :=
  Wf W ∧ Plain W ∧ computeFirst W 50 20 = some (ctxOf W eof).F ∧ computeFollow W (ctxOf W eof).F eof 50 20 = some (ctxOf W eof).S ∧
  s ∈ W.start ∧ Der W s ω ∧ ∃ st', parse (ctxOf W eof) 20 (onInput eof ω) 60 s {} = some (.failed, st')

/-- `0 -> x;  A -> x;  (x | B) C -> s`, with 1 to 3 `A` to `C`, 4 `x`, 5 `s`, 12 the end. -/
def nullAltWorld : World := {
  heap := [.zero, .term, .term, .term, .sym, .sym, .evolve 0 4, .evolve 1 4, .nonterm 4, .alt 8 2, .cons 9 3, .evolve 10 5, .term],
  parsed := 13, rules := [6, 7, 11], zero := 0, terminals := [1, 2, 3], start := [5], bnf := fun _ => none }

/-- An alternative that can be empty and can also start with a token is not chosen if the token is not there: `C` is refused. -/
theorem C48_fails_nullable : Refused nullAltWorld 12 5 [3] :=
  ⟨wf_of_wfB (by decide +kernel), plain_of_plainB (by decide +kernel), by decide +kernel, by decide +kernel, by decide +kernel,
    .expand (r := 11) (i := 10) (by decide +kernel) (by decide +kernel) (by decide +kernel)
      (.cons (l := 9) (r := 3) (α := []) (β := [3]) (by decide +kernel)
        (.altL (l := 8) (r := 2) (by decide +kernel) (.nonterm (s := 4) (by decide +kernel)
          (.expand (r := 6) (i := 0) (by decide +kernel) (by decide +kernel) (by decide +kernel) (.zero (by decide +kernel)))))
        (.term (by decide +kernel))),
    { user := 11 }, by decide +kernel⟩

/-- `(0 | A) -> s`, with 1 `A`, 2 `s`, 5 the end. -/
def emptyFirstWorld : World := {
  heap := [.zero, .term, .sym, .alt 0 1, .evolve 3 2, .term], parsed := 6, rules := [4], zero := 0, terminals := [1], start := [2], bnf := fun _ => none }

/-- The empty alternative is always chosen if it is not the last: `A` is refused. -/
theorem C48_fails_empty_first : Refused emptyFirstWorld 5 2 [1] :=
  ⟨wf_of_wfB (by decide +kernel), plain_of_plainB (by decide +kernel), by decide +kernel, by decide +kernel, by decide +kernel,
    .expand (r := 4) (i := 3) (by decide +kernel) (by decide +kernel) (by decide +kernel)
      (.altR (l := 0) (r := 1) (by decide +kernel) (.term (by decide +kernel))),
    { user := 4 }, by decide +kernel⟩

/-- `A -> s;  0 -> s`, with 1 `A`, 2 `s`, 5 the end. -/
def emptyRuleWorld : World := {
  heap := [.zero, .term, .sym, .evolve 1 2, .evolve 0 2, .term], parsed := 6, rules := [3, 4], zero := 0, terminals := [1], start := [2], bnf := fun _ => none }

/-- The rules of a symbol are tried from the last to the first, and an empty rule is always chosen: `A` is refused. -/
theorem C48_fails_empty_rule : Refused emptyRuleWorld 5 2 [1] :=
  ⟨wf_of_wfB (by decide +kernel), plain_of_plainB (by decide +kernel), by decide +kernel, by decide +kernel, by decide +kernel,
    .expand (r := 3) (i := 1) (by decide +kernel) (by decide +kernel) (by decide +kernel) (.term (by decide +kernel)),
    { user := 4 }, by decide +kernel⟩

/-- `ID -> p;` and `e` with `+` and parentheses, with 1 `ID`, 2 `+`, 3 `(`, 4 `)`, 7 `e`, 11 the end. -/
def parenWorld : World := rewrite {
  heap := [.zero, .term, .term, .term, .term, .sym, .evolve 1 5, .sym, .nonterm 5, .op { base := 8, bin := [2], paren := [(3, 4)] }, .evolve 9 7, .term]
  parsed := 0
  rules := [6, 10]
  zero := 0
  terminals := [1, 2, 3, 4]
  start := [7]
  bnf := fun _ => none } [9]

/-- The function of a start symbol expects the end of the input, also if it is called for an expression in parentheses: `( ID )`
is refused. -/
theorem C48_fails_paren : Refused parenWorld 11 7 [3, 1, 4] :=
  ⟨wf_of_wfB (by decide +kernel), plain_of_plainB (by decide +kernel), by decide +kernel, by decide +kernel, by decide +kernel,
    .expand (r := 10) (i := 9) (by decide +kernel) (by decide +kernel) (by decide +kernel)
      (.opParen (o := { base := 8, bin := [2], paren := [(3, 4)] }) (t := 3) (u := 4) (α := [1]) (by decide +kernel) (by decide +kernel)
        (.opBase (o := { base := 8, bin := [2], paren := [(3, 4)] }) (by decide +kernel) (.nonterm (s := 5) (by decide +kernel)
          (.expand (r := 6) (i := 1) (by decide +kernel) (by decide +kernel) (by decide +kernel) (.term (by decide +kernel)))))),
    { pos := 2, errors := 1, user := 26 }, by decide +kernel⟩

end Verif.Gen
