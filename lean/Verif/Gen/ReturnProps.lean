import Verif.Gen.Return
import Verif.Gen.Props
import Verif.Gen.CompleteProps
import Verif.Gen.NoStep

/-!
# C117: the generated parser returns on every input

`Gen.ReturnSpec` says for which grammars: no left recursion, no loop over something that may be empty.  What is empty at no token with which the loop begins may be repeated; so may be try/recover, if the loop does not begin with `EOF`.
-/

namespace Verif.Gen

open Verif.Grammar

/-- C117: for a grammar without left recursion and without loops over items that can be passed without a token where the condition of the loop holds, the function of every symbol returns, wherever it is called in whatever finite input, correct or not, with any user
conditions and any user code; and the position is then not beyond the end of the input.  Operators of all kinds, inlined symbols, try/recover and try/rollback may occur.

`K.W` without recursive inlining (C42) and with a postfix, binary or ternary operator in every operator rule, so that there is a parser; `EOF` may not be used as a token in the rules. -/
theorem C117_returns_partial {K : Ctx} (hw : Wf K.W) (hg : Returns K) (hl : OpsLoop K.W) (ha : ∀ r ∈ K.W.rules, Acc (fun m n => Visits K.W n m) r) :
    ∃ fuel0, ∀ fuel, fuel0 ≤ fuel → ∀ (E : Env) (N : Nat), (∀ p, N ≤ p → E.inp p = K.eofTok) → ∀ s st, ∃ f o st', parse K fuel E f s st = some (o, st') ∧ st'.pos ≤ max N st.pos := by
  obtain ⟨f0, h0⟩ := parseFun_total (K := K) hw hl (fun _ _ => searchRule_node hw) ha
  refine ⟨f0, fun fuel hf E N hN s st => ?_⟩
  obtain ⟨f, o, st', e, l, u, -⟩ := calls_end (E := E) (N := max N st.pos) hw (fun p hp => hN p (by omega)) hg (h0 fuel hf) _ st.pos s rfl 0 st rfl (Nat.le_max_right _ _)
  obtain ⟨b, hb⟩ := h0 fuel hf s
  cases f with
  | zero => simp [exec] at e
  | succ f =>
    simp only [exec, step, hb, Option.bind_some, Option.map_eq_some_iff] at e
    obtain ⟨⟨o', st2⟩, e, h⟩ := e
    refine ⟨f, o', st2, by simp [parse, hb, e], ?_⟩
    have : (returned 0 st (o', st2)).2.pos = st2.pos := by cases o' <;> simp only [returned, complain_pos] <;> rfl
    rw [← this, h]
    exact u

theorem consumed_all (eof : Nat) (ω : List Nat) : consumed (onInput eof ω).inp 0 ω.length = ω := by
  refine List.ext_getElem (by simp [consumed]) fun i h1 h2 => ?_
  simp [consumed, onInput, List.getD_eq_getElem?_getD, List.getElem?_eq_getElem h2]

/-- C117 with C47 and C48: the function of a start symbol decides whether its input is a sentence.  On every series of tokens it returns; it returns true exactly for the sentences. -/
theorem C117_decides_partial {K : Ctx} (hw : Wf K.W) (hp : Plain K.W) (ho : OpsOk K.W) (hb : BareOk K.W) (hl : OpsLoop K.W) (ht : ∀ n l r, K.W.node n ≠ some (.tryc l r)) (hll : LL1 K) (hg : Returns K)
    {f1 k1 f2 k2 : Nat} (h1 : computeFirst K.W f1 k1 = some K.F) (h2 : computeFollow K.W K.F K.eofTok f2 k2 = some K.S) (he : K.W.node K.eofTok = some .term) {s : Nat} (hs : K.W.node s = some .sym)
    (hs' : s ∈ K.W.start) : ∃ fuel0, ∀ fuel, fuel0 ≤ fuel → ∀ ω : List Nat, (∀ t ∈ ω, t ∈ K.W.terminals ∧ t ≠ K.eofTok) →
      ∃ f o st', parse K fuel (onInput K.eofTok ω) f s {} = some (o, st') ∧ (o = .ok ↔ Der K.W s ω) := by
  obtain ⟨a, ha⟩ := C48_start_partial hw hp ho hb hl (fun n l r => ht n l (some r)) hll h1 h2 he hs hs'
  obtain ⟨b, hb'⟩ := C117_returns_partial hw hg hl fun r hr => acc_plain hw hp.noInline r (hw.rules r hr).1
  refine ⟨max a b, fun fuel hf ω hω => ?_⟩
  by_cases hd : Der K.W s ω
  · obtain ⟨f, st', h, -⟩ := ha fuel (by omega) ω hd fun t h => (hω t h).1
    exact ⟨f, .ok, st', h, by simp [hd]⟩
  · obtain ⟨f, o, st', h, hpos⟩ := hb' fuel (by omega) (onInput K.eofTok ω) ω.length (fun p hp => by simp [onInput, List.getD_eq_getElem?_getD, List.getElem?_eq_none hp]) s {}
    refine ⟨f, o, st', h, ⟨fun e => ?_, fun h => absurd h hd⟩⟩
    subst e
    have hend := parse_eof hs' h
    have hrec := parse_recovered (fun n l => ht n l none) h
    have hsym : ∀ p, K.W.node ((onInput K.eofTok ω).inp p) ≠ some .sym := by
      intro p
      simp only [onInput, List.getD_eq_getElem?_getD]
      cases hx : ω[p]? with
      | none => simp [he]
      | some x => simp [hw.terminals x (hω x (List.mem_of_getElem? hx)).1]
    have hder := (C47_accepts_sentences_partial hw hp hsym h hrec).2
    have : st'.pos = ω.length := by
      rcases Nat.lt_or_ge st'.pos ω.length with hlt | hge
      · simp only [onInput, List.getD_eq_getElem?_getD, List.getElem?_eq_getElem hlt, Option.getD_some] at hend
        exact absurd hend (hω _ (List.getElem_mem hlt)).2
      · have : st'.pos ≤ max ω.length 0 := hpos
        omega
    rw [this] at hder
    exact absurd (consumed_all K.eofTok ω ▸ hder) hd

/-! ### Checking the conditions for a given grammar -/

/-- What `Idle` demands of item `n`, if `nb` are the idle items. -/
def idleOf (W : World) (nb : Nat → Bool) (n : Nat) : Bool := match W.node n with
  | some .zero | some .sym | some (.action none) | some (.tryc _ none) | some (.star _) | some (.inlined _) | some (.evolve _ _) => true
  | some (.nonterm s) => W.rules.any fun r => match W.node r with
    | some (.evolve i s') => s' = s && nb i
    | _ => false
  | some (.cons l r) => nb l && nb r
  | some (.alt l r) | some (.tryc l (some r)) => nb l || nb r
  | some (.action (some i)) | some (.cond i) | some (.annot i) | some (.plus i) => nb i
  | some (.op o) => nb o.base
  | _ => false

theorem idle_of {W : World} {nb : Nat → Bool} (h : ∀ n, idleOf W nb n = true → nb n = true) {n : Nat} (hn : Idle W n) : nb n = true := by
  induction hn with
  | zero e => exact h _ (by simp [idleOf, e])
  | sym e => exact h _ (by simp [idleOf, e])
  | call e hr e2 _ ih => exact h _ (by simp only [idleOf, e, List.any_eq_true]; exact ⟨_, hr, by simp [e2, ih]⟩)
  | cons e _ _ ih ih' => exact h _ (by simp [idleOf, e, ih, ih'])
  | altL e _ ih => exact h _ (by simp [idleOf, e, ih])
  | altR e _ ih => exact h _ (by simp [idleOf, e, ih])
  | action0 e => exact h _ (by simp [idleOf, e])
  | action e _ ih => exact h _ (by simp [idleOf, e, ih])
  | cond e _ ih => exact h _ (by simp [idleOf, e, ih])
  | annot e _ ih => exact h _ (by simp [idleOf, e, ih])
  | tryL e _ ih => exact h _ (by simp [idleOf, e, ih])
  | tryR e _ ih => exact h _ (by simp [idleOf, e, ih])
  | recover e => exact h _ (by simp [idleOf, e])
  | plus e _ ih => exact h _ (by simp [idleOf, e, ih])
  | star e => exact h _ (by simp [idleOf, e])
  | op e _ ih => exact h _ (by simp [idleOf, e, ih])
  | inlined e => exact h _ (by simp [idleOf, e])
  | rule e => exact h _ (by simp [idleOf, e])

/-- The same for `Lead`. -/
def leadOf (W : World) (nb : Nat → Bool) (ld : Nat → List Nat) (n : Nat) : List Nat := match W.node n with
  | some (.nonterm s) => [s]
  | some (.cons l r) => ld l ++ if nb l then ld r else []
  | some (.alt l r) | some (.tryc l (some r)) => ld l ++ ld r
  | some (.action (some i)) | some (.cond i) | some (.annot i) | some (.plus i) | some (.star i) | some (.tryc i none) | some (.evolve i _) => ld i
  | some (.op o) => ld o.base
  | some (.inlined (some t)) => match W.searchRule t with
    | some r => ld r
    | none => []
  | _ => []

theorem lead_of {W : World} {nb : Nat → Bool} {ld : Nat → List Nat} (hi : ∀ n, Idle W n → nb n = true) (h : ∀ n, ∀ t ∈ leadOf W nb ld n, t ∈ ld n) {n t : Nat} (hn : Lead W n t) : t ∈ ld n := by
  induction hn with
  | call e => exact h _ _ (by simp [leadOf, e])
  | consL e _ ih => exact h _ _ (by simp [leadOf, e, ih])
  | consR e e2 _ ih => exact h _ _ (by simp [leadOf, e, ih, hi _ e2])
  | altL e _ ih => exact h _ _ (by simp [leadOf, e, ih])
  | altR e _ ih => exact h _ _ (by simp [leadOf, e, ih])
  | action e _ ih => exact h _ _ (by simp [leadOf, e, ih])
  | cond e _ ih => exact h _ _ (by simp [leadOf, e, ih])
  | annot e _ ih => exact h _ _ (by simp [leadOf, e, ih])
  | @tryL n l r s e _ ih => exact h _ _ (by cases r <;> simp [leadOf, e, ih])
  | tryR e _ ih => exact h _ _ (by simp [leadOf, e, ih])
  | plus e _ ih => exact h _ _ (by simp [leadOf, e, ih])
  | star e _ ih => exact h _ _ (by simp [leadOf, e, ih])
  | op e _ ih => exact h _ _ (by simp [leadOf, e, ih])
  | inlined e e2 _ ih => exact h _ _ (by simp [leadOf, e, e2, ih])
  | rule e _ ih => exact h _ _ (by simp [leadOf, e, ih])

/-- The parts of an item. -/
def partsOf (W : World) (n : Nat) : List Nat := match W.node n with
  | some (.evolve i _) | some (.action (some i)) | some (.cond i) | some (.annot i) | some (.plus i) | some (.star i) | some (.tryc i none) => [i]
  | some (.cons l r) | some (.alt l r) | some (.tryc l (some r)) => [l, r]
  | some (.op o) => [o.base]
  | _ => []

theorem parts_of {W : World} {n m : Nat} (h : Part W n m) : m ∈ partsOf W n := by
  cases h with
  | @tryL l r e => cases r <;> simp [partsOf, e]
  | _ e => simp [partsOf, e]

/-- The sets and a rank for symbols that show `Returns`; `ex` are loops whose body can be empty, but not under the condition of the loop. -/
def returnsB (K : Ctx) (nb : Nat → Bool) (ld : Nat → List Nat) (rk : Nat → Nat) (ex : List Nat := []) : Bool :=
  (K.W.rules.all fun r => r ≠ K.eofTok && match K.W.node r with
    | some (.evolve i s) => (ld i).all fun t => rk t < rk s
    | _ => true) &&
  (List.range K.W.heap.length).all fun n => (!idleOf K.W nb n || nb n) && ((leadOf K.W nb ld n).all fun t => (ld n).contains t) && !(partsOf K.W n).contains K.eofTok && match K.W.node n with
    | some (.star i) | some (.plus i) => !nb i || ex.contains n
    | some (.op o) => !(o.pre ++ o.post ++ o.bin ++ o.tern.map (·.1) ++ o.tern.map (·.2) ++ o.paren.map (·.1) ++ o.paren.map (·.2)).contains K.eofTok
    | _ => true

theorem returns_of {K : Ctx} {nb : Nat → Bool} {ld : Nat → List Nat} {rk : Nat → Nat} {ex : List Nat} (h : returnsB K nb ld rk ex = true)
    (hx : ∀ n ∈ ex, ∀ i, K.W.node n = some (.star i) ∨ K.W.node n = some (.plus i) → Guarded K n i) : Returns K := by
  simp only [returnsB, Bool.and_eq_true, List.all_eq_true, List.mem_range] at h
  obtain ⟨h1, h2⟩ := h
  have hin : ∀ {n it}, K.W.node n = some it → n < K.W.heap.length := fun e => (List.getElem?_eq_some_iff.1 e).1
  have hi : ∀ n, Idle K.W n → nb n = true := fun n => idle_of fun n hn => by
    by_cases hl : n < K.W.heap.length
    · have := (h2 n hl).1.1.1
      simpa [hn] using this
    · have : K.W.node n = none := List.getElem?_eq_none (by omega)
      simp [idleOf, this] at hn
  have hl : ∀ n t, Lead K.W n t → t ∈ ld n := fun n t => lead_of hi fun n t ht => by
    by_cases hl : n < K.W.heap.length
    · have := (h2 n hl).1.1.2 t ht
      simpa using this
    · have : K.W.node n = none := List.getElem?_eq_none (by omega)
      simp [leadOf, this] at ht
  have hr : ∀ s t, Relation.TransGen (Left K.W) s t → rk t < rk s := by
    have : ∀ s t, Left K.W s t → rk t < rk s := fun s t ⟨r, hr, i, e, ht⟩ => by
      have := (h1 r hr).2
      rw [e] at this
      simpa using List.all_eq_true.1 this t (hl i t ht)
    intro s t h
    induction h with
    | single h => exact this _ _ h
    | tail _ h ih => exact Nat.lt_trans (this _ _ h) ih
  refine ⟨fun s h => Nat.lt_irrefl _ (hr s s h), fun n i _ e => ?_, fun n i _ e => ?_, fun h => ?_, fun n o _ e h => ?_⟩
  · have := (h2 n (hin e)).2
    by_cases h : Idle K.W i
    · simp only [e, hi i h, Bool.not_true, Bool.false_or, List.contains_iff_mem] at this
      exact .inr (hx n this i (.inl e))
    · exact .inl h
  · have := (h2 n (hin e)).2
    by_cases h : Idle K.W i
    · simp only [e, hi i h, Bool.not_true, Bool.false_or, List.contains_iff_mem] at this
      exact .inr (hx n this i (.inr e))
    · exact .inl h
  · generalize he : K.eofTok = x at h
    cases h with
    | rule hr => have := (h1 x hr).1; simp [he] at this
    | @part n _ _ hp =>
      have hlt : n < K.W.heap.length := by cases hp <;> rename_i e <;> exact hin e
      have := (h2 n hlt).1.2
      simp [he, parts_of hp] at this
  · have := (h2 n (hin e)).2
    rw [e] at this
    simp only [Bool.not_eq_true', ← Bool.not_eq_true, List.contains_iff_mem] at this
    exact this h

/-- Tables of the two sets. -/
def idles (W : World) : Nat → List Bool
  | 0 => []
  | k + 1 => let t := idles W k; (List.range W.heap.length).map (idleOf W fun n => t.getD n false)
def leads (W : World) (nb : List Bool) : Nat → List (List Nat)
  | 0 => []
  | k + 1 => let t := leads W nb k; (List.range W.heap.length).map fun n => (leadOf W (fun n => nb.getD n false) (fun n => t.getD n []) n).dedup
def returnsT (K : Ctx) (k : Nat) (rk : Nat → Nat) (ex : List Nat := []) : Bool := let nb := idles K.W k; let ld := leads K.W nb k; returnsB K (fun n => nb.getD n false) (fun n => ld.getD n []) rk ex

/-! ### Examples -/

private theorem returns_T {K : Ctx} {k : Nat} {rk : Nat → Nat} (h : returnsT K k rk = true) : Returns K := returns_of h fun n hn => nomatch hn

/-- try/recover around try/rollback. -/
example : ∃ fuel0, ∀ fuel, fuel0 ≤ fuel → ∀ (E : Env) (N : Nat), (∀ p, N ≤ p → E.inp p = 16) → ∀ s st, ∃ f o st', parse tryCtx fuel E f s st = some (o, st') ∧ st'.pos ≤ max N st.pos :=
  C117_returns_partial (K := tryCtx) try_wf (returns_T (k := 8) (rk := fun s => s) (by decide +kernel)) (fun n o h => absurd h (by
    have := List.mem_of_getElem? h
    simp [tryCtx, tryWorld] at this)) fun r hr => acc_plain try_wf try_plain.noInline r (try_wf.rules r hr).1

/-- An inlined symbol, and a ternary operator. -/
example : Returns inlCtx ∧ Returns ternCtx := ⟨returns_T (k := 8) (rk := fun s => s) (by decide +kernel), returns_T (k := 8) (rk := fun s => s) (by decide +kernel)⟩

theorem sample_returns : Returns sampleCtx := returns_T (k := 12) (rk := fun s => 100 - s) (by decide +kernel)

/-- `( try/recover(A B) )* -> s`, with 1 `A`, 2 `B`, 3 `s`, 8 the end. -/
def recoverLoop : World := rewrite {
  heap := [.zero, .term, .term, .sym, .cons 1 2, .tryc 4 none, .star 5, .evolve 6 3, .term],
  parsed := 0, rules := [7], zero := 0, terminals := [1, 2], start := [3], bnf := fun _ => none } [6]

private theorem not_stays_term {K : Ctx} {t n : Nat} (hn : K.W.node n = some .term) : ¬ Stays K t n := fun h => by cases h <;> simp_all

theorem recoverLoop_returns : Idle recoverLoop 5 ∧ Returns (ctxOf recoverLoop 8) := by
  have n1 : (ctxOf recoverLoop 8).W.node 1 = some .term := by decide +kernel
  have n4 : (ctxOf recoverLoop 8).W.node 4 = some (.cons 1 2) := by decide +kernel
  have n5 : (ctxOf recoverLoop 8).W.node 5 = some (.tryc 4 none) := by decide +kernel
  have n6 : (ctxOf recoverLoop 8).W.node 6 = some (.star 5) := by decide +kernel
  refine ⟨.recover n5, returns_of (ex := [6]) (show returnsT (ctxOf recoverLoop 8) 8 (fun s => s) [6] = true by decide +kernel) fun n hn i hi => ?_⟩
  have : n = 6 := by simpa using hn
  subst this
  have hi : i = 5 := by
    rcases hi with hi | hi
    · have := n6.symm.trans hi; cases this; rfl
    · have := n6.symm.trans hi; cases this
  subst hi
  refine ⟨⟨1, by unfold First; decide +kernel⟩, fun t ht h => ?_⟩
  have hf : ∀ x ∈ (ctxOf recoverLoop 8).F, x.1 = 6 → (ctxOf recoverLoop 8).W.node x.2 = some .term → x.2 = 1 := by decide +kernel
  simp only [First, n6, reduceCtorEq] at ht
  have ht := hf _ ht.2 rfl ht.1
  have hE : (ctxOf recoverLoop 8).eofTok = 8 := by decide +kernel
  have s4 : ¬ Stays (ctxOf recoverLoop 8) t 4 := fun h => by
    cases h with
    | cons e h _ => rw [n4] at e; cases e; exact not_stays_term n1 h
    | _ e => rw [n4] at e; cases e
  cases h with
  | tryL e h => have := n5.symm.trans e; cases this; exact s4 h
  | recover e h => rw [hE] at h; simp at ht; omega
  | _ e => have := n5.symm.trans e; cases this

/-- `( (A | 0) (B | 0) )* -> s`, with 1 `A`, 2 `B`, 3 `s`, 9 the end. -/
def optLoop : World := rewrite {
  heap := [.zero, .term, .term, .sym, .alt 1 0, .alt 2 0, .cons 4 5, .star 6, .evolve 7 3, .term],
  parsed := 0, rules := [8], zero := 0, terminals := [1, 2], start := [3], bnf := fun _ => none } [7]

/-- The body of the loop can be empty, but not where the loop is entered. -/
theorem optLoop_returns : Idle optLoop 6 ∧ Returns (ctxOf optLoop 9) := by
  have n0 : (ctxOf optLoop 9).W.node 0 = some .zero := by decide +kernel
  have n1 : (ctxOf optLoop 9).W.node 1 = some .term := by decide +kernel
  have n2 : (ctxOf optLoop 9).W.node 2 = some .term := by decide +kernel
  have n4 : (ctxOf optLoop 9).W.node 4 = some (.alt 1 0) := by decide +kernel
  have n5 : (ctxOf optLoop 9).W.node 5 = some (.alt 2 0) := by decide +kernel
  have n6 : (ctxOf optLoop 9).W.node 6 = some (.cons 4 5) := by decide +kernel
  have n7 : (ctxOf optLoop 9).W.node 7 = some (.star 6) := by decide +kernel
  refine ⟨.cons n6 (.altR n4 (.zero n0)) (.altR n5 (.zero n0)), returns_of (ex := [7]) (show returnsT (ctxOf optLoop 9) 8 (fun s => s) [7] = true by decide +kernel) fun n hn i hi => ?_⟩
  have : n = 7 := by simpa using hn
  subst this
  have hi : i = 6 := by
    rcases hi with hi | hi
    · have := n7.symm.trans hi; cases this; rfl
    · have := n7.symm.trans hi; cases this
  subst hi
  refine ⟨⟨1, by unfold First; decide +kernel⟩, fun t ht h => ?_⟩
  have hf : ∀ x ∈ (ctxOf optLoop 9).F, x.1 = 7 → (ctxOf optLoop 9).W.node x.2 = some .term → x.2 = 1 ∨ x.2 = 2 := by decide +kernel
  simp only [First, n7, reduceCtorEq] at ht
  have ht : t = 1 ∨ t = 2 := hf _ ht.2 rfl ht.1
  have opt : ∀ a n, (ctxOf optLoop 9).W.node a = some .term → (ctxOf optLoop 9).W.node n = some (.alt a 0) → ¬ Stays (ctxOf optLoop 9) a n := fun a n ha hn h => by
    cases h with
    | altL e h => rw [hn] at e; cases e; exact not_stays_term ha h
    | altR e h _ => rw [hn] at e; cases e; exact h (.here (by simp [ha]) (by simp [ha]) (by simp [First, ha]))
    | _ e => rw [hn] at e; cases e
  cases h with
  | cons e h h' =>
    have := n6.symm.trans e
    cases this
    rcases ht with rfl | rfl
    · exact opt 1 4 n1 n4 h
    · exact opt 2 5 n2 n5 h'
  | _ e => have := n6.symm.trans e; cases this

/-- `s* -> doc`, `0 -> s`, `A -> s`, with 1 `A`, 2 `s`, 3 `doc`, 9 the end; the rule `A -> s` is tried first. -/
def ruleLoop : World := rewrite {
  heap := [.zero, .term, .sym, .sym, .nonterm 2, .star 4, .evolve 5 3, .evolve 0 2, .evolve 1 2, .term],
  parsed := 0, rules := [6, 7, 8], zero := 0, terminals := [1], start := [3], bnf := fun _ => none } [5]

/-- A symbol may be empty by one of its rules, but not where the loop is entered. -/
theorem ruleLoop_returns : Idle ruleLoop 4 ∧ Returns (ctxOf ruleLoop 9) := by
  have hR : (ctxOf ruleLoop 9).W.rules = [6, 7, 8] := by decide +kernel
  have n0 : (ctxOf ruleLoop 9).W.node 0 = some .zero := by decide +kernel
  have n1 : (ctxOf ruleLoop 9).W.node 1 = some .term := by decide +kernel
  have n4 : (ctxOf ruleLoop 9).W.node 4 = some (.nonterm 2) := by decide +kernel
  have n5 : (ctxOf ruleLoop 9).W.node 5 = some (.star 4) := by decide +kernel
  have n6 : (ctxOf ruleLoop 9).W.node 6 = some (.evolve 5 3) := by decide +kernel
  have n7 : (ctxOf ruleLoop 9).W.node 7 = some (.evolve 0 2) := by decide +kernel
  have n8 : (ctxOf ruleLoop 9).W.node 8 = some (.evolve 1 2) := by decide +kernel
  refine ⟨.call n4 (show 7 ∈ (ctxOf ruleLoop 9).W.rules by rw [hR]; simp) n7 (.zero n0), returns_of (ex := [5]) (show returnsT (ctxOf ruleLoop 9) 8 (fun s => s) [5] = true by decide +kernel) fun n hn i hi => ?_⟩
  have : n = 5 := by simpa using hn
  subst this
  have hi : i = 4 := by
    rcases hi with hi | hi
    · have := n5.symm.trans hi; cases this; rfl
    · have := n5.symm.trans hi; cases this
  subst hi
  refine ⟨⟨1, by unfold First; decide +kernel⟩, fun t ht h => ?_⟩
  have hf : ∀ x ∈ (ctxOf ruleLoop 9).F, x.1 = 5 → (ctxOf ruleLoop 9).W.node x.2 = some .term → x.2 = 1 := by decide +kernel
  simp only [First, n5, reduceCtorEq] at ht
  have ht : t = 1 := hf _ ht.2 rfl ht.1
  subst ht
  cases h with
  | @call _ s pre r post i e e1 e2 e3 h =>
    have := n4.symm.trans e
    cases this
    have hr : r = 6 ∨ r = 7 ∨ r = 8 := by
      have : r ∈ (ctxOf ruleLoop 9).W.rules := by rw [e1]; simp
      rw [hR] at this; simpa using this
    rcases hr with rfl | rfl | rfl
    · rw [n6] at e2; cases e2
    · refine e3 8 ?_ ⟨1, n8, by simp [n1], by unfold First; decide +kernel⟩
      rw [hR] at e1
      have : 8 ∈ pre ++ 7 :: post := by rw [← e1]; simp
      rcases List.mem_append.1 this with h | h
      · match pre, e1, h with
        | [], _, h => cases h
        | [a], e1, h => simp at e1 h; omega
        | [a, b], e1, h => simp at e1
        | a :: b :: c :: d, e1, h => simp at e1
      · simpa using h
    · rw [n8] at e2; cases e2; exact not_stays_term n1 h
  | _ e => have := n4.symm.trans e; cases this

/-- `( @s )* -> doc`, `A -> s`, with 1 `A`, 2 `s`, 3 `doc`, 8 the end. -/
def inlLoop : World := rewrite {
  heap := [.zero, .term, .sym, .sym, .inlined (some 2), .star 4, .evolve 5 3, .evolve 1 2, .term],
  parsed := 0, rules := [6, 7], zero := 0, terminals := [1], start := [3], bnf := fun _ => none } [5]

/-- An inlined symbol is left out at a wrong token, but the loop is not entered there. -/
theorem inlLoop_returns : Idle inlLoop 4 ∧ Returns (ctxOf inlLoop 8) := by
  have n1 : (ctxOf inlLoop 8).W.node 1 = some .term := by decide +kernel
  have n4 : (ctxOf inlLoop 8).W.node 4 = some (.inlined (some 2)) := by decide +kernel
  have n5 : (ctxOf inlLoop 8).W.node 5 = some (.star 4) := by decide +kernel
  have n7 : (ctxOf inlLoop 8).W.node 7 = some (.evolve 1 2) := by decide +kernel
  have hs : (ctxOf inlLoop 8).W.searchRule 2 = some 7 := by decide +kernel
  refine ⟨.inlined n4, returns_of (ex := [5]) (show returnsT (ctxOf inlLoop 8) 8 (fun s => s) [5] = true by decide +kernel) fun n hn i hi => ?_⟩
  have : n = 5 := by simpa using hn
  subst this
  have hi : i = 4 := by
    rcases hi with hi | hi
    · have := n5.symm.trans hi; cases this; rfl
    · have := n5.symm.trans hi; cases this
  subst hi
  refine ⟨⟨1, by unfold First; decide +kernel⟩, fun t ht h => ?_⟩
  have hf : ∀ x ∈ (ctxOf inlLoop 8).F, x.1 = 5 → (ctxOf inlLoop 8).W.node x.2 = some .term → x.2 = 1 := by decide +kernel
  simp only [First, n5, reduceCtorEq] at ht
  have ht : t = 1 := hf _ ht.2 rfl ht.1
  subst ht
  have s7 : ¬ Stays (ctxOf inlLoop 8) 1 7 := fun h => by
    cases h with
    | rule e h => have := n7.symm.trans e; cases this; exact not_stays_term n1 h
    | without e h => have := n7.symm.trans e; cases this; exact h ⟨1, n7, by simp [n1], by unfold First; decide +kernel⟩
    | _ e => have := n7.symm.trans e; cases this
  cases h with
  | inlined e e2 h => have := n4.symm.trans e; cases this; rw [hs] at e2; cases e2; exact s7 h
  | inlined1 e e2 => have := n4.symm.trans e; cases this; rw [hs] at e2; cases e2
  | _ e => have := n4.symm.trans e; cases this

/-- A loop over try/recover ends on every input, though its body can be passed without a token. -/
example : ∃ fuel0, ∀ fuel, fuel0 ≤ fuel → ∀ (E : Env) (N : Nat), (∀ p, N ≤ p → E.inp p = 8) → ∀ s st, ∃ f o st', parse (ctxOf recoverLoop 8) fuel E f s st = some (o, st') ∧ st'.pos ≤ max N st.pos := by
  have hw : Wf (ctxOf recoverLoop 8).W := wf_of_wfB (by decide +kernel)
  have hp : Plain (ctxOf recoverLoop 8).W := plain_of_plainB (by decide +kernel)
  have hE : (ctxOf recoverLoop 8).eofTok = 8 := by decide +kernel
  have := C117_returns_partial hw recoverLoop_returns.2 (fun n o h => by
    have h' : (List.range (ctxOf recoverLoop 8).W.heap.length).all (fun n => match (ctxOf recoverLoop 8).W.node n with | some (.op _) => false | _ => true) = true := by decide +kernel
    have := List.all_eq_true.1 h' n (List.mem_range.2 (List.getElem?_eq_some_iff.1 h).1)
    simp [h] at this) fun r hr => acc_plain hw hp.noInline r (hw.rules r hr).1
  rwa [hE] at this

/-- The function of `list` decides the sample grammar. -/
theorem sample_decides : ∃ fuel0, ∀ fuel, fuel0 ≤ fuel → ∀ ω : List Nat, (∀ t ∈ ω, t ∈ sampleCtx.W.terminals ∧ t ≠ sampleCtx.eofTok) →
    ∃ f o st', parse sampleCtx fuel (onInput sampleCtx.eofTok ω) f 5 {} = some (o, st') ∧ (o = .ok ↔ Der sampleCtx.W 5 ω) := by
  have h1 : computeFirst sampleCtx.W 200 20 = some sampleCtx.F := by simp only [sampleCtx]; exact sample_first
  have h2 : computeFollow sampleCtx.W sampleCtx.F sampleCtx.eofTok 200 20 = some sampleCtx.S := by simp only [sampleCtx]; exact sample_follow
  have h3 : ∀ n l r, sampleCtx.W.node n ≠ some (.tryc l r) := fun n l r h => by
    have : (List.range sampleCtx.W.heap.length).all (fun n => match sampleCtx.W.node n with | some (.tryc _ _) => false | _ => true) = true := by decide +kernel
    have := List.all_eq_true.1 this n (List.mem_range.2 (List.getElem?_eq_some_iff.1 h).1)
    simp [h] at this
  have h4 : Wf sampleCtx.W := sample_wf
  have h5 : Plain sampleCtx.W := sample_plain
  have h6 : OpsOk sampleCtx.W := sample_lead.2
  have h7 : BareOk sampleCtx.W := sample_bare
  have h8 : OpsLoop sampleCtx.W := sample_ll1.2
  exact C117_decides_partial h4 h5 h6 h7 h8 h3 sample_ll1.1 sample_returns h1 h2 sample_eof.1 sample_eof.2.1 sample_eof.2.2

/-! ### Parsers that do not return -/

/-- `s A | B -> s`, with 1 `A`, 2 `B`, 3 `s`, 8 the end. -/
def leftWorld : World := {
  heap := [.zero, .term, .term, .sym, .nonterm 3, .cons 4 1, .alt 5 2, .evolve 6 3, .term],
  parsed := 9, rules := [7], zero := 0, terminals := [1, 2], start := [3], bnf := fun _ => none }

def leftBody : Stmt := (parseFun (ctxOf leftWorld 8) 20 3).getD .skip

theorem left_body : parseFun (ctxOf leftWorld 8) 20 3 = some leftBody := by decide +kernel

/-- With left recursion the parser calls itself for ever, on the sentence `B`. -/
theorem C117_fails_left : Wf leftWorld ∧ Plain leftWorld ∧ computeFirst leftWorld 50 20 = some (ctxOf leftWorld 8).F ∧ computeFollow leftWorld (ctxOf leftWorld 8).F 8 50 20 = some (ctxOf leftWorld 8).S ∧
    Der leftWorld 3 [2] ∧ parseFun (ctxOf leftWorld 8) 20 3 = some leftBody ∧ ∀ f, parse (ctxOf leftWorld 8) 20 (onInput 8 [2]) f 3 {} = none := by
  refine ⟨wf_of_wfB (by decide +kernel), plain_of_plainB (by decide +kernel), by decide +kernel, by decide +kernel,
    .expand rfl (r := 7) (i := 6) (by simp [leftWorld]) rfl (.altR (r := 2) (l := 5) rfl (.term rfl)), left_body, ?_⟩
  have hbody : leftBody = .ite (.toks [2]) (.seq (.code 7) (.seq (.ite (.toks [2]) (.seq (.call 3 0) (.seq (.test 1 0) .lex)) (.ite (.toks [2]) (.seq (.test 2 0) .lex) (.fail 0))) .eof)) (.fail 0) := by
    decide +kernel
  have hE : (ctxOf leftWorld 8).eofTok = 8 := by decide +kernel
  have key : ∀ f (st : State), st.pos = 0 → exec (parseFun (ctxOf leftWorld 8) 20) 8 (onInput 8 [2]) f leftBody st = none := by
    intro f
    induction f using Nat.strongRecOn with
    | ind f ih =>
      intro st hp
      rw [hbody]
      match f, ih with
      | 0, _ => rfl
      | 1, _ => simp [exec, step, Test.eval, hp, onInput]
      | 2, _ => simp [exec, step, Test.eval, hp, onInput, andThen]
      | 3, _ => simp [exec, step, Test.eval, hp, onInput, andThen]
      | 4, _ => simp [exec, step, Test.eval, hp, onInput, andThen]
      | 5, _ => simp [exec, step, Test.eval, hp, onInput, andThen]
      | f + 6, ih =>
        have := ih f (by omega) { st with pos := 0, user := (onInput 8 [2]).act 7 st.user, saved := [], blocks := [] } rfl
        simp only [exec, step, Test.eval, hp, andThen, show (onInput 8 [2]).inp 0 = 2 from rfl, List.mem_singleton, decide_true, if_true, left_body, Option.bind_some, State.enter, this, Option.map_none]
  intro f
  simp only [parse, left_body, hE]
  exact key f _ rfl

/-- `[: code :]* A -> s`, with 1 `A`, 2 `s`, 7 the end. -/
def emptyLoopWorld : World := rewrite {
  heap := [.zero, .term, .sym, .action none, .star 3, .cons 4 1, .evolve 5 2, .term],
  parsed := 0, rules := [6], zero := 0, terminals := [1], start := [2], bnf := fun _ => none } [4]

def emptyLoopBody : Stmt := (parseFun (ctxOf emptyLoopWorld 7) 20 2).getD .skip

theorem emptyLoop_body : parseFun (ctxOf emptyLoopWorld 7) 20 2 = some emptyLoopBody := by decide +kernel

/-- A loop over code alone is `while (true)`: the parser does not return on the sentence `A`. -/
theorem C117_fails_loop : Wf emptyLoopWorld ∧ computeFirst emptyLoopWorld 50 20 = some (ctxOf emptyLoopWorld 7).F ∧
    Der emptyLoopWorld 2 [1] ∧ parseFun (ctxOf emptyLoopWorld 7) 20 2 = some emptyLoopBody ∧ ∀ f, parse (ctxOf emptyLoopWorld 7) 20 (onInput 7 [1]) f 2 {} = none := by
  refine ⟨wf_of_wfB (by decide +kernel), by decide +kernel,
    .expand rfl (r := 6) (i := 5) (by decide +kernel) rfl (.cons (n := 5) (l := 4) (r := 1) (α := []) (β := [1]) rfl (.star0 (i := 3) rfl) (.term rfl)), emptyLoop_body, ?_⟩
  have hbody : emptyLoopBody = .ite (.toks [1]) (.seq (.code 6) (.seq (.seq (.while .always (.code 3)) (.seq (.test 1 0) .lex)) .eof)) (.fail 0) := by decide +kernel
  have key : ∀ f (st : State), exec (parseFun (ctxOf emptyLoopWorld 7) 20) 7 (onInput 7 [1]) f (.while .always (.code 3)) st = none := by
    intro f
    induction f with
    | zero => intro st; rfl
    | succ f ih =>
      intro st
      cases f with
      | zero => rfl
      | succ f =>
        rw [exec]
        simp only [step, Test.eval, if_true]
        rw [show exec (parseFun (ctxOf emptyLoopWorld 7) 20) 7 (onInput 7 [1]) (f + 1) (.code 3) { st with asked := st.asked } = some (.ok, { st with user := (onInput 7 [1]).act 3 st.user }) from rfl]
        exact ih _
  have hE : (ctxOf emptyLoopWorld 7).eofTok = 7 := by decide +kernel
  intro f
  simp only [parse, emptyLoop_body, hE, hbody]
  match f with
  | 0 => rfl
  | 1 => simp [exec, step, Test.eval, State.enter, onInput]
  | 2 => simp [exec, step, Test.eval, State.enter, onInput, andThen]
  | 3 => simp [exec, step, Test.eval, State.enter, onInput, andThen]
  | f + 4 =>
    simp only [exec, step, Test.eval, State.enter, andThen, show (onInput 7 [1]).inp 0 = 1 from rfl, List.mem_singleton, decide_true, if_true]
    rw [key]

/-- `A EOF* -> s`, with 1 `A`, 2 `s`, 3 `EOF`. -/
def eofLoopWorld : World := rewrite {
  heap := [.zero, .term, .sym, .term, .star 3, .cons 1 4, .evolve 5 2],
  parsed := 0, rules := [6], zero := 0, terminals := [1, 3], start := [2], bnf := fun _ => none } [4]

def eofLoopBody : Stmt := (parseFun (ctxOf eofLoopWorld 3) 20 2).getD .skip

theorem eofLoop_body : parseFun (ctxOf eofLoopWorld 3) 20 2 = some eofLoopBody := by decide +kernel

/-- A loop over `EOF` goes on for ever at the end of the input, though there is no left recursion and the body of the loop is not empty. -/
theorem C117_fails_eof : Wf eofLoopWorld ∧ Plain eofLoopWorld ∧ computeFirst eofLoopWorld 50 20 = some (ctxOf eofLoopWorld 3).F ∧
    (∀ s, ¬ Relation.TransGen (Left eofLoopWorld) s s) ∧ ¬ Idle eofLoopWorld 3 ∧
    Der eofLoopWorld 2 [1] ∧ parseFun (ctxOf eofLoopWorld 3) 20 2 = some eofLoopBody ∧ ∀ f, parse (ctxOf eofLoopWorld 3) 20 (onInput 3 [1]) f 2 {} = none := by
  have n1 : eofLoopWorld.node 1 = some .term := by decide +kernel
  have n5 : eofLoopWorld.node 5 = some (.cons 1 4) := by decide +kernel
  have n6 : eofLoopWorld.node 6 = some (.evolve 5 2) := by decide +kernel
  have n3 : eofLoopWorld.node 3 = some .term := by decide +kernel
  refine ⟨wf_of_wfB (by decide +kernel), plain_of_plainB (by decide +kernel), by decide +kernel, fun s h => ?_, fun h => by cases h <;> simp_all,
    .expand rfl (r := 6) (i := 5) (by decide +kernel) rfl (.cons (n := 5) (l := 1) (r := 4) (α := [1]) (β := []) rfl (.term rfl) (.star0 (i := 3) rfl)), eofLoop_body, ?_⟩
  · obtain ⟨t, ⟨r, hr, i, hi, hl⟩, -⟩ := Relation.TransGen.head'_iff.1 h
    have : r = 6 := by simpa using (show r ∈ [6] from hr)
    subst this
    rw [n6] at hi
    cases hi
    cases hl with
    | consL e hl => rw [n5] at e; cases e; cases hl <;> simp_all
    | consR e hi _ => rw [n5] at e; cases e; cases hi <;> simp_all
    | _ e => rw [n5] at e; cases e
  have hbody : eofLoopBody = .ite (.toks [1]) (.seq (.code 6) (.seq (.seq (.seq (.test 1 0) .lex) (.while (.toks [3]) (.seq (.test 3 0) .lex))) .eof)) (.fail 0) := by decide +kernel
  have key : ∀ f (st : State), 1 ≤ st.pos → exec (parseFun (ctxOf eofLoopWorld 3) 20) 3 (onInput 3 [1]) f (.while (.toks [3]) (.seq (.test 3 0) .lex)) st = none := by
    intro f
    induction f with
    | zero => intro st _; rfl
    | succ f ih =>
      intro st hp
      have he : (onInput 3 [1]).inp st.pos = 3 := by simp [onInput, List.getD_eq_getElem?_getD, List.getElem?_eq_none (show [1].length ≤ st.pos by simpa using hp)]
      match f, ih with
      | 0, _ => simp [exec, step, Test.eval, he, andThen]
      | 1, _ => simp [exec, step, Test.eval, he, andThen]
      | f + 2, ih =>
        have := ih { st with pos := st.pos + 1 } (by simp)
        rw [exec]
        simp only [step, Test.eval, he, List.mem_singleton, decide_true, if_true]
        rw [show exec (parseFun (ctxOf eofLoopWorld 3) 20) 3 (onInput 3 [1]) (f + 2) (.seq (.test 3 0) .lex) { st with asked := st.asked } = some (.ok, { st with pos := st.pos + 1 }) by
          simp [exec, step, he, andThen, State.lex]]
        exact this
  have hE : (ctxOf eofLoopWorld 3).eofTok = 3 := by decide +kernel
  intro f
  simp only [parse, eofLoop_body, hE, hbody]
  match f with
  | 0 => rfl
  | 1 => simp [exec, step, Test.eval, State.enter, onInput]
  | 2 => simp [exec, step, Test.eval, State.enter, onInput, andThen]
  | 3 => simp [exec, step, Test.eval, State.enter, onInput, andThen]
  | 4 => simp [exec, step, Test.eval, State.enter, onInput, andThen]
  | 5 => simp [exec, step, Test.eval, State.enter, onInput, andThen]
  | f + 6 =>
    have e1 : ∀ st : State, st.pos = 0 → exec (parseFun (ctxOf eofLoopWorld 3) 20) 3 (onInput 3 [1]) (f + 3) (.seq (.seq (.test 1 0) .lex) (.while (.toks [3]) (.seq (.test 3 0) .lex))) st = none := by
      intro st hp
      rw [exec, step, show exec (parseFun (ctxOf eofLoopWorld 3) 20) 3 (onInput 3 [1]) (f + 2) (.seq (.test 1 0) .lex) st = some (.ok, st.lex) by simp [exec, step, hp, andThen, onInput]]
      exact key (f + 2) st.lex (by simp [State.lex, hp])
    have e2 : ∀ st : State, st.pos = 0 → exec (parseFun (ctxOf eofLoopWorld 3) 20) 3 (onInput 3 [1]) (f + 5)
        (.seq (.code 6) (.seq (.seq (.seq (.test 1 0) .lex) (.while (.toks [3]) (.seq (.test 3 0) .lex))) .eof)) st = none := by
      intro st hp
      rw [exec, step, show exec (parseFun (ctxOf eofLoopWorld 3) 20) 3 (onInput 3 [1]) (f + 4) (.code 6) st = some (.ok, { st with user := (onInput 3 [1]).act 6 st.user }) from rfl]
      simp only [andThen]
      rw [exec, step, e1 { st with user := (onInput 3 [1]).act 6 st.user } hp]
      rfl
    rw [exec]
    simp only [step, Test.eval, State.enter, show (onInput 3 [1]).inp 0 = 1 from rfl, List.mem_singleton, decide_true, if_true]
    exact e2 _ rfl

/-- `s* -> doc`, `A -> s`, `0 -> s`: as `ruleLoop`, but the rule `0 -> s` is tried first. -/
def orderLoop : World := rewrite {
  heap := [.zero, .term, .sym, .sym, .nonterm 2, .star 4, .evolve 5 3, .evolve 0 2, .evolve 1 2, .term],
  parsed := 0, rules := [6, 8, 7], zero := 0, terminals := [1], start := [3], bnf := fun _ => none } [5]

/-- If the empty rule is written last, it is always taken: the loop goes on for ever on the sentence `A`, though with the rules in the other order the parser returns (`ruleLoop_returns`). -/
theorem C117_fails_order : Wf orderLoop ∧ computeFirst orderLoop 50 20 = some (ctxOf orderLoop 9).F ∧ computeFollow orderLoop (ctxOf orderLoop 9).F 9 50 20 = some (ctxOf orderLoop 9).S ∧
    Der orderLoop 3 [1] ∧ ∀ f, parse (ctxOf orderLoop 9) 20 (onInput 9 [1]) f 3 {} = none := by
  have b3 : parseFun (ctxOf orderLoop 9) 20 3 = some (.ite (.or (.toks [1]) (.toks [9])) (.seq (.code 6) (.seq (.while (.toks [1]) (.call 2 0)) .eof)) (.fail 0)) := by decide +kernel
  have b2 : parseFun (ctxOf orderLoop 9) 20 2 = some (.ite (.or .always (.toks [1, 9])) (.seq (.code 7) .skip) (.ite (.toks [1]) (.seq (.code 8) (.seq (.test 1 0) .lex)) (.fail 0))) := by decide +kernel
  refine ⟨wf_of_wfB (by decide +kernel), by decide +kernel, by decide +kernel,
    .expand rfl (r := 6) (i := 5) (by decide +kernel) rfl (.starS (n := 5) (i := 4) (α := [1]) (β := []) rfl
      (.nonterm (n := 4) (s := 2) rfl (.expand rfl (r := 8) (i := 1) (by decide +kernel) rfl (.term rfl))) (.star0 (i := 4) rfl)), ?_⟩
  have hE : (ctxOf orderLoop 9).eofTok = 9 := by decide +kernel
  intro f
  simp only [parse, b3, hE]
  generalize parseFun (ctxOf orderLoop 9) 20 = P at b2
  have call : ∀ f (st : State), st.pos = 0 → exec P 9 (onInput 9 [1]) f (.call 2 0) st = none ∨
      ∃ st', exec P 9 (onInput 9 [1]) f (.call 2 0) st = some (.ok, st') ∧ st'.pos = 0 := by
    intro f st hp
    match f with
    | 0 => exact .inl rfl
    | 1 => exact .inl (by simp [exec, step, b2])
    | 2 => exact .inl (by simp [exec, step, b2])
    | 3 => exact .inl (by simp [exec, step, b2, Test.eval, andThen])
    | f + 4 => exact .inr (by rw [exec]; simp only [step, b2, Option.bind_some]; exact ⟨_, rfl, hp⟩)
  have key : ∀ f (st : State), st.pos = 0 → exec P 9 (onInput 9 [1]) f (.while (.toks [1]) (.call 2 0)) st = none := by
    intro f
    induction f with
    | zero => intro st _; rfl
    | succ f ih =>
      intro st hp
      have h1 : (onInput 9 [1]).inp st.pos = 1 := by rw [hp]; rfl
      rw [exec]
      simp only [step, Test.eval, h1, List.mem_singleton, decide_true, if_true]
      rcases call f { st with asked := st.asked } hp with h | ⟨st', h, h'⟩
      · rw [h]; rfl
      · rw [h]; exact ih st' h'
  match f with
  | 0 => rfl
  | 1 => simp [exec, step, Test.eval, State.enter, onInput]
  | 2 => simp [exec, step, Test.eval, State.enter, onInput, andThen]
  | 3 => simp [exec, step, Test.eval, State.enter, onInput, andThen]
  | f + 4 =>
    simp only [exec, step, Test.eval, State.enter, andThen, show (onInput 9 [1]).inp 0 = 1 from rfl, List.mem_singleton, decide_true, if_true]
    rcases call f { user := (onInput 9 [1]).act 6 0 } rfl with h | ⟨st', h, h'⟩
    · rw [h]
    · rw [h]
      simp only [key f st' h']

end Verif.Gen
