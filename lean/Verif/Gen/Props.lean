import Verif.Gen.Calm
import Verif.Grammar.FollowProps

/-!
# Properties of the generated parser

`parse K fuel E f s st` runs the function generated for symbol `s`; `fuel` bounds the recursion of the code generator, `f` the length
of the run.  The theorems hold for every bound, for all FIRST and FOLLOW sets `K.F`, `K.S`, all operator priorities, all results
of user conditions and all user code.
-/

namespace Verif.Gen

open Verif.Grammar

/-! ### Deciding `Plain` for concrete grammars -/

def isInlinedB (W : World) (n : Nat) : Bool := match W.node n with
  | some (.inlined _) => true
  | _ => false

def opB? (W : World) (n : Nat) : Bool := match W.node n with
  | some (.op _) => true
  | _ => false

def ruleB (W : World) (n m : Nat) : Bool := match W.node n with
  | some (.evolve i _) => i = m
  | _ => false

def plainB (W : World) : Bool :=
  ((List.range W.heap.length).all fun n => !isInlinedB W n && match W.node n with
    | none => true
    | some it => it.parts.all (fun m => !isSymB W m && (!opB? W m || ruleB W n m)) && match it with
      | .op o => o.tern = []
      | _ => true) &&
  W.rules.all fun r => match W.node r with
    | some (.evolve n s) => !opB? W n || W.rules.all fun r' => match W.node r' with
      | some (.evolve i s') => s' != s || i = n
      | _ => true
    | _ => true

theorem plain_of_plainB {W : World} (h : plainB W = true) : Plain W := by
  simp only [plainB, Bool.and_eq_true] at h
  obtain ⟨h1, h2⟩ := h
  have at' : ∀ {n it}, W.node n = some it → isInlinedB W n = false ∧
      (it.parts.all (fun m => !isSymB W m && (!opB? W m || ruleB W n m)) = true) ∧ (∀ o, it = .op o → o.tern = []) := by
    intro n it hn
    have := List.all_eq_true.1 h1 n (List.mem_range.2 (lt_of_node hn))
    rw [hn] at this
    simp only [Bool.and_eq_true, Bool.not_eq_true'] at this
    refine ⟨this.1, this.2.1, ?_⟩
    rintro o rfl
    simpa using this.2.2
  have part : ∀ {n m}, Part W n m → isSymB W m = false ∧ (opB? W m = true → ruleB W n m = true) := by
    intro n m hm
    obtain ⟨it, hn, hm⟩ := part_iff.mp hm
    have := List.all_eq_true.1 (at' hn).2.1 m hm
    simp only [Bool.and_eq_true, Bool.not_eq_true', Bool.or_eq_true] at this
    refine ⟨this.1, fun h => ?_⟩
    rcases this.2 with h' | h'
    · rw [h] at h'; cases h'
    · exact h'
  refine ⟨?_, ?_, ?_, ?_, ?_⟩
  · intro n s hn
    have := (at' hn).1
    simp [isInlinedB, hn] at this
  · intro n m hm hs
    have := (part hm).1
    simp [isSymB, hs] at this
  · intro n m o hm ho
    have := (part hm).2 (by simp [opB?, ho])
    unfold ruleB at this
    split at this
    · next i s e =>
      refine ⟨s, ?_⟩
      simp only [decide_eq_true_eq] at this
      rw [e, this]
    · cases this
  · intro r r' n i s o hr hr' hn ho hn'
    have := List.all_eq_true.1 h2 r hr
    rw [hn] at this
    simp only [opB?, ho, Bool.not_true, Bool.false_or] at this
    have := List.all_eq_true.1 this r' hr'
    rw [hn'] at this
    simpa using this
  · intro n o hn
    exact (at' hn).2.2 o rfl

/-- The surroundings for a list of tokens, then the token `eof` for ever. -/
def onInput (eof : Nat) (l : List Nat) : Env := { inp := fun p => l.getD p eof, oracle := fun _ => true, act := fun n u => u + n }

theorem onInput_sym {W : World} {eof : Nat} {l : List Nat} (h : (eof :: l).all (fun t => !isSymB W t) = true) (p : Nat) :
    W.node ((onInput eof l).inp p) ≠ some .sym := by
  have := List.all_eq_true.1 h ((onInput eof l).inp p) (by
    simp only [onInput, List.getD_eq_getElem?_getD]
    cases hl : l[p]? with
    | none => simp
    | some x => simp [List.mem_of_getElem? hl])
  intro hn
  simp [isSymB, hn] at this

section
variable {K : Ctx} {E : Env} {fuel f s : Nat} {st st' : State} {o : Out}

/-- A successful parse runs the rules of the symbol. -/
theorem parse_runs (h : parse K fuel E f s st = some (o, st')) :
    ∃ b k', genRules K s fuel (rulesOf K.W s) (K.count s) = some (b, k') ∧ exec (parseFun K fuel) K.eofTok E f b st.enter = some (o, st') := by
  unfold parse at h
  split at h
  · cases h
  · next b hb =>
    unfold parseFun at hb
    simp only [Option.map_eq_some_iff] at hb
    obtain ⟨⟨b', k'⟩, hb, rfl⟩ := hb
    exact ⟨b', k', hb, h⟩

/-- C47: if a parse function returns true and no try/recover part was entered, the tokens it consumed are derivable from its symbol.
Missing: inlined non-terminals and ternary operators, where the claim is false (below). -/
theorem C47_accepts_sentences_partial (hw : Wf K.W) (hp : Plain K.W) (hi : ∀ p, K.W.node (E.inp p) ≠ some .sym)
    (h : parse K fuel E f s st = some (.ok, st')) (hr : st'.recovered = st.recovered) :
    st.pos ≤ st'.pos ∧ Der K.W s (consumed E.inp st.pos st'.pos) := by
  obtain ⟨b, k', hb, hx⟩ := parse_runs h
  have := (all_claims (G := fuel) hw hp hi f).2.2.1 _ _ _ _ _ _ _ _ (fun _ h => h) hb ⟨hx, hr⟩
  exact this

/-- C64: while errors are blocked, a parse function without operator expressions below it reports none; it leaves the blocking as it
was, and the position is never before the start.  Missing: operator expressions, which report errors even if they are blocked
(below). -/
theorem C64_blocking_partial (hw : Wf K.W) (hp : Tame K.W) (h : parse K fuel E f s st = some (o, st')) :
    st.pos ≤ st'.pos ∧ st'.blocked = st.blocked ∧ ((∀ n q, K.W.node n ≠ some (.op q)) → st.blocked = true → st'.errors = st.errors) := by
  obtain ⟨b, k', hb, hx⟩ := parse_runs h
  have := (all_calm (G := fuel) (E := E) hw hp f).2.2.1 _ _ _ _ _ _ _ _ _ (fun _ h => h) hb hx
  exact ⟨this.pos, this.blocked, this.errors⟩

variable {G g self n l r c k k' : Nat} {code : Stmt}

/-- C49: the code for `try/rollback(l) catch(r)` runs the code for `l` with errors blocked.  If that ends normally, so does the
whole, and nothing else happens but that the blocking is undone.  Otherwise the code for `r` runs at the position where `l` started, with
the user's state and the blocking of errors as they were then, and determines the outcome. -/
theorem C49_rollback (hw : Wf K.W) (hp : Tame K.W) (hn : K.W.node n = some (.tryc l (some r)))
    (hg : gen K self (g + 1) n c k = some (code, k')) :
    ∃ body handler m, gen K self g l (k + 1) (k + 1) = some (body, m) ∧ gen K self g r c m = some (handler, k') ∧
    ∀ f st o st', exec (parseFun K G) K.eofTok E f code st = some (o, st') →
      ∃ f1 st0 o1 st1, exec (parseFun K G) K.eofTok E f1 body st0 = some (o1, st1) ∧
        (st0.pos = st.pos ∧ st0.user = st.user ∧ st0.blocked = true ∧ st0.errors = st.errors) ∧
        ((o1 = .ok ∧ o = .ok ∧ st' = { st1 with blocked := st.blocked }) ∨
          (o1 ≠ .ok ∧ ∃ f2, exec (parseFun K G) K.eofTok E f2 handler { st1 with pos := st.pos, user := st.user, blocked := st.blocked } = some (o, st'))) := by
  rw [gen, hn] at hg
  simp only [Option.bind_eq_some_iff, Option.map_eq_some_iff, Prod.mk.injEq] at hg
  obtain ⟨⟨b, m⟩, h1, ⟨d, k2⟩, h2, rfl, rfl⟩ := hg
  refine ⟨b, d, m, h1, h2, fun f st o st' hrun => ?_⟩
  obtain ⟨f1, hf, o1, st1, h3, h⟩ := rollback_runs (not_sets_self h1) (gen_exits h1) hrun
  refine ⟨f1, _, o1, st1, h3, ⟨rfl, rfl, rfl, rfl⟩, ?_⟩
  rcases h with h | ⟨e, -, -⟩ | ⟨e, f2, -, h⟩
  · exact .inl h
  · refine absurd e (((all_calm (G := G) hw hp f1).1 _ _ _ _ _ _ _ _ _ _ (fit_part hw hp (by simp [hn]) (.tryL hn)) h1 h3).2 (by omega))
  · exact .inr ⟨by simp [e], f2, h⟩

/-- C63: the code for `try/recover(l)` runs the code for `l`.  If that ends normally, so does the whole, with the same state.  Otherwise
the user's state is restored and tokens are skipped up to the end of the input or a token of the FOLLOW set; at least one token
is skipped if nothing was consumed before the failure and the input is not at its end. -/
theorem C63_recover (hw : Wf K.W) (hp : Tame K.W) (hn : K.W.node n = some (.tryc l none))
    (hg : gen K self (g + 1) n c k = some (code, k')) :
    ∃ body, gen K self g l (k + 1) (k + 1) = some (body, k') ∧
    ∀ f st o st', exec (parseFun K G) K.eofTok E f code st = some (o, st') →
      ∃ f1 st0 o1 st1, exec (parseFun K G) K.eofTok E f1 body st0 = some (o1, st1) ∧
        (st0.pos = st.pos ∧ st0.user = st.user ∧ st0.blocked = st.blocked ∧ st0.errors = st.errors) ∧ o = .ok ∧
        ((o1 = .ok ∧ st' = st1) ∨
          (o1 ≠ .ok ∧ st'.user = st.user ∧ st'.errors = st1.errors ∧ st1.pos ≤ st'.pos ∧
            (E.inp st.pos ≠ K.eofTok → st.pos < st'.pos) ∧
            (E.inp st'.pos = K.eofTok ∨ (n, E.inp st'.pos) ∈ K.S ∧ K.W.node (E.inp st'.pos) = some .term))) := by
  rw [gen, hn] at hg
  simp only [Option.map_eq_some_iff, Prod.mk.injEq] at hg
  obtain ⟨⟨b, m⟩, h1, rfl, rfl⟩ := hg
  refine ⟨b, h1, fun f st o st' hrun => ?_⟩
  obtain ⟨f1, hf, o1, st1, h3, h⟩ := recover_runs (not_sets_self h1) (gen_exits h1) hrun
  have hc := (all_calm (G := G) hw hp f1).1 _ _ _ _ _ _ _ _ _ _ (fit_part hw hp (by simp [hn]) (.tryL hn)) h1 h3
  refine ⟨f1, _, o1, st1, h3, ⟨rfl, rfl, rfl, rfl⟩, ?_⟩
  rcases h with ⟨e1, e2, e3⟩ | ⟨e, -, -⟩ | ⟨e1, e2, e3, h4, h5, h6⟩
  · exact ⟨e2, .inl ⟨e1, e3⟩⟩
  · exact absurd e (hc.2 (by omega))
  · refine ⟨e2, .inr ⟨by simp [e1], by rw [e3], by rw [e3], h4, fun hne => ?_, ?_⟩⟩
    · have := hc.1.pos
      dsimp only at this
      rcases Nat.lt_or_ge st.pos st1.pos with h | h
      · omega
      · exact h6 (by omega) hne
    · rcases h5 with h5 | h5
      · exact .inl h5
      · obtain ⟨h5, h7⟩ := List.mem_filter.mp h5
        refine .inr ⟨mem_of.mp h5, ?_⟩
        simpa [isTerm] using h7

end

/-! ### Examples -/

/-- The code for the sample grammar of Check.lean: a list of expressions separated by commas. -/
def sampleCtx : Ctx := { W := sampleList, F := sampleFirst, S := sampleFollow, eofTok := 24, attr := fun _ _ _ => { prio := 1, left := 1 } }

theorem sample_plain : Plain sampleList := plain_of_plainB (by decide +kernel)

/-- `OPT MINUS ID PLUS ID COMMA ID` is accepted and consumed. -/
theorem sample_run : ∃ st', parse sampleCtx 20 (onInput 24 [1, 4, 2, 21, 2, 3, 2]) 60 5 {} = some (.ok, st') ∧ st'.recovered = 0 ∧ st'.pos = 7 :=
  ⟨{ pos := 7, user := 160 }, by decide +kernel, rfl, rfl⟩

example : Der sampleList 5 [1, 4, 2, 21, 2, 3, 2] := by
  obtain ⟨st', h1, h2, h3⟩ := sample_run
  have := (C47_accepts_sentences_partial (K := sampleCtx) sample_wf sample_plain (onInput_sym (by decide +kernel)) h1 h2).2
  rw [h3] at this
  exact this

/-- `try/rollback(A B) catch(A C) -> x;  try/recover(x D) E -> s`, with 1 to 5 `A` to `E`, 6 `x`, 7 `s`, 16 the end. -/
def tryWorld : World := {
  heap := [.zero, .term, .term, .term, .term, .term, .sym, .sym, .cons 1 2, .cons 1 3, .tryc 8 (some 9), .evolve 10 6,
    .nonterm 6, .cons 12 4, .tryc 13 none, .cons 14 5, .term, .evolve 15 7],
  parsed := 18, rules := [11, 17], zero := 0, terminals := [1, 2, 3, 4, 5], start := [7], bnf := fun _ => none }

def tryFirst : Sets := (computeFirst tryWorld 50 20).getD []
def tryFollow : Sets := (computeFollow tryWorld tryFirst 16 50 20).getD []
def tryCtx : Ctx := { W := tryWorld, F := tryFirst, S := tryFollow, eofTok := 16 }

theorem try_wf : Wf tryWorld := wf_of_wfB (by decide +kernel)
theorem try_plain : Plain tryWorld := plain_of_plainB (by decide +kernel)

def tryCode : Stmt := ((gen tryCtx 6 4 10 0 0).getD (.skip, 0)).1
def recCode : Stmt := ((gen tryCtx 7 6 14 0 0).getD (.skip, 0)).1
theorem try_gen : gen tryCtx 6 (3 + 1) 10 0 0 = some (tryCode, 1) := by decide +kernel
theorem rec_gen : gen tryCtx 7 (5 + 1) 14 0 0 = some (recCode, 1) := by decide +kernel

/-- On `A C` the body `A B` fails after `A`; the catch part starts at `A` again. -/
example : ∃ body handler m, gen tryCtx 6 3 8 1 1 = some (body, m) ∧ gen tryCtx 6 3 9 0 m = some (handler, 1) ∧
    ∃ f1 st0 o1 st1, exec (parseFun tryCtx 20) 16 (onInput 16 [1, 3]) f1 body st0 = some (o1, st1) ∧ o1 ≠ .ok ∧ st1.pos = 1 ∧
      ∃ f2 st', exec (parseFun tryCtx 20) 16 (onInput 16 [1, 3]) f2 handler { st1 with pos := 0, user := 0, blocked := false } = some (.ok, st') ∧ st'.pos = 2 := by
  obtain ⟨b, h, m, h1, h2, h3⟩ := C49_rollback (E := onInput 16 [1, 3]) (G := 20) try_wf try_plain.tame (l := 8) (r := 9) (by decide +kernel) try_gen
  refine ⟨b, h, m, h1, h2, ?_⟩
  obtain ⟨f1, st0, o1, st1, h4, h5, h6⟩ := h3 30 {} .ok { pos := 2, saved := [(1, ⟨0, 0⟩)], blocks := [(1, false)] } (by decide +kernel)
  have hb : gen tryCtx 6 3 8 1 1 = some (.seq (.seq (.test 1 1) .lex) (.seq (.test 2 1) .lex), 1) := by decide +kernel
  rw [hb, Option.some.injEq, Prod.mk.injEq] at h1
  have e0 : o1 = .goto 1 ∧ st1.pos = 1 := by
    rw [← h1.1] at h4
    have := exec_mono (Nat.le_add_left f1 5) h4
    rw [Nat.add_comm] at this
    simp [exec, step, andThen, onInput, h5.1, State.lex, complain, leave] at this
    rw [← this.2]; exact ⟨this.1.symm, by simp⟩
  refine ⟨f1, st0, o1, st1, h4, by simp [e0.1], e0.2, ?_⟩
  rcases h6 with ⟨h6, -, -⟩ | ⟨-, f2, h6⟩
  · rw [e0.1] at h6; cases h6
  · exact ⟨f2, _, h6, rfl⟩

/-- On `C C E` the body `x D` of try/recover fails at once; both `C` are skipped, up to `E` which is in the FOLLOW set. -/
example : exec (parseFun tryCtx 20) 16 (onInput 16 [3, 3, 5]) 30 recCode {} = some (.ok, { pos := 2, recovered := 1, saved := [(1, ⟨0, 0⟩)] }) ∧
    (14, 5) ∈ tryFollow := by decide +kernel

example : ∀ f o st', exec (parseFun tryCtx 20) 16 (onInput 16 [3, 3, 5]) f recCode {} = some (o, st') → o = .ok := by
  intro f o st' h
  obtain ⟨b, h1, h2⟩ := C63_recover (E := onInput 16 [3, 3, 5]) (G := 20) try_wf try_plain.tame (l := 13) (by decide +kernel) rec_gen
  obtain ⟨_, _, _, _, _, _, h3, _⟩ := h2 _ _ _ _ h
  exact h3

/-- Errors are not reported while they are blocked: `A A D E` without and with blocking. -/
example : (parse tryCtx 20 (onInput 16 [1, 1, 4, 5]) 60 7 {}).map (·.2.errors) = some 1 ∧
    (parse tryCtx 20 (onInput 16 [1, 1, 4, 5]) 60 7 { blocked := true }).map (·.2.errors) = some 0 := by decide +kernel

example : ∀ f o st', parse tryCtx 20 (onInput 16 [1, 1, 4, 5]) f 7 { blocked := true } = some (o, st') → st'.errors = 0 := by
  intro f o st' h
  refine (C64_blocking_partial (K := tryCtx) try_wf try_plain.tame h).2.2 ?_ rfl
  intro n q hn
  have := List.mem_of_getElem? hn
  simp [tryCtx, tryWorld] at this

/-! ### Where the claims fail -/

/-- `try/recover`: a failure of a token test or of a choice of the body itself is not reported, and `parseS` returns true.  Here on
`A C C E`, which is not a sentence: tokens are skipped without any report. -/
theorem C63_fails_silent : ∃ st', parse tryCtx 20 (onInput 16 [1, 3, 3, 5]) 60 7 {} = some (.ok, st') ∧ st'.errors = 0 ∧ st'.recovered = 1 ∧ st'.pos = 4 ∧
    ¬ Der tryWorld 7 [1, 3, 3, 5] := by
  refine ⟨{ pos := 4, user := 17, recovered := 1, saved := [(1, ⟨0, 17⟩)] }, by decide +kernel, rfl, rfl, rfl, fun h => ?_⟩
  have hm := mem_of_formsOk (L := fun n => [[[]], [[1]], [[2]], [[3]], [[4]], [[5]], [[6], [1, 2], [1, 3]], [[7], [6, 4, 5], [1, 2, 4, 5], [1, 3, 4, 5]],
    [[1, 2]], [[1, 3]], [[1, 2], [1, 3]], [[1, 2], [1, 3]], [[6], [1, 2], [1, 3]], [[6, 4], [1, 2, 4], [1, 3, 4]], [[6, 4], [1, 2, 4], [1, 3, 4]],
    [[6, 4, 5], [1, 2, 4, 5], [1, 3, 4, 5]], [[16]], [[6, 4, 5], [1, 2, 4, 5], [1, 3, 4, 5]]].getD n []) (by decide +kernel) h
  revert hm
  decide +kernel

/-- `A -> x;  C @x B -> s`, with 1 `A`, 2 `B`, 3 `C`, 6 `s`. -/
def inlWorld : World := {
  heap := [.zero, .term, .term, .term, .sym, .evolve 1 4, .sym, .inlined (some 4), .cons 7 2, .cons 3 8, .evolve 9 6, .term],
  parsed := 12, rules := [5, 10], zero := 0, terminals := [1, 2, 3], start := [6], bnf := fun _ => none }

def inlFirst : Sets := (computeFirst inlWorld 50 20).getD []
def inlFollow : Sets := (computeFollow inlWorld inlFirst 11 50 20).getD []
def inlCtx : Ctx := { W := inlWorld, F := inlFirst, S := inlFollow, eofTok := 11 }

theorem inl_tame : Tame inlWorld := by
  refine ⟨fun n m o _ ho => ?_, fun n s r i hn hr hi => ?_⟩
  · have := List.mem_of_getElem? ho
    simp [inlWorld] at this
  · have hs : s = 4 := by
      have := List.mem_of_getElem? hn
      simpa [inlWorld] using this
    subst hs
    refine ⟨by decide, fun o ho => ?_⟩
    have := List.mem_of_getElem? ho
    simp [inlWorld] at this

/-- The blocking of errors with an inlined symbol: `C C` is refused without a report if errors are blocked. -/
example : (parse inlCtx 20 (onInput 11 [3, 3]) 60 6 {}).map (·.2.errors) = some 1 ∧
    ∀ f o st', parse inlCtx 20 (onInput 11 [3, 3]) f 6 { blocked := true } = some (o, st') → st'.errors = 0 ∧ st'.blocked = true := by
  refine ⟨by decide +kernel, fun f o st' h => ?_⟩
  have := C64_blocking_partial (K := inlCtx) (wf_of_wfB (by decide +kernel)) inl_tame h
  refine ⟨this.2.2 (fun n q hn => ?_) rfl, this.2.1⟩
  have := List.mem_of_getElem? hn
  simp [inlCtx, inlWorld] at this

/-- The code of an inlined rule is `if (condition) { .. }` without an `else`: `C B` is accepted, although `x` is `A`. -/
theorem C47_fails_inlined : Wf inlWorld ∧ computeFirst inlWorld 50 20 = some inlFirst ∧ computeFollow inlWorld inlFirst 11 50 20 = some inlFollow ∧
    (∃ st', parse inlCtx 20 (onInput 11 [3, 2]) 60 6 {} = some (.ok, st') ∧ st'.recovered = 0 ∧ st'.pos = 2) ∧ ¬ Der inlWorld 6 [3, 2] := by
  refine ⟨wf_of_wfB (by decide +kernel), by decide +kernel, by decide +kernel, ⟨{ pos := 2, user := 10 }, by decide +kernel, rfl, rfl⟩, fun h => ?_⟩
  have hm := mem_of_formsOk (L := fun n => [[[]], [[1]], [[2]], [[3]], [[4], [1]], [[1]], [[6], [3, 4, 2], [3, 1, 2]], [[4], [1]], [[4, 2], [1, 2]],
    [[3, 4, 2], [3, 1, 2]], [[3, 4, 2], [3, 1, 2]], [[11]]].getD n []) (by decide +kernel) h
  revert hm
  decide +kernel

/-- `ID -> p;` and `e` with `=` and `? :`, with 1 `ID`, 2 `=`, 3 `?`, 4 `:`, 7 `e`; `? :` binds tighter. -/
def ternWorld : World := rewrite {
  heap := [.zero, .term, .term, .term, .term, .sym, .evolve 1 5, .sym, .nonterm 5, .op { base := 8, bin := [2], tern := [(3, 4)] }, .evolve 9 7, .term]
  parsed := 0
  rules := [6, 10]
  zero := 0
  terminals := [1, 2, 3, 4]
  start := [7]
  bnf := fun _ => none } [9]

def ternFirst : Sets := (computeFirst ternWorld 50 20).getD []
def ternFollow : Sets := (computeFollow ternWorld ternFirst 11 50 20).getD []
def ternCtx : Ctx :=
  { W := ternWorld, F := ternFirst, S := ternFollow, eofTok := 11, attr := fun _ k _ => { prio := if k = .tern then 2 else 1, left := 1 } }

/-- What the parsed items of `ternWorld` are. -/
def ternOk (n : Nat) : Bool := match ternWorld.node n with
  | some .zero => true
  | some .term => true
  | some .sym => true
  | some (.nonterm s) => s = 5
  | some (.evolve i _) => i = 1 || i = 9
  | some (.op o) => o = { base := 8, bin := [2], tern := [(3, 4)] }
  | _ => false

/-- What `e` derives has as many `?` as `:`. -/
theorem tern_balanced {n α} (h : Der ternWorld n α) : n < 12 → n ≠ 3 → n ≠ 4 → α.count 3 = α.count 4 := by
  have at' : ∀ n < 12, ternOk n = true := by decide +kernel
  have hrules : ternWorld.rules = [6, 10] := by decide +kernel
  induction h with
  | zero => intros; rfl
  | @term n hn => intro h1 h2 h3; simp [h2, h3]
  | @sym n hn => intro h1 h2 h3; simp [h2, h3]
  | @expand n r i α hn hr hi hd ih =>
    intro h1 h2 h3
    have hr' : r < 12 := by rw [hrules] at hr; simp at hr; omega
    have := at' r hr'
    simp [ternOk, hi] at this
    exact ih (by omega) (by omega) (by omega)
  | @opTern n o t u α β γ hn hm h1 h2 h3 i1 i2 i3 =>
    intro hl a b
    have i1 := i1 hl a b; have i2 := i2 hl a b; have i3 := i3 hl a b
    have := at' n hl
    simp [ternOk, hn] at this
    simp [this] at hm
    simp [List.count_append, hm.1, hm.2]; omega
  | @opBin n o t α β hn hm h1 h2 i1 i2 =>
    intro hl a b
    have i1 := i1 hl a b; have i2 := i2 hl a b
    have := at' n hl
    simp [ternOk, hn] at this
    simp [this] at hm
    simp [List.count_append, hm]; omega
  | @opBase n o α hn hd ih =>
    intro hl a b
    have := at' n hl
    simp [ternOk, hn] at this
    rw [this] at ih
    exact ih (by simp) (by simp) (by simp)
  | @nonterm n s α hn hd ih =>
    intro hl a b
    have := at' n hl
    simp [ternOk, hn] at this
    exact ih (by omega) (by omega) (by omega)
  | @evolve n i s α hn hd ih =>
    intro hl a b
    have := at' n hl
    simp [ternOk, hn] at this
    exact ih (by omega) (by omega) (by omega)
  | @opPre n o t α hn hm hd ih =>
    intro hl a b
    have := at' n hl
    simp [ternOk, hn] at this
    simp [this] at hm
  | @opPost n o t α hn hm hd ih =>
    intro hl a b
    have := at' n hl
    simp [ternOk, hn] at this
    simp [this] at hm
  | @opParen n o t u α hn hm hd ih =>
    intro hl a b
    have := at' n hl
    simp [ternOk, hn] at this
    simp [this] at hm
  | @inlined n _ _ hn _ _ => intro hl a b; have := at' n hl; simp [ternOk, hn] at this
  | @cons n _ _ _ _ hn _ _ _ _ => intro hl a b; have := at' n hl; simp [ternOk, hn] at this
  | @altL n _ _ _ hn _ _ => intro hl a b; have := at' n hl; simp [ternOk, hn] at this
  | @altR n _ _ _ hn _ _ => intro hl a b; have := at' n hl; simp [ternOk, hn] at this
  | @action0 n hn => intro hl a b; have := at' n hl; simp [ternOk, hn] at this
  | @action n _ _ hn _ _ => intro hl a b; have := at' n hl; simp [ternOk, hn] at this
  | @cond n _ _ hn _ _ => intro hl a b; have := at' n hl; simp [ternOk, hn] at this
  | @annot n _ _ hn _ _ => intro hl a b; have := at' n hl; simp [ternOk, hn] at this
  | @tryL n _ _ _ hn _ _ => intro hl a b; have := at' n hl; simp [ternOk, hn] at this
  | @tryR n _ _ _ hn _ _ => intro hl a b; have := at' n hl; simp [ternOk, hn] at this
  | @plus1 n _ _ hn _ _ => intro hl a b; have := at' n hl; simp [ternOk, hn] at this
  | @plusS n _ _ _ hn _ _ _ _ => intro hl a b; have := at' n hl; simp [ternOk, hn] at this
  | @star0 n _ hn => intro hl a b; have := at' n hl; simp [ternOk, hn] at this
  | @starS n _ _ _ hn _ _ _ _ => intro hl a b; have := at' n hl; simp [ternOk, hn] at this

/-- A ternary operator that does not become the root of the tree built so far is treated like a binary one: `ID = ID ? ID` is
accepted, and the sentence `ID = ID ? ID : ID` is refused. -/
theorem C47_fails_ternary : Wf ternWorld ∧ computeFirst ternWorld 50 20 = some ternFirst ∧ computeFollow ternWorld ternFirst 11 50 20 = some ternFollow ∧
    (∃ st', parse ternCtx 20 (onInput 11 [1, 2, 1, 3, 1]) 60 7 {} = some (.ok, st') ∧ st'.recovered = 0 ∧ st'.pos = 5) ∧
    ¬ Der ternWorld 7 [1, 2, 1, 3, 1] ∧
    (∃ st', parse ternCtx 20 (onInput 11 [1, 2, 1, 3, 1, 4, 1]) 60 7 {} = some (.failed, st')) ∧ Der ternWorld 7 [1, 2, 1, 3, 1, 4, 1] := by
  refine ⟨wf_of_wfB (by decide +kernel), by decide +kernel, by decide +kernel, ⟨{ pos := 5, user := 28 }, by decide +kernel, rfl, rfl⟩, fun h => ?_,
    ⟨{ pos := 5, user := 28 }, by decide +kernel⟩, ?_⟩
  · have := tern_balanced h (by omega) (by omega) (by omega)
    revert this; decide
  · have hb : Der ternWorld 9 [1] := .opBase (o := { base := 8, bin := [2], tern := [(3, 4)] }) (by decide +kernel) (.nonterm (s := 5) (by decide +kernel)
      (.expand (r := 6) (i := 1) (by decide +kernel) (by decide +kernel) (by decide +kernel) (.term (by decide +kernel))))
    exact .expand (r := 10) (i := 9) (by decide +kernel) (by decide +kernel) (by decide +kernel)
      (.opBin (o := { base := 8, bin := [2], tern := [(3, 4)] }) (t := 2) (α := [1]) (β := [1, 3, 1, 4, 1]) (by decide +kernel) (by decide) hb
        (.opTern (o := { base := 8, bin := [2], tern := [(3, 4)] }) (t := 3) (u := 4) (α := [1]) (β := [1]) (γ := [1]) (by decide +kernel) (by decide) hb hb hb))

/-- `ID -> p;`, `e` with prefix `-` and binary `+`, `try/rollback(e B) catch(- X) -> s`, with 2 `-`, 5 `X`, 16 `s`. -/
def noisyWorld : World := rewrite {
  heap := [.zero, .term, .term, .term, .term, .term, .sym, .evolve 1 6, .sym, .nonterm 6, .op { base := 9, pre := [2], bin := [3] }, .evolve 10 8,
    .nonterm 8, .cons 12 4, .cons 2 5, .tryc 13 (some 14), .sym, .evolve 15 16, .term]
  parsed := 0
  rules := [7, 11, 17]
  zero := 0
  terminals := [1, 2, 3, 4, 5]
  start := [16]
  bnf := fun _ => none } [10]

def noisyFirst : Sets := (computeFirst noisyWorld 50 20).getD []
def noisyFollow : Sets := (computeFollow noisyWorld noisyFirst 18 50 20).getD []
def noisyCtx : Ctx := { W := noisyWorld, F := noisyFirst, S := noisyFollow, eofTok := 18 }

/-- An operator expression reports a missing operand even if errors are blocked: on the sentence `- X` the parser succeeds by the catch
part, and an error has been reported. -/
theorem C64_fails_operator : Wf noisyWorld ∧ Plain noisyWorld ∧
    (∃ st', parse noisyCtx 20 (onInput 18 [2, 5]) 60 16 {} = some (.ok, st') ∧ st'.pos = 2 ∧ st'.errors = 1) ∧
    (∃ st', parse noisyCtx 20 (onInput 18 [2, 5]) 60 8 { blocked := true } = some (.failed, st') ∧ st'.errors = 1) := by
  refine ⟨wf_of_wfB (by decide +kernel), plain_of_plainB (by decide +kernel),
    ⟨{ pos := 2, user := 17, errors := 1, saved := [(1, ⟨0, 17⟩)], blocks := [(1, false)] }, by decide +kernel, rfl, rfl⟩,
    ⟨{ pos := 1, user := 11, errors := 1, blocked := true }, by decide +kernel, rfl⟩⟩

end Verif.Gen
