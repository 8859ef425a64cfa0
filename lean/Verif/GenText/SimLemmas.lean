import Verif.GenText.RunLemmas

/-! # The statements of `Gen` and the statements that are read -/

namespace Verif.GenText

open Verif.Grammar
open Verif.Gen (Env Ctx Stmt State Out Test exec step andThen lookup leave complain returned parseFun)
open Spec

/-- A state of `Gen` and a state of the parser. -/
structure Rel (o : Opts) (st : State) (σ : CState) : Prop where
  pos : σ.pos = st.pos
  asked : σ.asked = st.asked
  blocked : σ.blocked = st.blocked
  errors : σ.errors = st.errors
  user : σ.user = st.user
  /-- without try blocks nothing is blocked -/
  mgmt : o.mgmt = false → st.blocked = false
  saved : ∀ i v, lookup i st.saved = some v → σ.token i = some v.pos ∧ σ.state i = some v.user
  block : ∀ i b, lookup i st.blocks = some b → σ.block i = some b

def outOf : Out → Res
  | .ok => .ok
  | .failed => .ret false
  | .goto i => .jump i

theorem outOf_ok {out : Out} (h : outOf out = .ok) : out = .ok := by
  cases out with
  | ok => rfl
  | _ => cases h

theorem outOf_jump {out : Out} {i} (h : outOf out = .jump i) : out = .goto i := by
  cases out with
  | goto j => cases h; rfl
  | _ => cases h

/-- Variables stay set. -/
theorem run_keeps {E F X} {g st r st'} (h : Run E F X g st r st') : ∀ i, (st.state i).isSome → (st'.state i).isSome := by
  induction h with
  | simple h =>
    intro i hi
    cases h with
    | saveState =>
      show (Spec.set _ _ _ i).isSome = true
      unfold Spec.set
      split
      · rfl
      · exact hi
    | _ => exact hi
  | fails _ ih => exact ih
  | andStop _ ih => exact ih
  | andGo _ _ ih ih' => exact fun i h => ih' i (ih i h)
  | orStop _ ih => exact ih
  | orGo _ _ ih ih' => exact fun i h => ih' i (ih i h)
  | label _ ih => exact ih
  | labelHere _ ih => exact ih
  | labelIn _ _ ih => exact ih
  | seqGo _ _ _ ih ih' => exact fun i h => ih' i (ih i h)
  | seqStop _ _ _ _ ih => exact ih
  | seqJump _ _ _ _ ih ih' => exact fun i h => ih' i (ih i h)
  | seqIn _ _ ih => exact ih
  | «then» _ _ ih ih' => exact fun i h => ih' i (ih i h)
  | «else» _ _ ih ih' => exact fun i h => ih' i (ih i h)
  | thenIn _ _ ih => exact ih
  | elseIn _ _ ih => exact ih
  | whileEnd _ ih => exact ih
  | whileGo _ _ _ ih ih' ih'' => exact fun i h => ih'' i (ih' i (ih i h))
  | whileStop _ _ _ ih ih' => exact fun i h => ih' i (ih i h)
  | whileIn _ _ ih ih' => exact fun i h => ih' i (ih i h)
  | whileInStop _ _ ih => exact ih
  | doGo _ _ _ ih ih' ih'' => exact fun i h => ih'' i (ih' i (ih i h))
  | doEnd _ _ ih ih' => exact fun i h => ih' i (ih i h)
  | doStop _ _ ih => exact ih
  | _ => exact fun _ h => h

section
variable {E : Env} {F : Nat → Option Tree} {X : Nat → CState → Bool → CState → Prop} {o : Opts} {P : Nat → Option Stmt} {eofTok : Nat} {N : Nat}

/-- Up to fuel `N`, what `exec` does the statements that are read do; `c` is the only label to which it may jump. -/
def Sim (E : Env) (F : Nat → Option Tree) (X : Nat → CState → Bool → CState → Prop) (o : Opts) (P : Nat → Option Stmt) (eofTok N c : Nat) (s : Stmt) (l : List Tree) : Prop :=
  ∀ f, f ≤ N → ∀ st σ out st', Rel o st σ → exec P eofTok E f s st = some (out, st') →
    (∀ i, out = .goto i → i = c ∧ c ≠ 0) ∧ ∃ σ', Run E F X (.stmt none (body l)) σ (outOf out) σ' ∧ Rel o st' σ'

/-- Calls of functions do with fuel `f` what `exec` does. -/
def CallOk (E : Env) (F : Nat → Option Tree) (X : Nat → CState → Bool → CState → Prop) (o : Opts) (P : Nat → Option Stmt) (eofTok f : Nat) : Prop :=
  ∀ s b st σ out st', P s = some b → Rel o st σ → exec P eofTok E f b st.enter = some (out, st') → ∃ σ', Run E F X (.call s) σ (.val (out = .ok)) σ' ∧ Rel o (st'.back st) σ'

/-- A condition that is read has the value of `Gen`. -/
def CondOk (E : Env) (F : Nat → Option Tree) (X : Nat → CState → Bool → CState → Prop) (t : Test) (e : Tree) : Prop :=
  ∀ σ : CState, Run E F X (.cond e) σ (.val (t.eval E σ.pos σ.asked).1) { σ with asked := (t.eval E σ.pos σ.asked).2 }

/-- The handling of an error. -/
def Complain (E : Env) (F : Nat → Option Tree) (X : Nat → CState → Bool → CState → Prop) (o : Opts) (c : Nat) (t : Tree) : Prop :=
  ∀ st σ, Rel o st σ → ∃ σ', Run E F X (.stmt none t) σ (outOf (leave c)) σ' ∧ Rel o (complain c st).2 σ'

theorem leave_goto {c i : Nat} (h : leave c = .goto i) : i = c ∧ c ≠ 0 := by
  unfold leave at h
  split at h
  · cases h
  · next hc => cases h; exact ⟨rfl, hc⟩

theorem Sim.skip {c} : Sim E F X o P eofTok N c .skip [] := by
  intro f _ st σ out st' R h
  cases f with
  | zero => cases h
  | succ f =>
    cases h
    exact ⟨nofun, σ, .skip, R⟩

theorem Sim.seq {c a b l l'} (ha : Sim E F X o P eofTok N c a l) (hb : Sim E F X o P eofTok N c b l') (hl : c ≠ 0 → l'.any (has c) = false) : Sim E F X o P eofTok N c (.seq a b) (l ++ l') := by
  intro f hf st σ out st' R h
  cases f with
  | zero => cases h
  | succ f =>
    change andThen (exec P eofTok E f a st) (exec P eofTok E f b) = some (out, st') at h
    cases e : exec P eofTok E f a st with
    | none => rw [e] at h; cases h
    | some x =>
      obtain ⟨oa, sa⟩ := x
      obtain ⟨h1, σ1, r1, R1⟩ := ha f (by omega) st σ oa sa R e
      rw [e] at h
      cases oa with
      | ok =>
        obtain ⟨h2, σ2, r2, R2⟩ := hb f (by omega) sa σ1 out st' R1 h
        exact ⟨h2, σ2, run_append r1 r2, R2⟩
      | failed =>
        cases h
        exact ⟨nofun, σ1, run_stop r1 (by simp [outOf]) (by simp [outOf]), R1⟩
      | goto i =>
        cases h
        refine ⟨h1, σ1, run_stop r1 (by simp [outOf]) fun j hj => ?_, R1⟩
        obtain ⟨rfl, hc⟩ := h1 i rfl
        cases hj
        exact hl hc

/-- Silent statements before and behind. -/
theorem Sim.before {c s l e} (h : Sim E F X o P eofTok N c s l) (he : Silent e) : Sim E F X o P eofTok N c s (.simple e :: l) := by
  intro f hf st σ out st' R h'
  obtain ⟨h1, σ1, r1, R1⟩ := h f hf st σ out st' R h'
  exact ⟨h1, σ1, .seqGo rfl (.simple (.silent he)) r1, R1⟩

theorem Sim.behind {c s l e} (h : Sim E F X o P eofTok N c s l) (he : Silent e) : Sim E F X o P eofTok N c s (l ++ [.simple e]) := by
  intro f hf st σ out st' R h'
  obtain ⟨h1, σ1, r1, R1⟩ := h f hf st σ out st' R h'
  refine ⟨h1, σ1, ?_, R1⟩
  cases out with
  | ok => exact run_append r1 (run_one (.simple (.silent he)))
  | failed => exact run_stop r1 (by simp [outOf]) (by simp [outOf])
  | goto i => exact run_stop r1 (by simp [outOf]) fun _ _ => rfl

theorem Sim.silent {c s l} {es : List Toks} (h : Sim E F X o P eofTok N c s l) (he : ∀ e ∈ es, Silent e) : Sim E F X o P eofTok N c s (es.map .simple ++ l) := by
  induction es with
  | nil => exact h
  | cons e es ih => exact (ih fun x hx => he x (.tail _ hx)).before (he e (.head _))

/-- A statement of `Gen` that always ends normally. -/
theorem Sim.of {c s t} (h : ∀ f st σ out st', Rel o st σ → step P eofTok E (exec P eofTok E f) s st = some (out, st') → out = .ok ∧ ∃ σ', Run E F X (.stmt none t) σ .ok σ' ∧ Rel o st' σ') :
    Sim E F X o P eofTok N c s [t] := by
  intro f hf st σ out st' R h'
  cases f with
  | zero => cases h'
  | succ f =>
    obtain ⟨rfl, σ', r, R'⟩ := h f st σ out st' R h'
    exact ⟨nofun, σ', run_one r, R'⟩

theorem Sim.lex {c} : Sim E F X o P eofTok N c .lex [.simple [.w .yylex, .lp, .rp]] := Sim.of fun f st σ out st' R h => by
  cases h
  exact ⟨rfl, _, .simple .lex, { R with pos := congrArg (· + 1) R.pos }⟩

theorem Sim.code {c n} : Sim E F X o P eofTok N c (.code n) [.code n] := Sim.of fun f st σ out st' R h => by
  cases h
  exact ⟨rfl, _, .code, { R with user := congrArg (E.act n) R.user }⟩

theorem Sim.test {c n t} (ht : Complain E F X o c t) : Sim E F X o P eofTok N c (.test n c) [.ite (.isNot n) t .skip] := by
  intro f hf st σ out st' R h
  cases f with
  | zero => cases h
  | succ f =>
    have hi : Run E F X (.cond (.isNot n)) σ (.val (E.inp σ.pos ≠ n)) σ := .isNot
    rw [R.pos] at hi
    simp only [exec, step] at h
    split at h
    · next e =>
      cases h
      rw [e] at hi
      exact ⟨nofun, σ, run_one (.else (by simpa using hi) .skip), R⟩
    · next e =>
      obtain ⟨σ', r, R'⟩ := ht st σ R
      obtain ⟨rfl, rfl⟩ := Prod.mk.inj (Option.some.inj h)
      exact ⟨fun i h => leave_goto h, σ', run_one (.then (by simpa [e] using hi) r), R'⟩

theorem Sim.eof {c} : Sim E F X o P eofTok N c .eof [.ite (.isNot eofTok) (body [.ret false]) .skip] := by
  intro f hf st σ out st' R h
  cases f with
  | zero => cases h
  | succ f =>
    have hi : Run E F X (.cond (.isNot eofTok)) σ (.val (E.inp σ.pos ≠ eofTok)) σ := .isNot
    rw [R.pos] at hi
    simp only [exec, step] at h
    split at h
    · next e =>
      cases h
      rw [e] at hi
      exact ⟨nofun, σ, run_one (.else (by simpa using hi) .skip), R⟩
    · next e =>
      cases h
      exact ⟨nofun, σ, run_one (.then (by simpa [e] using hi) (run_one .ret)), R⟩

theorem Sim.fail {c t} (ht : ∀ σ, Run E F X (.stmt none t) σ (outOf (leave c)) σ) : Sim E F X o P eofTok N c (.fail c) [t] := by
  intro f hf st σ out st' R h
  cases f with
  | zero => cases h
  | succ f =>
    cases h
    exact ⟨fun i h => leave_goto h, σ, run_one (ht σ), R⟩

theorem Rel.enter {st σ} (R : Rel o st σ) : Rel o st.enter σ.enter := { R with saved := nofun, block := nofun }

theorem Rel.back {st σ st' σ'} (R : Rel o st σ) (R' : Rel o st' σ') : Rel o (st'.back st) (σ'.back σ) := { R' with saved := R.saved, block := R.block }

theorem Sim.call {c s t} (hc : ∀ f, f < N → CallOk E F X o P eofTok f) (ht : Complain E F X o c t) : Sim E F X o P eofTok N c (.call s c) [.ite (.fails s) t .skip] := by
  intro f hf st σ out st' R h
  cases f with
  | zero => cases h
  | succ f =>
    simp only [exec, step, Option.bind_eq_some_iff, Option.map_eq_some_iff] at h
    obtain ⟨b, hb, ⟨ob, sb⟩, h1, h2⟩ := h
    obtain ⟨σ', r, R'⟩ := hc f (by omega) s b st σ ob sb hb R h1
    have hr := Run.fails r
    cases ob with
    | ok =>
      cases h2
      exact ⟨nofun, σ', run_one (.else (by simpa using hr) .skip), R'⟩
    | _ =>
      obtain ⟨σ2, r2, R2⟩ := ht _ σ' R'
      obtain ⟨rfl, rfl⟩ := Prod.mk.inj h2
      exact ⟨fun i h => leave_goto h, σ2, run_one (.then (by simpa using hr) r2), R2⟩

theorem CondOk.run {t e} (h : CondOk E F X t e) {st σ} (R : Rel o st σ) :
    Run E F X (.cond e) σ (.val (t.eval E st.pos st.asked).1) { σ with asked := (t.eval E st.pos st.asked).2 } ∧ Rel o { st with asked := (t.eval E st.pos st.asked).2 } { σ with asked := (t.eval E st.pos st.asked).2 } := by
  refine ⟨?_, { R with asked := rfl }⟩
  rw [← R.pos, ← R.asked]
  exact h σ

theorem Sim.ite {c t e a b l tb} (he : CondOk E F X t e) (ha : Sim E F X o P eofTok N c a l) (hb : Sim E F X o P eofTok N c b [tb]) : Sim E F X o P eofTok N c (.ite t a b) [.ite e (body l) tb] := by
  intro f hf st σ out st' R h
  cases f with
  | zero => cases h
  | succ f =>
    obtain ⟨hr, R1⟩ := he.run R
    simp only [exec, step] at h
    split at h
    · next hv =>
      rw [hv] at hr
      obtain ⟨h1, σ1, r1, R2⟩ := ha f (by omega) _ _ out st' R1 h
      exact ⟨h1, σ1, run_one (.then hr r1), R2⟩
    · next hv =>
      rw [Bool.eq_false_iff.2 hv] at hr
      obtain ⟨h1, σ1, r1, R2⟩ := hb f (by omega) _ _ out st' R1 h
      exact ⟨h1, σ1, run_one (.else hr (run_body_one r1).1), R2⟩

theorem Sim.one_skip {c} : Sim E F X o P eofTok N c .skip [.skip] := Sim.of fun f st σ out st' R h => by
  cases h
  exact ⟨rfl, σ, .skip, R⟩

theorem Sim.while {c t e b l} (he : CondOk E F X t e) (hb : Sim E F X o P eofTok N c b l) : Sim E F X o P eofTok N c (.while t b) [.while e (body l)] := by
  intro f
  induction f with
  | zero => intro _ st σ out st' R h; cases h
  | succ f ih =>
    intro hf st σ out st' R h
    obtain ⟨hr, R1⟩ := he.run R
    simp only [exec, step] at h
    split at h
    · next hv =>
      rw [hv] at hr
      cases eb : exec P eofTok E f b { st with asked := (t.eval E st.pos st.asked).2 } with
      | none => rw [eb] at h; cases h
      | some x =>
        obtain ⟨ob, sb⟩ := x
        rw [eb] at h
        obtain ⟨h1, σ1, r1, R2⟩ := hb f (by omega) _ _ ob sb R1 eb
        cases ob with
        | ok =>
          obtain ⟨h2, σ2, r2, R3⟩ := ih (by omega) sb σ1 out st' R2 h
          exact ⟨h2, σ2, run_one (.whileGo hr r1 (run_body_one r2).1), R3⟩
        | failed => cases h; exact ⟨nofun, σ1, run_one (.whileStop hr r1 (by simp [outOf])), R2⟩
        | goto i => cases h; exact ⟨h1, σ1, run_one (.whileStop hr r1 (by simp [outOf])), R2⟩
    · next hv =>
      rw [Bool.eq_false_iff.2 hv] at hr
      cases h
      exact ⟨nofun, _, run_one (.whileEnd hr), R1⟩

theorem Sim.doWhile {c t e b l} (he : CondOk E F X t e) (hb : Sim E F X o P eofTok N c b l) : Sim E F X o P eofTok N c (.doWhile b t) [.doWhile (body l) e] := by
  intro f
  induction f with
  | zero => intro _ st σ out st' R h; cases h
  | succ f ih =>
    intro hf st σ out st' R h
    simp only [exec, step] at h
    cases eb : exec P eofTok E f b st with
    | none => rw [eb] at h; cases h
    | some x =>
      obtain ⟨ob, sb⟩ := x
      rw [eb] at h
      obtain ⟨h1, σ1, r1, R2⟩ := hb f (by omega) _ _ ob sb R eb
      cases ob with
      | failed => cases h; exact ⟨nofun, σ1, run_one (.doStop r1 (by simp [outOf])), R2⟩
      | goto i => cases h; exact ⟨h1, σ1, run_one (.doStop r1 (by simp [outOf])), R2⟩
      | ok =>
        obtain ⟨hr, R1⟩ := he.run R2
        simp only [andThen] at h
        split at h
        · next hv =>
          rw [hv] at hr
          obtain ⟨h2, σ2, r2, R3⟩ := ih (by omega) _ _ out st' R1 h
          exact ⟨h2, σ2, run_one (.doGo r1 hr (run_body_one r2).1), R3⟩
        · next hv =>
          rw [Bool.eq_false_iff.2 hv] at hr
          cases h
          exact ⟨nofun, _, run_one (.doEnd r1 hr), R1⟩

/-! ### Try blocks -/

theorem lookup_cons {α : Type} {i j : Nat} {a : α} {l : List (Nat × α)} : lookup j ((i, a) :: l) = if i = j then some a else lookup j l := by
  unfold lookup
  rw [List.find?_cons]
  by_cases h : i = j <;> simp [h]

theorem set_eq {α : Type} {g : Nat → Option α} {i j : Nat} {a : α} : Spec.set g i a j = if i = j then some a else g j := by
  unfold Spec.set
  by_cases h : j = i
  · rw [if_pos h, if_pos h.symm]
  · rw [if_neg h, if_neg (Ne.symm h)]

def saveTok (i : Nat) : Tree := .simple (.w .qint64 :: .num .try_startToken_ i :: .w .«=» :: here)
def saveState (i : Nat) : Tree := .simple [.w .ParserState, .w .«*», .num .try_startState_ i, .w .«=», .w .copyCurrentState, .lp, .rp]
def blockTree (i : Nat) : Tree := .simple [.w .bool, .num .blockErrors_ i, .w .«=», .w .blockErrors, .lp, .w .true, .rp]
def unblockTree (i : Nat) : Tree := .simple [.w .blockErrors, .lp, .num .blockErrors_ i, .rp]
def rewindTree (i : Nat) : Tree := .simple [.w .rewind, .lp, .num .try_startToken_ i, .rp]
def delTree (i : Nat) : Tree := .simple [.w .delete, .num .try_startState_ i]
def restoreTree (i : Nat) : Tree := .ite (.state i) (body [.simple [.w .restoreState, .lp, .num .try_startState_ i, .rp], delTree i]) .skip
def stepTree (eof i : Nat) : Tree := .ite (.and (.same i) (.isNot eof)) (.simple [.w .yylex, .lp, .rp]) .skip

theorem Sim.block {c i} (hm : o.mgmt = true) : Sim E F X o P eofTok N c (.block i) [blockTree i] := Sim.of fun f st σ out st' R h => by
  cases h
  refine ⟨rfl, _, .simple .block, { R with blocked := rfl, mgmt := fun h => absurd (hm.symm.trans h) (by simp), block := fun j b hj => ?_ }⟩
  rw [lookup_cons] at hj
  show Spec.set _ _ _ j = _
  rw [set_eq]
  split at hj
  · next e => rw [if_pos e, R.blocked]; exact hj
  · next e => rw [if_neg e]; exact R.block j b hj

theorem Sim.unblock {c i} (hm : o.mgmt = true) : Sim E F X o P eofTok N c (.unblock i) [unblockTree i] := Sim.of fun f st σ out st' R h => by
  simp only [step, Option.map_eq_some_iff, Prod.mk.injEq] at h
  obtain ⟨b, hb, rfl, rfl⟩ := h
  exact ⟨rfl, _, .simple (.unblock (R.block i b hb)), { R with blocked := rfl, mgmt := fun h => absurd (hm.symm.trans h) (by simp) }⟩

theorem Sim.rewind {c i} : Sim E F X o P eofTok N c (.rewind i) [rewindTree i] := Sim.of fun f st σ out st' R h => by
  simp only [step, Option.map_eq_some_iff, Prod.mk.injEq] at h
  obtain ⟨v, hv, rfl, rfl⟩ := h
  exact ⟨rfl, _, .simple (.rewind (R.saved i v hv).1), { R with pos := rfl }⟩

theorem Sim.restore {c i} : Sim E F X o P eofTok N c (.restore i) [restoreTree i] := Sim.of fun f st σ out st' R h => by
  simp only [step, Option.map_eq_some_iff, Prod.mk.injEq] at h
  obtain ⟨v, hv, rfl, rfl⟩ := h
  refine ⟨rfl, { σ with user := v.user }, .then (.state (R.saved i v hv).2) (.seqGo rfl (.simple (.restore (R.saved i v hv).2)) (run_one (.simple (.silent .delete)))), { R with user := rfl }⟩

theorem Sim.step {c i} : Sim E F X o P eofTok N c (.step i) [stepTree eofTok i] := Sim.of fun f st σ out st' R h => by
  simp only [Gen.step, Option.map_eq_some_iff, Prod.mk.injEq] at h
  obtain ⟨v, hv, rfl, rfl⟩ := h
  refine ⟨rfl, ?_⟩
  have hs : Run E F X (.cond (.same i)) σ (.val (v.pos = σ.pos)) σ := .same (R.saved i v hv).1
  have hi : Run E F X (.cond (.isNot eofTok)) σ (.val (E.inp σ.pos ≠ eofTok)) σ := .isNot
  rw [R.pos] at hs hi
  by_cases h1 : v.pos = st.pos
  · rw [decide_eq_true h1] at hs
    by_cases h2 : E.inp st.pos = eofTok
    · rw [if_neg (by simp [h2])]
      exact ⟨σ, .else (.andGo hs (by simpa [h2] using hi)) .skip, { R with }⟩
    · rw [if_pos ⟨h1, h2⟩]
      exact ⟨_, .then (.andGo hs (by simpa [h2] using hi)) (.simple .lex), { R with pos := congrArg (· + 1) R.pos }⟩
  · rw [decide_eq_false h1] at hs
    rw [if_neg (by simp [h1])]
    exact ⟨σ, .else (.andStop hs) .skip, { R with }⟩

/-- `yytoken != Token_A && ..` -/
def andTree : Nat → List Nat → Tree
  | n, [] => .isNot n
  | n, m :: ms => .and (.isNot n) (andTree m ms)

theorem run_and {σ : CState} : ∀ {n : Nat} {ms : List Nat}, Run E F X (.cond (andTree n ms)) σ (.val (decide (E.inp σ.pos ∉ n :: ms))) σ
  | n, [] => by
    have : Run E F X (.cond (.isNot n)) σ (.val (E.inp σ.pos ≠ n)) σ := .isNot
    rw [show decide (E.inp σ.pos ∉ [n]) = decide (E.inp σ.pos ≠ n) by simp]
    exact this
  | n, m :: ms => by
    have h : Run E F X (.cond (.isNot n)) σ (.val (E.inp σ.pos ≠ n)) σ := .isNot
    have h' := run_and (σ := σ) (n := m) (ms := ms)
    by_cases e : E.inp σ.pos = n
    · rw [show decide (E.inp σ.pos ∉ n :: m :: ms) = false by simp [e]]
      exact .andStop (by simpa [e] using h)
    · refine .andGo (by simpa [e] using h) ?_
      rw [show decide (E.inp σ.pos ∉ n :: m :: ms) = decide (E.inp σ.pos ∉ m :: ms) by simp [e]]
      exact h'

def skipTree (eof : Nat) (ts : List Nat) : Tree := .while (andTree eof ts) (body [.simple [.w .yylex, .lp, .rp]])

theorem Sim.skipTo {c ts ts'} (ht : ∀ x, x ∈ ts' ↔ x ∈ ts) : Sim E F X o P eofTok N c (.skipTo ts) [skipTree eofTok ts'] := by
  intro f
  induction f with
  | zero => intro _ st σ out st' R h; cases h
  | succ f ih =>
    intro hf st σ out st' R h
    have hr := run_and (E := E) (F := F) (X := X) (σ := σ) (n := eofTok) (ms := ts')
    rw [R.pos] at hr
    simp only [exec, Gen.step] at h
    split at h
    · next e =>
      cases h
      refine ⟨nofun, σ, run_one (.whileEnd ?_), R⟩
      rwa [show decide (E.inp st.pos ∉ eofTok :: ts') = false by rcases e with e | e <;> simp [ht, e]] at hr
    · next e =>
      obtain ⟨h1, σ1, r1, R1⟩ := ih (by omega) st.lex { σ with pos := σ.pos + 1 } out st' { R with pos := congrArg (· + 1) R.pos } h
      refine ⟨h1, σ1, run_one (.whileGo ?_ (run_one (.simple .lex)) (run_body_one r1).1), R1⟩
      rwa [show decide (E.inp st.pos ∉ eofTok :: ts') = true by simpa [ht] using e] at hr

/-- The statements of a try block: `h` is the handler, `a` what is done after the body. -/
def tryTrees (i : Nat) (l a : List Tree) (t : Tree) (h : List Tree) : List Tree :=
  saveTok i :: saveState i :: body l :: (a ++ [.ite (.state i) (delTree i) .skip, .ite (.const false) (body (.label i t :: h)) .skip])

/-- A series entered at its first statement. -/
theorem run_label {i t l σ r σ'} (h : Run E F X (.stmt none (body (t :: l))) σ r σ') : Run E F X (.stmt (some i) (body (.label i t :: l))) σ r σ' := by
  have he : enters (some i) (.label i t) = true := by simp [enters, has]
  cases h with
  | seqGo _ h1 h2 => exact .seqGo he (.labelHere h1) h2
  | seqStop _ h1 hr hj => exact .seqStop he (.labelHere h1) hr hj
  | seqJump _ h1 hi h2 => exact .seqJump he (.labelHere h1) hi h2

theorem Sim.tryc {c i b l s la t lh hd} (hb : Sim E F X o P eofTok N i b l) (ha : ∀ c, Sim E F X o P eofTok N c s la) (hh : Sim E F X o P eofTok N c hd (t :: lh))
    (hla : ∀ j, la.any (has j) = false) (hout : ∀ f st x, exec P eofTok E f s st = some x → x.1 = .ok) : Sim E F X o P eofTok N c (.seq (.save i) (.tryc i b s hd)) (tryTrees i l la t lh) := by
  intro f hf st σ out st' R h
  cases f with
  | zero => cases h
  | succ f =>
    change andThen (exec P eofTok E f (.save i) st) (exec P eofTok E f (.tryc i b s hd)) = some (out, st') at h
    cases f with
    | zero => cases h
    | succ f =>
      simp only [exec, Gen.step, andThen, Option.bind_eq_some_iff] at h
      obtain ⟨⟨ob, sb⟩, h1, h2⟩ := h
      let σ0 : CState := { σ with token := Spec.set σ.token i σ.pos, state := Spec.set σ.state i σ.user }
      have R0 : Rel o { st with saved := (i, ⟨st.pos, st.user⟩) :: st.saved } σ0 := by
        refine { R with saved := fun j v hj => ?_ }
        rw [lookup_cons] at hj
        show Spec.set _ _ _ j = _ ∧ Spec.set _ _ _ j = _
        rw [set_eq, set_eq]
        split at hj
        · next e =>
          cases hj
          rw [if_pos e, if_pos e, R.pos, R.user]
          exact ⟨rfl, rfl⟩
        · next e =>
          rw [if_neg e, if_neg e]
          exact R.saved j v hj
      have hset : (σ0.state i).isSome := by
        show (Spec.set _ _ _ i).isSome = true
        rw [set_eq, if_pos rfl]
        rfl
      obtain ⟨e1, σ1, r1, R1⟩ := hb f (by omega) _ σ0 ob sb R0 h1
      have start : ∀ {r σ'}, Run E F X (.stmt none (body (body l :: (la ++ [.ite (.state i) (delTree i) .skip, .ite (.const false) (body (.label i t :: lh)) .skip])))) σ0 r σ' →
          Run E F X (.stmt none (body (tryTrees i l la t lh))) σ r σ' := fun h =>
        .seqGo rfl (.simple .saveToken) (.seqGo rfl (.simple .saveState) h)
      cases ob with
      | failed =>
        cases h2
        exact ⟨nofun, σ1, start (.seqStop rfl r1 (by simp [outOf]) (by simp [outOf])), R1⟩
      | ok =>
        obtain ⟨-, σ2, r2, R2⟩ := ha c f (by omega) sb σ1 out st' R1 h2
        cases hout f sb _ h2
        refine ⟨nofun, σ2, start (.seqGo rfl r1 (run_append r2 ?_)), R2⟩
        have hs := run_keeps r2 i (run_keeps r1 i hset)
        obtain ⟨u, hu⟩ := Option.isSome_iff_exists.1 hs
        exact .seqGo rfl (.then (.state hu) (.simple (.silent .delete))) (run_one (.else .const .skip))
      | goto j =>
        obtain ⟨rfl, -⟩ := e1 j rfl
        dsimp only at h2
        rw [if_pos rfl] at h2
        obtain ⟨h3, σ2, r2, R2⟩ := hh f (by omega) sb σ1 out st' R1 h2
        have hin : has j (.ite (.const false) (body (.label j t :: lh)) .skip) = true := by simp [has, body]
        have hlast : Run E F X (.stmt (some j) (body [.ite (.const false) (body (.label j t :: lh)) .skip])) σ1 (outOf out) σ2 := by
          have h4 : Run E F X (.stmt (some j) (.ite (.const false) (body (.label j t :: lh)) .skip)) σ1 (outOf out) σ2 := .thenIn (by simp [has, body]) (run_label r2)
          cases out with
          | ok => exact .seqGo hin h4 .skip
          | _ => exact .seqStop hin h4 (by simp [outOf]) fun _ _ => rfl
        have hrest : ∀ {k : List Tree}, (∀ i, k.any (has i) = false) →
            Run E F X (.stmt (some j) (body (k ++ [.ite (.state j) (delTree j) .skip, .ite (.const false) (body (.label j t :: lh)) .skip]))) σ1 (outOf out) σ2 := by
          intro k
          induction k with
          | nil => exact fun _ => .seqIn rfl hlast
          | cons x k ih =>
            intro hk
            exact .seqIn ((Bool.or_eq_false_iff.1 (hk j)).1) (ih fun i => (Bool.or_eq_false_iff.1 (hk i)).2)
        refine ⟨h3, σ2, start (.seqJump rfl r1 ?_ (hrest hla)), R2⟩
        show has j (body _) = true
        rw [has_body, List.any_append, List.any_cons, List.any_cons, hin]
        simp

end

end Verif.GenText
