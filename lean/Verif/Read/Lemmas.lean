import Verif.Read.Spec
import Verif.TokStream.Props
import Verif.Lexer.LookaheadProps
import Mathlib.Tactic.ByContra

/-!
# Lemmas about reading
-/

namespace Verif.Read

open Verif.TokStream

/-! ## The code of a rule -/

/-- The code of a rule, as `Made` has it. -/
def ruleCode (u : Rule) : List Stmt :=
  (if u.ahead = 0 then [] else [.back u.ahead]) ++ (match u.next with | none => [] | some r' => [.ruleSet r']) ++
    [match u.term with | .tok x => .ret x | .skip => .skip | .more => .cont]

/-- The state in which the last statement is reached. -/
def St.arrive (s : St) (u : Rule) : St :=
  match u.next with
  | none => { s with pos := s.pos - u.ahead }
  | some r' => { s with pos := s.pos - u.ahead, rs := r', calls := s.calls ++ [.leave s.rs, .enter r'] }

def lastStmt (u : Rule) : Stmt := match u.term with | .tok x => .ret x | .skip => .skip | .more => .cont

theorem arrive_rs (s : St) (u : Rule) : (s.arrive u).rs = u.after s.rs := by
  unfold St.arrive Rule.after
  cases u.next <;> rfl

theorem arrive_other (s : St) (u : Rule) : (s.arrive u).pos = s.pos - u.ahead ∧ (s.arrive u).spos = s.spos ∧ (s.arrive u).cont = s.cont ∧ (s.arrive u).str = s.str := by
  unfold St.arrive
  cases u.next <;> exact ⟨rfl, rfl, rfl, rfl⟩

/-- Number of statements before the last one. -/
def extra (u : Rule) : Nat := (if u.ahead = 0 then 0 else 1) + (if u.next.isSome then 1 else 0)

theorem act_rule (L : Lx) (u : Rule) (s : St) (h : u.ahead ≤ s.pos) (f : Nat) :
    act L (f + extra u + 1) s.rs s (ruleCode u) = act L (f + 1) s.rs (s.arrive u) [lastStmt u] := by
  unfold ruleCode extra St.arrive lastStmt
  by_cases ha : u.ahead = 0
  · cases hn : u.next with
    | none => simp [ha]
    | some r' =>
      simp only [ha, if_true, List.nil_append, List.singleton_append, Option.isSome_some, Nat.zero_add]
      rw [act]
      rfl
  · cases hn : u.next with
    | none =>
      simp only [ha, if_false, List.append_nil, List.singleton_append, Option.isSome_none, Bool.false_eq_true, Nat.add_zero]
      rw [act, if_pos h]
    | some r' =>
      simp only [ha, if_false, List.cons_append, List.nil_append, Option.isSome_some, if_true]
      rw [show f + (1 + 1) + 1 = (f + 1 + 1) + 1 by omega, act, if_pos h, act]
      rfl

theorem act_rule' (L : Lx) (u : Rule) (s : St) (h : u.ahead ≤ s.pos) {f : Nat} {o : St × Tok} (ho : act L f s.rs s (ruleCode u) = some o) :
    ∃ g, g + extra u + 1 = f := by
  by_contra hc
  have hlt : f ≤ extra u := by
    by_contra h2
    exact hc ⟨f - extra u - 1, by omega⟩
  have hnone : act L f s.rs s (ruleCode u) = none := by
    unfold extra at hlt
    unfold ruleCode
    by_cases ha : u.ahead = 0
    · cases hn : u.next with
      | none =>
        simp [ha, hn] at hlt
        subst hlt
        simp [act]
      | some r' =>
        simp only [ha, if_true, hn, Option.isSome_some, Nat.zero_add] at hlt
        simp only [ha, if_true, List.nil_append, List.singleton_append]
        match f, hlt with
        | 0, _ => simp [act]
        | 1, _ => rw [act]; simp [act]
    · cases hn : u.next with
      | none =>
        simp only [ha, if_false, hn, Option.isSome_none, Bool.false_eq_true, Nat.add_zero] at hlt
        simp only [ha, if_false, List.append_nil, List.singleton_append]
        match f, hlt with
        | 0, _ => simp [act]
        | 1, _ => rw [act, if_pos h]; simp [act]
      | some r' =>
        simp only [ha, if_false, hn, Option.isSome_some, if_true] at hlt
        simp only [ha, if_false, List.cons_append, List.nil_append]
        match f, hlt with
        | 0, _ => simp [act]
        | 1, _ => rw [act, if_pos h]; simp [act]
        | 2, _ => rw [act, if_pos h, act]; simp [act]
  rw [hnone] at ho
  cases ho

/-! ## The stream -/

theorem done_push {s : St} (h : s.str.idx = s.str.size) (t : Tok) :
    ({ s with str := s.str.push t } : St).done = some ({ s with str := ⟨s.str.buf ++ [t], s.str.idx + 1⟩ }, t) := by
  unfold Stream.size at h
  simp [St.done, Stream.read, Stream.push, Stream.size, h]

theorem done_eof {s : St} (h : s.str.idx = s.str.size) :
    s.eof.done = some ({ s with str := ⟨s.str.buf ++ [⟨1000, s.pos, s.pos⟩], s.str.idx + 1⟩ }, ⟨1000, s.pos, s.pos⟩) := done_push h _

theorem done_stored {s : St} (h : s.str.idx < s.str.size) : ∃ r, s.done = some r := by
  have hne : ¬ s.str.idx = s.str.buf.length := Nat.ne_of_lt h
  have h' : s.str.idx < s.str.buf.length := h
  simp [St.done, Stream.read, Stream.size, hne, h']

/-! ## One call -/

/-- The first tokens, in the middle of a lexeme that began at `a`. -/
def From (D : Spec) (a r p : Nat) (ts : List Tok) : Prop :=
  ∃ r' q e, Lexeme D r p r' q e ∧ match e with
    | .tok x => ∃ ts', ts = ⟨x, a, (q : Int) - 1⟩ :: ts' ∧ Tokens D r' q ts'
    | .skip => Tokens D r' q ts
    | .stop => ∃ ts', ts = ⟨1000, q, q⟩ :: ts' ∧ Tokens D r' q ts'

theorem From.tokens {D : Spec} {r p : Nat} {ts : List Tok} (h : From D p r p ts) : Tokens D r p ts := by
  obtain ⟨r', q, e, h1, h2⟩ := h
  cases e with
  | tok x => obtain ⟨ts', rfl, h3⟩ := h2; exact .tok h1 h3
  | skip => exact .skip h1 h2
  | stop => obtain ⟨ts', rfl, h3⟩ := h2; exact .stop h1 h3

theorem From.more {D : Spec} {a r p q : Nat} {u : Rule} {ts : List Tok} (hp : p < D.n) (hf : D.found r p = some (u, q)) (ht : u.term = .more)
    (h : From D a (u.after r) (q - u.ahead) ts) : From D a r p ts := by
  obtain ⟨r', q', e, h1, h2⟩ := h
  exact ⟨r', q', e, .more hp hf ht h1, h2⟩

/-- What a call that makes a token gives. -/
structure Gives (D : Spec) (s s' : St) (a : Nat) (t : Tok) : Prop where
  buf : s'.str.buf = s.str.buf ++ [t]
  idx : s'.str.idx = s.str.idx + 1
  cont : s'.cont = true → D.n ≤ s'.pos
  tokens : ∀ ts, Tokens D s'.rs s'.pos ts → From D a s.rs s.pos (t :: ts)

/-- Where the lexeme began. -/
def St.start (s : St) : Nat := if s.cont then s.spos else s.pos

/-- The state in which the state machine starts. -/
theorem begun (s : St) : (if s.cont = true then { s with cont := false } else { s with spos := s.pos } : St) = ⟨s.pos, s.start, false, s.rs, s.str, s.calls⟩ := by
  unfold St.start
  cases hc : s.cont
  · simp
  · simp

theorem step_gives {D : Spec} {L : Lx} (hm : Made D L) : ∀ f, (∀ s s' t, s.str.idx = s.str.size → read L f s = some (s', t) → Gives D s s' s.start t) ∧
    ∀ s s' t, s.str.idx = s.str.size → lexeme L f s = some (s', t) → Gives D s s' s.start t := by
  intro f
  induction f using Nat.strongRecOn with
  | ind f ih =>
    constructor
    · intro s s' t hi h
      cases f with
      | zero => simp [read] at h
      | succ f =>
        rw [read, if_neg (by omega)] at h
        exact (ih f (by omega)).2 s s' t hi h
    · intro s s' t hi h
      cases f with
      | zero => simp [lexeme] at h
      | succ f =>
        rw [lexeme] at h
        by_cases hp : s.pos < L.n
        · rw [if_pos hp] at h
          -- the state in which the state machine starts
          rw [begun] at h
          simp only at h
          have hpD : s.pos < D.n := by rw [← hm.n]; exact hp
          have hfit := hm.fits s.rs s.pos hpD
          cases hfd : D.found s.rs s.pos with
          | none =>
            rw [hfd] at hfit
            obtain ⟨a, ha, hcode⟩ := hfit
            rw [ha] at h
            simp only [hcode] at h
            cases f with
            | zero => simp [act] at h
            | succ f =>
              rw [act] at h
              rw [done_eof (s := ⟨s.pos, s.start, false, s.rs, s.str, s.calls⟩) hi] at h
              simp only [Option.some.injEq, Prod.mk.injEq] at h
              obtain ⟨rfl, rfl⟩ := h
              refine ⟨rfl, rfl, by simp, ?_⟩
              intro ts hts
              exact ⟨s.rs, s.pos, .stop, .fail hpD hfd, ts, rfl, hts⟩
          | some v =>
            obtain ⟨u, q⟩ := v
            rw [hfd] at hfit
            obtain ⟨hle, a, ha, hcode⟩ := hfit
            rw [ha] at h
            have hcode' : L.code s.rs a ⟨q, s.start, false, s.rs, s.str, s.calls⟩ = ruleCode u := hcode _
            simp only [hcode'] at h
            -- the code runs
            obtain ⟨g, rfl⟩ := act_rule' L u ⟨q, s.start, false, s.rs, s.str, s.calls⟩ hle h
            rw [act_rule L u ⟨q, s.start, false, s.rs, s.str, s.calls⟩ hle] at h
            have ars := arrive_rs ⟨q, s.start, false, s.rs, s.str, s.calls⟩ u
            obtain ⟨a1, a2, a3, a4⟩ := arrive_other ⟨q, s.start, false, s.rs, s.str, s.calls⟩ u
            generalize (⟨q, s.start, false, s.rs, s.str, s.calls⟩ : St).arrive u = s2 at h ars a1 a2 a3 a4
            simp only at ars a1 a2 a3 a4
            have hi2 : s2.str.idx = s2.str.size := by rw [a4]; exact hi
            unfold lastStmt at h
            cases hterm : u.term with
            | tok x =>
              rw [hterm] at h
              simp only [act] at h
              unfold St.token at h
              rw [done_push hi2] at h
              simp only [Option.some.injEq, Prod.mk.injEq] at h
              obtain ⟨rfl, rfl⟩ := h
              refine ⟨by simp [a4], by simp [a4], by simp [a3], ?_⟩
              intro ts hts
              simp only [ars, a1] at hts
              refine ⟨_, _, .tok x, .tok hpD hfd hterm, ts, ?_, hts⟩
              simp [a1, a2]
            | skip =>
              rw [hterm] at h
              simp only [act] at h
              have hg := (ih g (by omega)).1 s2 s' t hi2 h
              have hst : s2.start = s2.pos := by unfold St.start; rw [a3]; rfl
              refine ⟨by rw [hg.buf, a4], by rw [hg.idx, a4], hg.cont, ?_⟩
              intro ts hts
              have hf := hg.tokens ts hts
              rw [hst] at hf
              have := hf.tokens
              rw [ars, a1] at this
              exact ⟨_, _, .skip, .skip hpD hfd hterm, this⟩
            | more =>
              rw [hterm] at h
              simp only [act] at h
              have hg := (ih g (by omega)).1 { s2 with cont := true } s' t hi2 h
              refine ⟨by rw [hg.buf]; simp only [a4], by rw [hg.idx]; simp only [a4], hg.cont, ?_⟩
              intro ts hts
              have hf := hg.tokens ts hts
              have hst : ({ s2 with cont := true } : St).start = s.start := by unfold St.start; simp only [if_true]; rw [a2]; rfl
              rw [hst] at hf
              simp only [ars, a1] at hf
              exact From.more hpD hfd hterm hf
        · rw [if_neg hp] at h
          unfold St.eof at h
          rw [done_push hi] at h
          simp only [Option.some.injEq, Prod.mk.injEq] at h
          obtain ⟨rfl, rfl⟩ := h
          have hn : D.n ≤ s.pos := by rw [← hm.n]; omega
          refine ⟨rfl, rfl, fun _ => hn, ?_⟩
          intro ts hts
          exact ⟨s.rs, s.pos, .stop, .eof hn, ts, rfl, hts⟩

/-! ## Histories -/

/-- Reached states: what follows completes what is there. -/
structure Good (D : Spec) (s : St) : Prop where
  le : s.str.idx ≤ s.str.size
  cont : s.cont = true → D.n ≤ s.pos
  tokens : ∀ ts, Tokens D s.rs s.pos ts → Tokens D 0 0 (s.str.buf ++ ts)

theorem good_init (D : Spec) : Good D St.init := ⟨by simp [St.init, Stream.init, Stream.size], by simp [St.init], fun ts h => by simpa [St.init, Stream.init] using h⟩

theorem From.end {D : Spec} {a r p : Nat} {ts : List Tok} (hp : D.n ≤ p) (h : From D a r p ts) : From D p r p ts := by
  obtain ⟨r', q, e, h1, h2⟩ := h
  cases e with
  | tok x => cases h1 <;> omega
  | skip => exact ⟨r', q, .skip, h1, h2⟩
  | stop => exact ⟨r', q, .stop, h1, h2⟩

/-- One `read`: the token at the current index is delivered, and stored if it is new. -/
theorem read_good {D : Spec} {L : Lx} (hm : Made D L) {f : Nat} {s s' : St} {t : Tok} (hg : Good D s) (h : read L f s = some (s', t)) :
    Good D s' ∧ s'.str.idx = s.str.idx + 1 ∧ s'.str.buf[s.str.idx]? = some t ∧ s.str.buf <+: s'.str.buf ∧ s'.str.size = max s.str.size (s.str.idx + 1) := by
  by_cases hi : s.str.idx = s.str.size
  · have hs := (step_gives hm f).1 s s' t hi h
    have hb := hs.buf
    refine ⟨⟨?_, hs.cont, ?_⟩, hs.idx, ?_, ⟨[t], hb.symm⟩, ?_⟩
    · rw [hs.idx, hi]; unfold Stream.size; rw [hb]; simp
    · intro ts hts
      rw [hb, List.append_assoc]
      refine hg.tokens _ ?_
      have := hs.tokens ts hts
      unfold St.start at this
      cases hc : s.cont with
      | false => rw [hc] at this; exact this.tokens
      | true => rw [hc] at this; exact (From.end (hg.cont hc) this).tokens
    · rw [hb, hi]; unfold Stream.size; simp
    · unfold Stream.size at hi ⊢; rw [hb]; simp; omega
  · have hlt : s.str.idx < s.str.size := by have := hg.le; omega
    cases f with
    | zero => simp [read] at h
    | succ f =>
      rw [read, if_pos hlt] at h
      have hne : ¬ s.str.idx = s.str.buf.length := hi
      have hlt' : s.str.idx < s.str.buf.length := hlt
      simp only [St.done, Stream.read, Stream.size, hne, if_false, List.getElem?_eq_getElem hlt', Option.map_some, Option.some.injEq, Prod.mk.injEq] at h
      obtain ⟨rfl, rfl⟩ := h
      refine ⟨⟨by simp only [Stream.size]; omega, hg.cont, hg.tokens⟩, rfl, by simp, List.prefix_refl _, ?_⟩
      simp only [Stream.size]; omega

theorem run_good {D : Spec} {L : Lx} (hm : Made D L) {f : Nat} : ∀ {os : List Op} {s s' : St} {out : List (Nat × Tok)}, Good D s → run L f s os = some (s', out) →
    Good D s' ∧ s.str.buf <+: s'.str.buf ∧ ∀ i t, (i, t) ∈ out → s'.str.buf[i]? = some t
  | [], s, s', out, hg, h => by
    simp only [run, Option.some.injEq, Prod.mk.injEq] at h
    obtain ⟨rfl, rfl⟩ := h
    exact ⟨hg, List.prefix_refl _, by simp⟩
  | .read :: os, s, s', out, hg, h => by
    rw [run] at h
    cases hr : read L f s with
    | none => rw [hr] at h; cases h
    | some r =>
      obtain ⟨s1, t⟩ := r
      rw [hr, Option.bind_some] at h
      cases hq : run L f s1 os with
      | none => rw [hq] at h; cases h
      | some q =>
        obtain ⟨s2, out2⟩ := q
        rw [hq] at h
        simp only [Option.map_some, Option.some.injEq, Prod.mk.injEq] at h
        obtain ⟨rfl, rfl⟩ := h
        obtain ⟨g1, _, g3, g4, _⟩ := read_good hm hg hr
        obtain ⟨k1, k2, k3⟩ := run_good hm g1 hq
        refine ⟨k1, g4.trans k2, ?_⟩
        intro i t' hmem
        rcases List.mem_cons.1 hmem with h | h
        · cases h
          obtain ⟨tl, htl⟩ := k2
          rw [← htl]
          exact List.getElem?_append_left (List.getElem?_eq_some_iff.1 g3).1 ▸ g3
        · exact k3 i t' h
  | .rewind i :: os, s, s', out, hg, h => by
    rw [run] at h
    unfold Stream.rewind at h
    split at h
    · rename_i hi
      rw [Option.bind_some] at h
      have := run_good hm (s := { s with str := { s.str with idx := i.toNat } }) ⟨by simp only [Stream.size] at hi ⊢; omega, hg.cont, hg.tokens⟩ h
      exact this
    · cases h

/-! ## Termination -/

theorem reads {D : Spec} {L : Lx} (hm : Made D L) (ha : D.Advances) : ∀ (k : Nat) (s : St), s.str.idx ≤ s.str.size → D.n ≤ s.pos + k →
    ∀ f, 5 * k + 5 ≤ f → ∃ r, read L f s = some r := by
  intro k
  induction k with
  | zero =>
    intro s hle hk f hf
    obtain ⟨f, rfl⟩ : ∃ g, f = g + 2 := ⟨f - 2, by omega⟩
    rw [read]
    split
    · rename_i hlt
      exact done_stored hlt
    · rw [lexeme, if_neg (by rw [hm.n]; omega)]
      unfold St.eof
      rw [done_push (by omega)]
      exact ⟨_, rfl⟩
  | succ k ih =>
    intro s hle hk f hf
    obtain ⟨f, rfl⟩ : ∃ g, f = g + 2 := ⟨f - 2, by omega⟩
    rw [read]
    split
    · rename_i hlt
      exact done_stored hlt
    · have hi : s.str.idx = s.str.size := by omega
      rw [lexeme]
      by_cases hp : s.pos < L.n
      · rw [if_pos hp]
        rw [begun]
        simp only
        have hpD : s.pos < D.n := by rw [← hm.n]; exact hp
        have hfit := hm.fits s.rs s.pos hpD
        cases hfd : D.found s.rs s.pos with
        | none =>
          rw [hfd] at hfit
          obtain ⟨a, ha, hcode⟩ := hfit
          rw [ha]
          simp only [hcode]
          obtain ⟨f, rfl⟩ : ∃ g, f = g + 1 := ⟨f - 1, by omega⟩
          rw [act, done_eof (s := ⟨s.pos, s.start, false, s.rs, s.str, s.calls⟩) hi]
          exact ⟨_, rfl⟩
        | some v =>
          obtain ⟨u, q⟩ := v
          rw [hfd] at hfit
          obtain ⟨hl, a, hsc, hcode⟩ := hfit
          obtain ⟨hadv, hqn⟩ := ha _ _ _ _ hpD hfd
          rw [hsc]
          have hcode' : L.code s.rs a ⟨q, s.start, false, s.rs, s.str, s.calls⟩ = ruleCode u := hcode _
          simp only [hcode']
          have hex : extra u ≤ 2 := by unfold extra; split <;> split <;> omega
          obtain ⟨g, rfl⟩ : ∃ g, f = g + extra u + 1 := ⟨f - extra u - 1, by omega⟩
          rw [act_rule L u ⟨q, s.start, false, s.rs, s.str, s.calls⟩ hl]
          obtain ⟨a1, a2, a3, a4⟩ := arrive_other ⟨q, s.start, false, s.rs, s.str, s.calls⟩ u
          generalize (⟨q, s.start, false, s.rs, s.str, s.calls⟩ : St).arrive u = s2 at a1 a2 a3 a4
          simp only at a1 a4
          have hi2 : s2.str.idx = s2.str.size := by rw [a4]; exact hi
          unfold lastStmt
          cases hterm : u.term with
          | tok x =>
            simp only [act]
            unfold St.token
            rw [done_push hi2]
            exact ⟨_, rfl⟩
          | skip =>
            simp only [act]
            exact ih s2 (by omega) (by omega) g (by omega)
          | more =>
            simp only [act]
            exact ih { s2 with cont := true } (by simp only; omega) (by simp only; omega) g (by omega)
      · rw [if_neg hp]
        unfold St.eof
        rw [done_push hi]
        exact ⟨_, rfl⟩

end Verif.Read
