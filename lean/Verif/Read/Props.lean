import Verif.Read.Lemmas

/-!
# Reading a generated lexer: C83-C87
-/

namespace Verif.Read

open Verif.TokStream

/-! ## C83: tokens and lexemes -/

/-- C83: whatever a client reads, and to whichever tokens it goes back, the tokens are those of the consecutive lexemes from the beginning of the input: the token
read at index `i` is the `i`-th of them. -/
theorem C83_tokens {D : Spec} {L : Lx} (hm : Made D L) {f : Nat} {os : List Op} {s : St} {out : List (Nat × Tok)} (h : run L f .init os = some (s, out)) :
    ∃ ts, Tokens D 0 0 ts ∧ ∀ i t, (i, t) ∈ out → ts[i]? = some t := by
  obtain ⟨h1, _, h3⟩ := run_good hm (good_init D) h
  exact ⟨s.str.buf, by simpa using h1.tokens [] .nil, h3⟩

/-- Where a lexeme has stopped, everything stops. -/
theorem Lexeme.stopped {D : Spec} {r p r' q : Nat} {e : End} (h : Lexeme D r p r' q e) : e = .stop → D.n ≤ q ∨ (q < D.n ∧ D.found r' q = none) := by
  induction h with
  | tok => intro h; cases h
  | skip => intro h; cases h
  | more _ _ _ _ ih => exact ih
  | fail h1 h2 => exact fun _ => Or.inr ⟨h1, h2⟩
  | eof h => exact fun _ => Or.inl h

theorem stopped_tokens {D : Spec} {r p : Nat} {ts : List Tok} (h : Tokens D r p ts) (hs : D.n ≤ p ∨ (p < D.n ∧ D.found r p = none)) :
    ∀ t ∈ ts, t = ⟨1000, p, p⟩ := by
  have key : ∀ {r' q e}, Lexeme D r p r' q e → r' = r ∧ q = p ∧ e = .stop := by
    intro r' q e hl
    rcases hs with hs | ⟨_, hs⟩
    · cases hl with
      | tok h => omega
      | skip h => omega
      | more h => omega
      | fail h => omega
      | eof => exact ⟨rfl, rfl, rfl⟩
    · cases hl with
      | tok _ h => rw [hs] at h; cases h
      | skip _ h => rw [hs] at h; cases h
      | more _ h => rw [hs] at h; cases h
      | fail => exact ⟨rfl, rfl, rfl⟩
      | eof => exact ⟨rfl, rfl, rfl⟩
  induction h with
  | nil => simp
  | tok hl _ => obtain ⟨_, _, h⟩ := key hl; cases h
  | skip hl _ => obtain ⟨_, _, h⟩ := key hl; cases h
  | stop hl _ ih =>
    obtain ⟨rfl, rfl, _⟩ := key hl
    intro t ht
    rcases List.mem_cons.1 ht with rfl | ht
    · rfl
    · exact ih hs key t ht

theorem Lexeme.bounds {D : Spec} (ha : D.Advances) {r p r' q : Nat} {e : End} (h : Lexeme D r p r' q e) (hp : p ≤ D.n) :
    p ≤ q ∧ q ≤ D.n ∧ (e ≠ .stop → p < q) := by
  induction h with
  | tok h1 h2 => obtain ⟨h3, h4⟩ := ha _ _ _ _ h1 h2; exact ⟨by omega, by omega, fun _ => h3⟩
  | skip h1 h2 => obtain ⟨h3, h4⟩ := ha _ _ _ _ h1 h2; exact ⟨by omega, by omega, fun _ => h3⟩
  | more h1 h2 _ _ ih =>
    obtain ⟨h3, h4⟩ := ha _ _ _ _ h1 h2
    obtain ⟨h5, h6, _⟩ := ih (by omega)
    exact ⟨by omega, h6, fun _ => by omega⟩
  | fail => exact ⟨Nat.le_refl _, hp, fun h => absurd rfl h⟩
  | eof => exact ⟨Nat.le_refl _, hp, fun h => absurd rfl h⟩

theorem tokens_from {D : Spec} (ha : D.Advances) {r p : Nat} {ts : List Tok} (h : Tokens D r p ts) (hp : p ≤ D.n) :
    ∀ t ∈ ts, (p : Int) ≤ t.begin ∧ t.begin ≤ t.stop ∧ t.stop ≤ D.n := by
  induction h with
  | nil => simp
  | tok hl _ ih =>
    obtain ⟨h1, h2, h3⟩ := hl.bounds ha hp
    have h3 := h3 (by simp)
    intro t ht
    rcases List.mem_cons.1 ht with rfl | ht
    · simp only; omega
    · have := ih h2 t ht; omega
  | skip hl _ ih =>
    obtain ⟨h1, h2, _⟩ := hl.bounds ha hp
    intro t ht
    have := ih h2 t ht; omega
  | stop hl _ ih =>
    obtain ⟨h1, h2, _⟩ := hl.bounds ha hp
    intro t ht
    rcases List.mem_cons.1 ht with rfl | ht
    · simp only; omega
    · have := ih h2 t ht; omega

theorem tokens_pairwise {D : Spec} (ha : D.Advances) {r p : Nat} {ts : List Tok} (h : Tokens D r p ts) :
    p ≤ D.n → ts.Pairwise fun t u => t.stop < u.begin ∨ (t = u ∧ t.kind = 1000 ∧ t.begin = t.stop) := by
  induction h with
  | nil => simp
  | tok hl ht ih =>
    intro hp
    obtain ⟨h1, h2, h3⟩ := hl.bounds ha hp
    refine List.pairwise_cons.2 ⟨?_, ih h2⟩
    intro u hu
    have := tokens_from ha ht h2 u hu
    left
    simp only
    omega
  | skip hl _ ih =>
    intro hp
    exact ih (hl.bounds ha hp).2.1
  | stop hl ht ih =>
    intro hp
    refine List.pairwise_cons.2 ⟨?_, ih (hl.bounds ha hp).2.1⟩
    intro u hu
    have := stopped_tokens ht (hl.stopped rfl) u hu
    subst this
    exact Or.inr ⟨rfl, rfl, rfl⟩

/-- C83, order: tokens are nonempty stretches of the input, later ones lie behind earlier ones; the end of the input and failures are told by one token `EOF`
again and again. -/
theorem C83_order {D : Spec} (ha : D.Advances) {ts : List Tok} (h : Tokens D 0 0 ts) :
    (∀ t ∈ ts, 0 ≤ t.begin ∧ t.begin ≤ t.stop ∧ t.stop ≤ D.n) ∧
    ts.Pairwise fun t u => t.stop < u.begin ∨ (t = u ∧ t.kind = 1000 ∧ t.begin = t.stop) := by
  exact ⟨fun t ht => by simpa using tokens_from ha h (Nat.zero_le _) t ht, tokens_pairwise ha h (Nat.zero_le _)⟩

/-- The lexer for automata `d` and rules: rule `a` of a rule set is action `a + 1`; the action for failures has no macros. -/
def lexerOf {C : Type} [Auto.CharSetLike C] (step : List (C × Nat) → Nat → Option Nat) (d : Nat → Auto.DFA C) (rules : Nat → List Rule) (buf : List Nat) : Lx where
  n := buf.length
  scan := scanOf step d buf
  code r a _ := match a with
    | 0 => []
    | a + 1 => match (rules r)[a]? with
      | none => []
      | some u => (if u.ahead = 0 then [] else [.back u.ahead]) ++ (match u.next with | none => [] | some r' => [.ruleSet r']) ++
          [match u.term with | .tok x => .ret x | .skip => .skip | .more => .cont]

theorem longest {C : Type} [Auto.CharSetLike C] {step : List (C × Nat) → Nat → Option Nat} {d : Nat → Auto.DFA C} {rules : Nat → List Rule} {buf : List Nat}
    (hd : ∀ r, (d r).Wf) (h0 : ∀ r, 0 < (d r).nstates) (hstep : ∀ r, Lexer.StepOk step (d r)) (hn : ∀ r, (d r).numActions = (rules r).length)
    (hw : ∀ x ∈ buf, x < Auto.CharSetLike.size C) (hah : ∀ r (a : Nat) u, (rules r)[a]? = some u → ∀ x, (d r).Acts x (a + 1) → u.ahead ≤ x.length) :
    ∃ D : Spec, D.n = buf.length ∧ Made D (lexerOf step d rules buf) ∧ (∀ r p, p < buf.length → match D.found r p with
      | some (u, q) => ∃ k a : Nat, q = p + k ∧ Lexer.Longest (d r) (buf.drop p) k (a + 1) ∧ (rules r)[a]? = some u
      | none => Lexer.NoMatch (d r) (buf.drop p)) ∧
      ((∀ r (a : Nat) u, (rules r)[a]? = some u → ∀ x, (d r).Acts x (a + 1) → u.ahead < x.length) → D.Advances) := by
  have key : ∀ r p, p < buf.length → (∃ k a : Nat, ∃ u, scanOf step d buf r p = some (p + k, a + 1) ∧ Lexer.Longest (d r) (buf.drop p) k (a + 1) ∧ (rules r)[a]? = some u) ∨
      (scanOf step d buf r p = some (p, 0) ∧ Lexer.NoMatch (d r) (buf.drop p)) := by
    intro r p hp
    have hst := Lexer.unit_buf_stream buf p (Nat.le_of_lt hp)
    have hw' : Auto.Word C (buf.drop p) := fun x hx => hw x (List.mem_of_mem_drop hx)
    obtain ⟨k, q, a, h1, h2, _, h4⟩ := Lexer.C57_step_back_partial (it := Lexer.bufIter Lexer.unitNext buf) (fun _ _ => rfl) (hd r) (h0 r) (hstep r) hst hw'
      (fuel := buf.length + 1) (by rw [List.length_drop]; omega)
    have hle : a ≤ (d r).numActions := by
      unfold Lexer.lex at h1
      cases hr : Lexer.run (Lexer.bufIter Lexer.unitNext buf) step (d r) (buf.length + 1) 0 p ((Lexer.bufIter Lexer.unitNext buf).plain p) 0 with
      | none => rw [hr] at h1; simp at h1
      | some o =>
        rw [hr] at h1
        simp only [Option.bind_eq_bind, Option.bind_some] at h1
        split at h1
        · rename_i hl
          simp only [Option.pure_def, Option.some.injEq, Prod.mk.injEq] at h1
          rw [← h1.2]; exact hl
        · cases h1
    rcases h4 with hl | ⟨rfl, rfl, rfl, hno⟩
    · left
      have hq := (Lexer.unit_reads.1 h2).1
      have hk : ((buf.drop p).take k).length = k := by rw [List.length_take]; have := hl.le; omega
      rw [hk] at hq
      obtain ⟨a, rfl⟩ : ∃ b, a = b + 1 := ⟨a - 1, by have := hl.acts.1; omega⟩
      have hlt : a < (rules r).length := by rw [← hn]; omega
      exact ⟨k, a, (rules r)[a], by unfold scanOf; rw [h1, hq], hl, List.getElem?_eq_getElem hlt⟩
    · exact Or.inr ⟨h1, hno⟩
  refine ⟨⟨buf.length, fun r p => match scanOf step d buf r p with
    | some (q, a + 1) => (rules r)[a]?.map fun u => (u, q)
    | _ => none⟩, rfl, ⟨rfl, ?_⟩, ?_, ?_⟩
  · intro r p hp
    rcases key r p hp with ⟨k, a, u, h1, h2, h3⟩ | ⟨h1, _⟩
    · simp only [h1, h3, Option.map_some]
      have := hah r a u h3 _ h2.acts
      rw [List.length_take] at this
      refine ⟨by omega, a + 1, h1, ?_⟩
      intro s
      simp only [lexerOf, h3]
      cases u.next <;> cases u.term <;> rfl
    · simp only [h1]
      exact ⟨0, h1, fun _ => rfl⟩
  · intro r p hp
    rcases key r p hp with ⟨k, a, u, h1, h2, h3⟩ | ⟨h1, h2⟩
    · simp only [h1, h3, Option.map_some]
      exact ⟨k, a, rfl, h2, h3⟩
    · simp only [h1]
      exact h2
  · intro hlt r p u q hp hf
    simp only at hp hf
    rcases key r p hp with ⟨k, a, v, h1, h2, h3⟩ | ⟨h1, _⟩
    · simp only [h1, h3, Option.map_some, Option.some.injEq, Prod.mk.injEq] at hf
      obtain ⟨rfl, rfl⟩ := hf
      have h4 := hlt r a v h3 _ h2.acts
      have h5 := h2.le
      rw [List.length_take] at h4
      rw [List.length_drop] at h4 h5
      exact ⟨by omega, by simp only; omega⟩
    · simp only [h1] at hf
      cases hf

/-- C83, matches: for a lexer made of automata, the matches of which lexemes consist are the longest ones of the automaton of the current rule set. -/
theorem C83_longest {C : Type} [Auto.CharSetLike C] {step : List (C × Nat) → Nat → Option Nat} {d : Nat → Auto.DFA C} {rules : Nat → List Rule} {buf : List Nat}
    (hd : ∀ r, (d r).Wf) (h0 : ∀ r, 0 < (d r).nstates) (hstep : ∀ r, Lexer.StepOk step (d r)) (hn : ∀ r, (d r).numActions = (rules r).length)
    (hw : ∀ x ∈ buf, x < Auto.CharSetLike.size C) (hah : ∀ r (a : Nat) u, (rules r)[a]? = some u → ∀ x, (d r).Acts x (a + 1) → u.ahead ≤ x.length) :
    ∃ D : Spec, D.n = buf.length ∧ Made D (lexerOf step d rules buf) ∧ ∀ r p, p < buf.length → match D.found r p with
      | some (u, q) => ∃ k a : Nat, q = p + k ∧ Lexer.Longest (d r) (buf.drop p) k (a + 1) ∧ (rules r)[a]? = some u
      | none => Lexer.NoMatch (d r) (buf.drop p) := by
  obtain ⟨D, h1, h2, h3, _⟩ := longest hd h0 hstep hn hw hah
  exact ⟨D, h1, h2, h3⟩

/-- The automaton of `ab`, and a rule that makes tokens. -/
example : (∀ r : Nat, (fun _ => Auto.abDfa) r |>.Wf) ∧ Lexer.StepOk (Lexer.seqStep 128) Auto.abDfa ∧ Auto.abDfa.numActions = [({ term := .tok 1001 } : Rule)].length ∧
    (run (lexerOf (Lexer.seqStep 128) (fun _ => Auto.abDfa) (fun _ => [{ term := .tok 1001 }]) [97, 98, 97, 98]) 30 .init [.read, .read, .read]).map (·.2) =
      some [(0, ⟨1001, 0, 1⟩), (1, ⟨1001, 2, 3⟩), (2, ⟨1000, 4, 4⟩)] :=
  ⟨fun _ => Auto.abDfa_wf, Lexer.seqStep_ok Auto.abDfa_wf (by intro es hes; simp [Auto.abDfa] at hes; rcases hes with rfl | rfl | rfl <;> simp), rfl, by decide +kernel⟩

/-- `"a"+ A; "/" [: lxSET_RULE_SET(1) :] %continue; " ";` and in rule set 1 `"b" [: lxSET_RULE_SET(0) :] B; "c" %continue;`, on the input `aa /ccba`. -/
def readSpec : Spec where
  n := 8
  found r p := match r, p with
    | 0, 0 => some ({ term := .tok 1001 }, 2)
    | 0, 2 => some ({ term := .skip }, 3)
    | 0, 3 => some ({ next := some 1, term := .more }, 4)
    | 1, 4 => some ({ term := .more }, 5)
    | 1, 5 => some ({ term := .more }, 6)
    | 1, 6 => some ({ next := some 0, term := .tok 1002 }, 7)
    | 0, 7 => some ({ term := .tok 1001 }, 8)
    | _, _ => none

def readLx : Lx where
  n := 8
  scan r p := match readSpec.found r p with
    | none => some (p, 0)
    | some (_, q) => some (q, p + 1)
  code r a _ := match a with
    | 0 => []
    | p + 1 => match readSpec.found r p with
      | none => []
      | some (u, _) => (if u.ahead = 0 then [] else [.back u.ahead]) ++ (match u.next with | none => [] | some r' => [.ruleSet r']) ++
          [match u.term with | .tok x => .ret x | .skip => .skip | .more => .cont]

theorem readSpec_ok {r p : Nat} {u : Rule} {q : Nat} (h : readSpec.found r p = some (u, q)) : u.ahead = 0 ∧ p < q ∧ q ≤ 8 := by
  simp only [readSpec] at h
  split at h <;> first | (cases h; decide) | cases h

theorem readSpec_made : Made readSpec readLx ∧ readSpec.Advances := by
  refine ⟨⟨rfl, ?_⟩, ?_⟩
  · intro r p hp
    cases h : readSpec.found r p with
    | none => exact ⟨0, by simp [readLx, h], fun s => rfl⟩
    | some v =>
      obtain ⟨u, q⟩ := v
      obtain ⟨h1, _, _⟩ := readSpec_ok h
      exact ⟨by omega, p + 1, by simp [readLx, h], fun s => by simp only [readLx, h]; cases u.next <;> cases u.term <;> rfl⟩
  · intro r p u q _ h
    obtain ⟨h1, h2, h3⟩ := readSpec_ok h
    exact ⟨by omega, h3⟩

/-- Reading it, going back in between: the tokens `aa`, `/ccb`, `a` and the end. -/
example : (run readLx 50 .init [.read, .read, .rewind 0, .read, .read, .read, .read, .read]).map (·.2) =
    some [(0, ⟨1001, 0, 1⟩), (1, ⟨1002, 3, 6⟩), (0, ⟨1001, 0, 1⟩), (1, ⟨1002, 3, 6⟩), (2, ⟨1001, 7, 7⟩), (3, ⟨1000, 8, 8⟩), (4, ⟨1000, 8, 8⟩)] := by decide +kernel

/-! ## C84: the same tokens for all clients -/

theorem Lexeme.unique {D : Spec} {r p r' q : Nat} {e : End} (h : Lexeme D r p r' q e) : ∀ {r'' q' e'}, Lexeme D r p r'' q' e' → r' = r'' ∧ q = q' ∧ e = e' := by
  induction h with
  | tok h1 h2 h3 =>
    intro r'' q' e' h'
    cases h' with
    | tok _ h5 h6 => rw [h2] at h5; cases h5; rw [h3] at h6; cases h6; exact ⟨rfl, rfl, rfl⟩
    | skip _ h5 h6 => rw [h2] at h5; cases h5; rw [h3] at h6; cases h6
    | more _ h5 h6 => rw [h2] at h5; cases h5; rw [h3] at h6; cases h6
    | fail _ h5 => rw [h2] at h5; cases h5
    | eof h5 => omega
  | skip h1 h2 h3 =>
    intro r'' q' e' h'
    cases h' with
    | tok _ h5 h6 => rw [h2] at h5; cases h5; rw [h3] at h6; cases h6
    | skip _ h5 h6 => rw [h2] at h5; cases h5; exact ⟨rfl, rfl, rfl⟩
    | more _ h5 h6 => rw [h2] at h5; cases h5; rw [h3] at h6; cases h6
    | fail _ h5 => rw [h2] at h5; cases h5
    | eof h5 => omega
  | more h1 h2 h3 _ ih =>
    intro r'' q' e' h'
    cases h' with
    | tok _ h5 h6 => rw [h2] at h5; cases h5; rw [h3] at h6; cases h6
    | skip _ h5 h6 => rw [h2] at h5; cases h5; rw [h3] at h6; cases h6
    | more _ h5 h6 h7 => rw [h2] at h5; cases h5; exact ih h7
    | fail _ h5 => rw [h2] at h5; cases h5
    | eof h5 => omega
  | fail h1 h2 =>
    intro r'' q' e' h'
    cases h' with
    | tok _ h5 => rw [h2] at h5; cases h5
    | skip _ h5 => rw [h2] at h5; cases h5
    | more _ h5 => rw [h2] at h5; cases h5
    | fail => exact ⟨rfl, rfl, rfl⟩
    | eof => exact ⟨rfl, rfl, rfl⟩
  | eof h1 =>
    intro r'' q' e' h'
    cases h' with
    | tok h5 => omega
    | skip h5 => omega
    | more h5 => omega
    | fail => exact ⟨rfl, rfl, rfl⟩
    | eof => exact ⟨rfl, rfl, rfl⟩

theorem Tokens.unique {D : Spec} {r p : Nat} {ts : List Tok} (h : Tokens D r p ts) : ∀ {us}, Tokens D r p us → ∀ (i : Nat) t u, ts[i]? = some t → us[i]? = some u → t = u := by
  induction h with
  | nil => intro us _ i t u h; simp at h
  | tok hl _ ih =>
    intro us hu
    cases hu with
    | nil => intro i t u _ h; simp at h
    | tok hl' hu =>
      obtain ⟨rfl, rfl, he⟩ := hl.unique hl'
      cases he
      intro i t u h1 h2
      cases i with
      | zero => simp only [List.getElem?_cons_zero, Option.some.injEq] at h1 h2; rw [← h1, ← h2]
      | succ i => exact ih hu i t u h1 h2
    | skip hl' => obtain ⟨_, _, he⟩ := hl.unique hl'; cases he
    | stop hl' => obtain ⟨_, _, he⟩ := hl.unique hl'; cases he
  | skip hl _ ih =>
    intro us hu
    cases hu with
    | nil => intro i t u _ h; simp at h
    | tok hl' => obtain ⟨_, _, he⟩ := hl.unique hl'; cases he
    | skip hl' hu =>
      obtain ⟨rfl, rfl, _⟩ := hl.unique hl'
      exact ih hu
    | stop hl' => obtain ⟨_, _, he⟩ := hl.unique hl'; cases he
  | stop hl _ ih =>
    intro us hu
    cases hu with
    | nil => intro i t u _ h; simp at h
    | tok hl' => obtain ⟨_, _, he⟩ := hl.unique hl'; cases he
    | skip hl' => obtain ⟨_, _, he⟩ := hl.unique hl'; cases he
    | stop hl' hu =>
      obtain ⟨rfl, rfl, _⟩ := hl.unique hl'
      intro i t u h1 h2
      cases i with
      | zero => simp only [List.getElem?_cons_zero, Option.some.injEq] at h1 h2; rw [← h1, ← h2]
      | succ i => exact ih hu i t u h1 h2

/-- C84: two clients that read the same input, each going back as it likes, are given the same token at the same index. -/
theorem C84_same {D : Spec} {L : Lx} (hm : Made D L) {f g : Nat} {os os' : List Op} {s s' : St} {out out' : List (Nat × Tok)} (h : run L f .init os = some (s, out))
    (h' : run L g .init os' = some (s', out')) {i : Nat} {t u : Tok} (ht : (i, t) ∈ out) (hu : (i, u) ∈ out') : t = u := by
  obtain ⟨ts, h1, h2⟩ := C83_tokens hm h
  obtain ⟨us, h3, h4⟩ := C83_tokens hm h'
  exact h1.unique h3 i t u (h2 i t ht) (h4 i u hu)

/-- C84: a client that only reads is given the tokens 0, 1, 2, and so on. -/
theorem C84_reads {D : Spec} {L : Lx} (hm : Made D L) {f k : Nat} {s : St} {out : List (Nat × Tok)} (h : run L f .init (List.replicate k .read) = some (s, out)) :
    out.map (·.1) = List.range k ∧ Tokens D 0 0 (out.map (·.2)) := by
  have key : ∀ (k : Nat) (s s' : St) (out : List (Nat × Tok)), Good D s → s.str.idx = s.str.size → run L f s (List.replicate k .read) = some (s', out) →
      out.map (·.1) = (List.range k).map (s.str.idx + ·) ∧ s'.str.buf = s.str.buf ++ out.map (·.2) := by
    intro k
    induction k with
    | zero => intro s s' out _ _ h; simp only [List.replicate_zero, run, Option.some.injEq, Prod.mk.injEq] at h; obtain ⟨rfl, rfl⟩ := h; simp
    | succ k ih =>
      intro s s' out hg hi h
      rw [List.replicate_succ, run] at h
      cases hr : read L f s with
      | none => rw [hr] at h; cases h
      | some r =>
        obtain ⟨s1, t⟩ := r
        rw [hr, Option.bind_some] at h
        cases hq : run L f s1 (List.replicate k .read) with
        | none => rw [hq] at h; cases h
        | some q =>
          obtain ⟨s2, out2⟩ := q
          rw [hq] at h
          simp only [Option.map_some, Option.some.injEq, Prod.mk.injEq] at h
          obtain ⟨rfl, rfl⟩ := h
          obtain ⟨g1, g2, _, _, g5⟩ := read_good hm hg hr
          have hb := ((step_gives hm f).1 s s1 t hi hr).buf
          obtain ⟨e1, e2⟩ := ih s1 s2 out2 g1 (by rw [g2, g5, hi]; omega) hq
          refine ⟨?_, by rw [e2, hb]; simp⟩
          rw [List.map_cons, e1, g2, List.range_succ_eq_map]
          simp only [List.map_cons, List.map_map, Nat.add_zero, List.cons.injEq, true_and]
          apply List.map_congr_left
          intro x _
          simp only [Function.comp_apply]
          omega
  obtain ⟨h1, h2⟩ := key k St.init s out (good_init D) rfl h
  refine ⟨by simpa [St.init, Stream.init] using h1, ?_⟩
  have := (run_good hm (good_init D) h).1.tokens [] .nil
  rw [h2] at this
  simpa [St.init, Stream.init] using this

example : (run readLx 50 .init (List.replicate 4 .read)).map (·.2) = some [(0, ⟨1001, 0, 1⟩), (1, ⟨1002, 3, 6⟩), (2, ⟨1001, 7, 7⟩), (3, ⟨1000, 8, 8⟩)] := by decide +kernel

/-! ## C85: rule sets -/

theorem Paired.snoc {a b c : Nat} {cs : List Call} (h : Paired a cs b) : Paired a (cs ++ [.leave b, .enter c]) c := by
  induction h with
  | nil => exact .cons .nil
  | cons _ ih => exact .cons ih

theorem done_calls {s s' : St} {t : Tok} (h : s.done = some (s', t)) : s'.calls = s.calls ∧ s'.rs = s.rs := by
  unfold St.done at h
  cases hr : s.str.read with
  | none => rw [hr] at h; cases h
  | some r => rw [hr] at h; simp only [Option.map_some, Option.some.injEq, Prod.mk.injEq] at h; obtain ⟨rfl, _⟩ := h; exact ⟨rfl, rfl⟩

theorem calls_step {L : Lx} (hc : ∀ r a s, Tidy (L.code r a s)) (r0 : Nat) : ∀ f,
    (∀ s s' t, Paired r0 s.calls s.rs → read L f s = some (s', t) → Paired r0 s'.calls s'.rs) ∧
    (∀ s s' t, Paired r0 s.calls s.rs → lexeme L f s = some (s', t) → Paired r0 s'.calls s'.rs) ∧
    (∀ cur s st s' t, Paired r0 s.calls s.rs → (s.rs = cur ∧ Tidy st) ∨ ((∀ r, .ruleSet r ∉ st) ∧ .fail ∉ st) → act L f cur s st = some (s', t) →
      Paired r0 s'.calls s'.rs) := by
  intro f
  induction f with
  | zero => exact ⟨fun s s' t _ h => by simp [read] at h, fun s s' t _ h => by simp [lexeme] at h, fun c s st s' t _ _ h => by simp [act] at h⟩
  | succ f ih =>
    obtain ⟨i1, i2, i3⟩ := ih
    refine ⟨?_, ?_, ?_⟩
    · intro s s' t hp h
      rw [read] at h
      split at h
      · obtain ⟨e1, e2⟩ := done_calls h; rw [e1, e2]; exact hp
      · exact i2 s s' t hp h
    · intro s s' t hp h
      rw [lexeme] at h
      split at h
      · have e1 : (if s.cont = true then { s with cont := false } else { s with spos := s.pos } : St).calls = s.calls := by split <;> rfl
        have e2 : (if s.cont = true then { s with cont := false } else { s with spos := s.pos } : St).rs = s.rs := by split <;> rfl
        generalize (if s.cont = true then { s with cont := false } else { s with spos := s.pos } : St) = s1 at h e1 e2
        dsimp only at h
        split at h
        · cases h
        · rename_i p a _
          exact i3 s1.rs { s1 with pos := p } _ s' t (by show Paired r0 s1.calls s1.rs; rw [e1, e2]; exact hp) (Or.inl ⟨rfl, hc _ _ _⟩) h
      · obtain ⟨e1, e2⟩ := done_calls h; rw [e1, e2]; exact hp
    · intro cur s st s' t hp ht h
      have tail : ∀ {a : Stmt} {l : List Stmt}, ((∀ r, Stmt.ruleSet r ∉ a :: l) ∧ Stmt.fail ∉ a :: l) → (∀ r, Stmt.ruleSet r ∉ l) ∧ Stmt.fail ∉ l :=
        fun h => ⟨fun r hr => h.1 r (List.mem_cons_of_mem _ hr), fun hr => h.2 (List.mem_cons_of_mem _ hr)⟩
      cases st with
      | nil => rw [act] at h; obtain ⟨e1, e2⟩ := done_calls h; rw [e1, e2]; exact hp
      | cons a l =>
        cases a with
        | token x => rw [act] at h; exact i3 cur (s.token x) l s' t hp (ht.imp (fun h => ⟨h.1, h.2⟩) tail) h
        | done => rw [act] at h; obtain ⟨e1, e2⟩ := done_calls h; rw [e1, e2]; exact hp
        | ret x => rw [act] at h; obtain ⟨e1, e2⟩ := done_calls h; rw [e1, e2]; exact hp
        | eof => rw [act] at h; exact i3 cur s.eof l s' t hp (ht.imp (fun h => ⟨h.1, h.2⟩) tail) h
        | finish => rw [act] at h; obtain ⟨e1, e2⟩ := done_calls h; rw [e1, e2]; exact hp
        | skip => rw [act] at h; exact i1 _ s' t hp h
        | cont => rw [act] at h; exact i1 { s with cont := true } s' t hp h
        | fail =>
          rw [act] at h
          rcases ht with ⟨h1, _⟩ | ⟨_, h2⟩
          · exact i3 cur s _ s' t hp (Or.inl ⟨h1, hc _ _ _⟩) h
          · exact absurd List.mem_cons_self h2
        | ruleSet r =>
          rw [act] at h
          rcases ht with ⟨h1, h2⟩ | ⟨h1, _⟩
          · refine i3 cur _ l s' t ?_ (Or.inr h2) h
            subst h1
            exact hp.snoc
          · exact absurd List.mem_cons_self (h1 r)
        | setRuleSet r =>
          rw [act] at h
          refine i3 cur _ l s' t hp.snoc (Or.inr ?_) h
          rcases ht with ⟨_, h2⟩ | h2
          · exact h2
          · exact tail h2
        | back k =>
          rw [act] at h
          split at h
          · exact i3 cur { s with pos := s.pos - k } l s' t hp (ht.imp (fun h => ⟨h.1, h.2⟩) tail) h
          · cases h

/-- C85 (partial): if no action changes the rule set and then uses `lxSET_RULE_SET` or `lxFAIL`, then in every history the code for leaving is always that of the
current rule set, and the code for entering that of the next one.  User code is arbitrary otherwise. -/
theorem C85_calls_partial {L : Lx} (hc : ∀ r a s, Tidy (L.code r a s)) {f : Nat} : ∀ {os : List Op} {s : St} {out : List (Nat × Tok)}, run L f .init os = some (s, out) →
    Paired 0 s.calls s.rs := by
  have key : ∀ (os : List Op) (s s' : St) (out : List (Nat × Tok)), Paired 0 s.calls s.rs → run L f s os = some (s', out) → Paired 0 s'.calls s'.rs := by
    intro os
    induction os with
    | nil => intro s s' out hp h; simp only [run, Option.some.injEq, Prod.mk.injEq] at h; obtain ⟨rfl, _⟩ := h; exact hp
    | cons o os ih =>
      intro s s' out hp h
      cases o with
      | read =>
        rw [run] at h
        cases hr : read L f s with
        | none => rw [hr] at h; cases h
        | some r =>
          rw [hr, Option.bind_some] at h
          cases hq : run L f r.1 os with
          | none => rw [hq] at h; cases h
          | some q =>
            rw [hq] at h
            simp only [Option.map_some, Option.some.injEq, Prod.mk.injEq] at h
            obtain ⟨rfl, _⟩ := h
            exact ih r.1 q.1 q.2 ((calls_step hc 0 f).1 s r.1 r.2 hp hr) hq
      | rewind i =>
        rw [run] at h
        cases hr : s.str.rewind i with
        | none => rw [hr] at h; cases h
        | some r => rw [hr, Option.bind_some] at h; exact ih { s with str := r } s' out hp h
  exact @fun os s out h => key os St.init s out .nil h

/-- The lexer above: two changes. -/
example : (∀ r a s, Tidy (readLx.code r a s)) ∧ (run readLx 50 .init [.read, .read, .read]).map (·.1.calls) = some [.leave 0, .enter 1, .leave 1, .enter 0] := by
  refine ⟨?_, by decide +kernel⟩
  intro r a s
  simp only [readLx]
  split
  · trivial
  · split
    · trivial
    · rename_i u _ h
      obtain ⟨h1, _, _⟩ := readSpec_ok h
      rw [if_pos h1, List.nil_append]
      cases u.next <;> cases u.term <;> simp [Tidy]

/-- Two changes in one action: `[: lxSET_RULE_SET(1) lxSET_RULE_SET(2) :] A`. -/
def twiceLx : Lx where
  n := 1
  scan _ _ := some (1, 1)
  code _ a _ := if a = 1 then [.ruleSet 1, .ruleSet 2, .ret 1001] else []

/-- C85 fails for two changes in one action: rule set 0 is left twice, rule set 1 is entered and never left. -/
theorem C85_fails_twice : ∃ s out, run twiceLx 9 .init [.read] = some (s, out) ∧ s.calls = [.leave 0, .enter 1, .leave 0, .enter 2] ∧ ∀ r, ¬ Paired 0 s.calls r := by
  refine ⟨⟨1, 0, false, 2, ⟨[⟨1001, 0, 0⟩], 1⟩, [.leave 0, .enter 1, .leave 0, .enter 2]⟩, [(0, ⟨1001, 0, 0⟩)], by decide +kernel, rfl, ?_⟩
  intro r h
  cases h with
  | cons h => cases h

/-- C85 fails for the first rule set: the code for entering it is not run before the code for leaving it, in any history of any lexer with one change per action. -/
theorem C85_fails_start {L : Lx} (hc : ∀ r a s, Tidy (L.code r a s)) {f : Nat} {os : List Op} {s : St} {out : List (Nat × Tok)} (h : run L f .init os = some (s, out))
    (hne : s.calls ≠ []) : s.calls.head? = some (.leave 0) := by
  have hp := C85_calls_partial hc h
  cases hcs : s.calls with
  | nil => exact absurd hcs hne
  | cons a l => rw [hcs] at hp; cases hp; rfl

/-! ## C86: the macros -/

/-- A lexer whose action gives `lxLENGTH` as the kind of its token, for rules that match one character: `. [: … :]`. -/
def lengthLx : Lx where
  n := 2
  scan _ p := some (p + 1, 1)
  code _ a s := if a = 1 then [.ret s.length] else []

/-- C86 (partial): `lxLENGTH` is the number of positions between `lxBEGIN_IDX` and `lxCURR_IDX` exactly for lexemes at the beginning of the input. -/
theorem C86_length_partial {s : St} (h : s.beginIdx < s.currIdx) : s.length = s.currIdx - s.beginIdx ↔ s.beginIdx = 0 := by
  unfold St.length St.currIdx St.beginIdx at *
  omega

example : (⟨1, 0, false, 0, Stream.init, []⟩ : St).beginIdx < (⟨1, 0, false, 0, Stream.init, []⟩ : St).currIdx := by decide

/-- C86 fails: two lexemes of one character each, for which `lxLENGTH` is 1 and 2. -/
theorem C86_fails_length : (run lengthLx 9 .init [.read, .read]).map (·.2) = some [(0, ⟨1, 0, 0⟩), (1, ⟨2, 1, 1⟩)] := by decide +kernel

/-! ## C87: every call returns -/

/-- C87 (partial): if no rule takes an empty piece of text, every valid history of calls returns, however long the input is.  Missing: rules that match the empty
word, of which the generator only warns (below). -/
theorem C87_returns_partial {D : Spec} {L : Lx} (hm : Made D L) (ha : D.Advances) {os : List Op} (hv : Valid 0 0 os) :
    ∃ r, run L (5 * D.n + 5) .init os = some r := by
  have key : ∀ (os : List Op) (s : St), Good D s → Valid s.str.size s.str.idx os → ∃ r, run L (5 * D.n + 5) s os = some r := by
    intro os
    induction os with
    | nil => intro s _ _; exact ⟨_, rfl⟩
    | cons o os ih =>
      intro s hg hv
      cases o with
      | read =>
        obtain ⟨⟨s1, t⟩, hr⟩ := reads hm ha D.n s hg.le (by omega) (5 * D.n + 5) (Nat.le_refl _)
        obtain ⟨g1, g2, _, _, g5⟩ := read_good hm hg hr
        obtain ⟨q, hq⟩ := ih s1 g1 (by rw [g2, g5]; exact hv)
        exact ⟨(q.1, (s.str.idx, t) :: q.2), by rw [run, hr, Option.bind_some, hq]; rfl⟩
      | rewind i =>
        obtain ⟨h1, h2, h3⟩ := hv
        have hrw : s.str.rewind i = some { s.str with idx := i.toNat } := by unfold Stream.rewind; rw [if_pos ⟨h1, h2⟩]
        obtain ⟨q, hq⟩ := ih { s with str := { s.str with idx := i.toNat } } ⟨by simp only [Stream.size] at h2 ⊢; omega, hg.cont, hg.tokens⟩ h3
        exact ⟨q, by rw [run, hrw, Option.bind_some]; exact hq⟩
  exact key os .init (good_init D) hv

example : Valid 0 0 [.read, .read, .rewind 1, .read, .read] := by simp [Valid]

/-- C87, for lexers made of automata: if all words a rule matches are longer than its lookahead, every valid history of calls returns. -/
theorem C87_automata_partial {C : Type} [Auto.CharSetLike C] {step : List (C × Nat) → Nat → Option Nat} {d : Nat → Auto.DFA C} {rules : Nat → List Rule} {buf : List Nat}
    (hd : ∀ r, (d r).Wf) (h0 : ∀ r, 0 < (d r).nstates) (hstep : ∀ r, Lexer.StepOk step (d r)) (hn : ∀ r, (d r).numActions = (rules r).length)
    (hw : ∀ x ∈ buf, x < Auto.CharSetLike.size C) (hah : ∀ r (a : Nat) u, (rules r)[a]? = some u → ∀ x, (d r).Acts x (a + 1) → u.ahead < x.length)
    {os : List Op} (hv : Valid 0 0 os) : ∃ r, run (lexerOf step d rules buf) (5 * buf.length + 5) .init os = some r := by
  obtain ⟨D, h1, h2, _, h4⟩ := longest hd h0 hstep hn hw fun r a u h x hx => Nat.le_of_lt (hah r a u h x hx)
  rw [← h1]
  exact C87_returns_partial h2 (h4 hah) hv

/-- C87 fails for rules that match the empty word and are passed over: then `read` never returns. -/
theorem C87_fails_empty {L : Lx} {p a : Nat} (hp : p < L.n) (hs : L.scan 0 p = some (p, a)) (hc : ∀ s, L.code 0 a s = [.skip]) :
    ∀ (f : Nat) (s : St), s.pos = p → s.rs = 0 → s.str.idx = s.str.size → read L f s = none := by
  intro f
  induction f using Nat.strongRecOn with
  | ind f ih =>
    intro s h1 h2 h3
    match f with
    | 0 => simp [read]
    | 1 => simp [read, h3, lexeme]
    | 2 =>
      rw [read, if_neg (by omega), lexeme, if_pos (by rw [h1]; exact hp), begun]
      simp only [h1, h2, hs, hc]
      rw [act]
    | f + 3 =>
      rw [read, if_neg (by omega), lexeme, if_pos (by rw [h1]; exact hp), begun]
      simp only [h1, h2, hs, hc]
      rw [act]
      exact ih f (by omega) _ rfl rfl h3

/-- Such a lexer: `"a"*;` on the input `b`. -/
example : ∃ L : Lx, 0 < L.n ∧ L.scan 0 0 = some (0, 1) ∧ ∀ s, L.code 0 1 s = [.skip] := ⟨⟨1, fun _ p => some (p, 1), fun _ _ _ => [.skip]⟩, by decide, rfl, fun _ => rfl⟩

/-- The same with tokens: an endless row of empty tokens at one place. -/
theorem C87_fails_tokens {D : Spec} {r p : Nat} {u : Rule} {x : Nat} (hp : p < D.n) (hf : D.found r p = some (u, p)) (h0 : u.ahead = 0) (hn : u.next = none) (ht : u.term = .tok x)
    {ts : List Tok} (h : Tokens D r p ts) : ∀ t ∈ ts, t = ⟨x, p, (p : Int) - 1⟩ := by
  have hl : Lexeme D r p r p (.tok x) := by
    have := Lexeme.tok hp hf ht
    simpa [Rule.after, hn, h0] using this
  induction h with
  | nil => simp
  | tok h1 _ ih =>
    obtain ⟨rfl, rfl, he⟩ := hl.unique h1
    cases he
    intro t ht'
    rcases List.mem_cons.1 ht' with rfl | ht'
    · rfl
    · exact ih hp hf hl t ht'
  | skip h1 => obtain ⟨_, _, he⟩ := hl.unique h1; cases he
  | stop h1 => obtain ⟨_, _, he⟩ := hl.unique h1; cases he

/-- Such rules: `"a"* A;` on the input `b`. -/
example : ∃ D : Spec, 0 < D.n ∧ D.found 0 0 = some ({ term := .tok 1001 }, 0) := ⟨⟨1, fun _ p => some ({ term := .tok 1001 }, p)⟩, by decide, rfl⟩

end Verif.Read
