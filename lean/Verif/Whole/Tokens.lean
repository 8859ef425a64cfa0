import Verif.Whole.Lemmas
import Verif.Gen.NoStep

/-!
# Lemmas: the sequence of tokens of an input
-/

namespace Verif.Whole

open Verif.Gen Verif.TokStream Verif.Read Verif.Grammar

variable {D : Read.Spec}

theorem lexeme_exists (ha : D.Advances) : ∀ (k p r : Nat), D.n ≤ p + k → ∃ r' q e, Lexeme D r p r' q e ∧ (e = .stop ∨ p < q) := by
  intro k
  induction k with
  | zero => exact fun p r h => ⟨r, p, .stop, .eof (by omega), Or.inl rfl⟩
  | succ k ih =>
    intro p r h
    by_cases hp : p < D.n
    · cases hf : D.found r p with
      | none => exact ⟨r, p, .stop, .fail hp hf, Or.inl rfl⟩
      | some x =>
        obtain ⟨u, q⟩ := x
        have := (ha r p u q hp hf).1
        cases ht : u.term with
        | tok x => exact ⟨_, _, _, .tok hp hf ht, Or.inr this⟩
        | skip => exact ⟨_, _, _, .skip hp hf ht, Or.inr this⟩
        | more =>
          obtain ⟨r', q', e, h1, h2⟩ := ih (q - u.ahead) (u.after r) (by omega)
          exact ⟨r', q', e, .more hp hf ht h1, h2.imp id (by omega)⟩
    · exact ⟨r, p, .stop, .eof (by omega), Or.inl rfl⟩

theorem tokens_exist (ha : D.Advances) : ∀ (k r p : Nat), ∃ ts, Tokens D r p ts ∧ ts.length = k := by
  intro k
  induction k with
  | zero => exact fun r p => ⟨[], .nil, rfl⟩
  | succ k ih =>
    have key : ∀ (j r p : Nat), D.n ≤ p + j → ∃ ts, Tokens D r p ts ∧ ts.length = k + 1 := by
      intro j
      induction j with
      | zero =>
        intro r p h
        obtain ⟨ts, h1, h2⟩ := ih r p
        exact ⟨_, .stop (.eof (by omega)) h1, by simp [h2]⟩
      | succ j ihj =>
        intro r p h
        obtain ⟨r', q, e, h1, h2⟩ := lexeme_exists ha (j + 1) p r h
        cases e with
        | tok x =>
          obtain ⟨ts, h3, h4⟩ := ih r' q
          exact ⟨_, .tok h1 h3, by simp [h4]⟩
        | stop =>
          obtain ⟨ts, h3, h4⟩ := ih r' q
          exact ⟨_, .stop h1 h3, by simp [h4]⟩
        | skip =>
          obtain ⟨ts, h3, h4⟩ := ihj r' q (by rcases h2 with h2 | h2 <;> [cases h2; omega])
          exact ⟨ts, .skip h1 h3, h4⟩
    exact fun r p => key D.n r p (by omega)

theorem lexeme_tok {r p r' q : Nat} {e : End} (h : Lexeme D r p r' q e) : ∀ x, e = .tok x → ∃ r p u q, p < D.n ∧ D.found r p = some (u, q) ∧ u.term = .tok x := by
  induction h with
  | tok h1 h2 h3 => intro x hx; cases hx; exact ⟨_, _, _, _, h1, h2, h3⟩
  | skip => intro x hx; cases hx
  | more _ _ _ _ ih => exact ih
  | fail => intro x hx; cases hx
  | eof => intro x hx; cases hx

theorem tokens_kind {r p : Nat} {ts : List Tok} (h : Tokens D r p ts) : ∀ t ∈ ts, t.kind = 1000 ∨ ∃ r p u q x, p < D.n ∧ D.found r p = some (u, q) ∧ u.term = .tok x ∧ t.kind = x := by
  induction h with
  | nil => simp
  | tok hl _ ih =>
    intro t ht
    rcases List.mem_cons.1 ht with rfl | ht
    · obtain ⟨r, p, u, q, h1, h2, h3⟩ := lexeme_tok hl _ rfl
      exact Or.inr ⟨r, p, u, q, _, h1, h2, h3, rfl⟩
    · exact ih t ht
  | skip _ _ ih => exact ih
  | stop _ _ ih =>
    intro t ht
    rcases List.mem_cons.1 ht with rfl | ht
    · exact Or.inl rfl
    · exact ih t ht

variable {W : World} {eof : Nat} {num : Nat → Nat}

theorem numbers_term {t : Nat} (h : W.node t = some .term) : numbers W num t = num t := by rw [numbers, if_pos h]

theorem numbers_inj (hi : ∀ a b, W.node a = some .term → W.node b = some .term → num a = num b → a = b) (a b : Nat) (h : numbers W num a = numbers W num b) : a = b := by
  unfold numbers at h
  split at h <;> split at h
  · next h1 h2 => exact hi a b h1 h2 (by omega)
  · omega
  · omega
  · omega

theorem sequence_exists (hw : Wf W) (T : Together D W eof num) : ∃ inp, Sequence D (numbers W num) inp ∧ ∀ p, inp p ∈ W.terminals := by
  have key : ∀ p : Nat, ∃ i, i ∈ W.terminals ∧ ∃ (ts : List Tok) (t : Tok), Tokens D 0 0 ts ∧ ts[p]? = some t ∧ t.kind = numbers W num i := by
    intro p
    obtain ⟨ts, h1, h2⟩ := tokens_exist T.adv (p + 1) 0 0
    have hp : p < ts.length := by omega
    rcases tokens_kind h1 ts[p] (List.getElem_mem hp) with hk | ⟨r, q, u, q', x, h3, h4, h5, h6⟩
    · exact ⟨eof, T.eof.1, ts, _, h1, List.getElem?_eq_getElem hp, by rw [hk, numbers_term (hw.terminals _ T.eof.1), T.eof.2]; rfl⟩
    · obtain ⟨t, ht, hx⟩ := T.known r q u q' x h3 h4 h5
      exact ⟨t, ht, ts, _, h1, List.getElem?_eq_getElem hp, by rw [h6, numbers_term (hw.terminals _ ht), hx]⟩
  exact ⟨fun p => (key p).choose, fun p => (key p).choose_spec.2, fun p => (key p).choose_spec.1⟩

variable {L : Lx} {inp : Nat → Nat}

theorem fit_of (hm : Made D L) (T : Together D W eof num) (hs : Sequence D (numbers W num) inp) : Fit D (host L W num) inp :=
  ⟨hm, T.adv, by rw [← hm.n]; exact Nat.le_refl _, numbers_inj T.inj, hs⟩

/-- The state after the first `yylex()`. -/
theorem start_rel {H : Host} (F : Fit D H inp) : ∃ σ, PState.init.lex H = some σ ∧ Rel D H inp σ {} := by
  obtain ⟨σ, h1, h2, h3, h4, h5, h6⟩ := F.lexes PState.init (good_init D)
  refine ⟨σ, h1, ?_⟩
  rw [h6]
  exact ⟨h2, h3, h4, rfl, rfl, rfl, rfl, rfl, rfl, rfl, by simp⟩

theorem run_rel {H : Host} {U : User} (F : Fit D H inp) (K : Ctx) (fuel f s : Nat) : RelO D H inp 0 (run K fuel H U f s) (Gen.parse K fuel (env U inp) f s {}) := by
  obtain ⟨σ, h1, h2⟩ := start_rel F
  unfold run parse Gen.parse
  rw [h1, Option.bind_some]
  cases parseFun K fuel s with
  | none => trivial
  | some b => exact (exec_rel F _ _ f _ _ _ h2.enter).mono (Nat.zero_le _)

theorem tokens_take {r p : Nat} {ts : List Tok} (h : Tokens D r p ts) : ∀ k, Tokens D r p (ts.take k) := by
  induction h with
  | nil => intro k; rw [List.take_nil]; exact .nil
  | tok hl _ ih =>
    intro k
    cases k with
    | zero => exact .nil
    | succ k => exact .tok hl (ih k)
  | skip hl _ ih => exact fun k => .skip hl (ih k)
  | stop hl _ ih =>
    intro k
    cases k with
    | zero => exact .nil
    | succ k => exact .stop hl (ih k)

/-- The first tokens, in terms of the sequence. -/
theorem sequence_tokens {kind : Nat → Int} (ha : D.Advances) (hs : Sequence D kind inp) (k : Nat) : ∃ ts, Tokens D 0 0 ts ∧ ts.map (·.kind) = (List.range k).map fun p => kind (inp p) := by
  obtain ⟨ts, h1, h2⟩ := tokens_exist ha k 0 0
  refine ⟨ts, h1, List.ext_getElem (by simp [h2]) fun i hi hi' => ?_⟩
  simp only [List.length_map] at hi
  obtain ⟨us, u, h3, h4, h5⟩ := hs i
  simp only [List.getElem_map, List.getElem_range]
  rw [h1.unique h3 i ts[i] u (List.getElem?_eq_getElem hi) h4, h5]

theorem consumed_zero (k : Nat) : consumed inp 0 k = (List.range k).map inp := by rw [consumed, Nat.sub_zero, List.range_eq_range']

end Verif.Whole
