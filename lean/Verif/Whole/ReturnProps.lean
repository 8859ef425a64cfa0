import Verif.Whole.Props
import Verif.Whole.Sample
import Verif.Gen.ReturnProps

/-!
# C117 for texts: the generated parser on the generated lexer returns, and decides
-/

namespace Verif.Whole

open Verif.Gen Verif.TokStream Verif.Read Verif.Grammar

/-- Here the lexer gives `EOF`, and stays. -/
private def Stuck (D : Read.Spec) (r p : Nat) : Prop := D.n ≤ p ∨ D.found r p = none

private theorem stop_stuck {D : Read.Spec} {r p r' q : Nat} {e : End} (h : Lexeme D r p r' q e) (he : e = .stop) : Stuck D r' q := by
  induction h with
  | tok => cases he
  | skip => cases he
  | more _ _ _ _ ih => exact ih he
  | fail _ h => exact .inr h
  | eof h => exact .inl h

private theorem stuck_stop {D : Read.Spec} {r p r' q : Nat} {e : End} (h : Lexeme D r p r' q e) (hs : Stuck D r p) : e = .stop ∧ r' = r ∧ q = p := by
  cases h with
  | tok h1 h2 => rcases hs with hs | hs <;> [omega; rw [h2] at hs] ; cases hs
  | skip h1 h2 => rcases hs with hs | hs <;> [omega; rw [h2] at hs] ; cases hs
  | more h1 h2 => rcases hs with hs | hs <;> [omega; rw [h2] at hs] ; cases hs
  | fail => exact ⟨rfl, rfl, rfl⟩
  | eof => exact ⟨rfl, rfl, rfl⟩

private theorem stuck_tokens {D : Read.Spec} {r p : Nat} {ts : List Tok} (h : Tokens D r p ts) (hs : Stuck D r p) : ∀ t ∈ ts, t.kind = 1000 := by
  induction h with
  | nil => simp
  | tok h1 => have := (stuck_stop h1 hs).1; cases this
  | skip h1 => have := (stuck_stop h1 hs).1; cases this
  | stop h1 _ ih =>
    obtain ⟨-, rfl, rfl⟩ := stuck_stop h1 hs
    intro t ht
    rcases List.mem_cons.1 ht with rfl | ht
    · rfl
    · exact ih hs t ht

/-- A text of `n` characters has at most `n` tokens; from there on the lexer gives `EOF`. -/
theorem tokens_end {D : Read.Spec} (ha : D.Advances) {r p : Nat} {ts : List Tok} (h : Tokens D r p ts) (hp : p ≤ D.n) : ∀ k t, ts[k]? = some t → D.n ≤ p + k → t.kind = 1000 := by
  induction h with
  | nil => simp
  | tok h1 _ ih =>
    obtain ⟨-, b2, b3⟩ := Lexeme.bounds ha h1 hp
    have b3 := b3 (by simp)
    intro k t hk hn
    cases k with
    | zero => omega
    | succ k => exact ih b2 k t (by simpa using hk) (by omega)
  | skip h1 _ ih =>
    obtain ⟨-, b2, b3⟩ := Lexeme.bounds ha h1 hp
    have b3 := b3 (by simp)
    intro k t hk hn
    exact ih b2 k t hk (by omega)
  | stop h1 h2 _ =>
    intro k t hk _
    cases k with
    | zero => simp at hk; rw [← hk]
    | succ k => exact stuck_tokens h2 (stop_stuck h1 rfl) t (List.mem_of_getElem? (by simpa using hk))

section
variable {K : Ctx} {num : Nat → Nat} {s : Nat}

/-- C117 (partial) for texts: if no loop and no rule can go round without reading a token, then the parser on the lexer returns for every text, every answer of the conditions and every user code,
and the index of the token stream is then at most one more than the number of characters.  Missing: what is missing in `C117_returns_partial`, and lexers of another form than `Made` (C83). -/
theorem C117_text_partial (hw : Wf K.W) (hg : Returns K) (hl : OpsLoop K.W) (ha : ∀ r ∈ K.W.rules, Acc (fun m n => Visits K.W n m) r) :
    ∃ fuel0, ∀ fuel, fuel0 ≤ fuel → ∀ D L, Made D L → Together D K.W K.eofTok num → ∀ U s, ∃ f o σ, run K fuel (host L K.W num) U f s = some (o, σ) ∧ σ.lx.str.idx ≤ D.n + 1 := by
  obtain ⟨f0, h⟩ := C117_returns_partial hw hg hl ha
  refine ⟨f0, fun fuel hfuel D L hm T U s => ?_⟩
  obtain ⟨inp, hq, -⟩ := sequence_exists hw T
  have hend : ∀ p, D.n ≤ p → inp p = K.eofTok := by
    intro p hp
    obtain ⟨ts, t, h1, h2, h3⟩ := hq p
    refine numbers_inj T.inj _ _ ?_
    rw [numbers_term (hw.terminals _ T.eof.1), T.eof.2, ← h3]
    exact tokens_end T.adv h1 (Nat.zero_le _) p t h2 (by omega)
  obtain ⟨f, o, st, h1, h2⟩ := h fuel hfuel (env U inp) D.n hend s {}
  have hr := run_rel (U := U) (fit_of hm T hq) K fuel f s
  rw [h1] at hr
  match hy : run K fuel (host L K.W num) U f s, hr with
  | some (o', σ), hr =>
    refine ⟨f, o', σ, hy, ?_⟩
    have : st.pos ≤ max D.n 0 := h2
    rw [hr.2.1.idx]
    omega

/-- C117 (partial) for texts: for a grammar without conflicts the function of a start symbol decides, for every text, whether its tokens are a sentence: it returns, and with success exactly if they
are.  Missing: what is missing in `C97_exactly_partial`. -/
theorem C117_text_decides_partial {U : User} (hw : Wf K.W) (hp : Plain K.W) (ho : OpsOk K.W) (hb : BareOk K.W) (hl : OpsLoop K.W)
    (hc : ∀ n l r, K.W.node n ≠ some (.tryc l r)) (hll : LL1 K) (hg : Returns K) {f1 k1 f2 k2 : Nat} (hF : computeFirst K.W f1 k1 = some K.F)
    (hS : computeFollow K.W K.F K.eofTok f2 k2 = some K.S) (hor : ∀ k, U.oracle k = true) (hs : K.W.node s = some .sym) (h0 : s ∈ K.W.start) :
    ∃ fuel0, ∀ fuel, fuel0 ≤ fuel → ∀ D L, Made D L → Together D K.W K.eofTok num →
      ∃ f o σ, run K fuel (host L K.W num) U f s = some (o, σ) ∧ (o = .ok ↔ ∃ ω, Der K.W s ω ∧ (∀ t ∈ ω, t ∈ K.W.terminals) ∧ Yields D num ω) := by
  obtain ⟨a, ha⟩ := C97_exactly_partial (num := num) hw hp ho hb hl hc hll hF hS hor hs h0
  obtain ⟨b, hb'⟩ := C117_text_partial (num := num) hw hg hl fun r hr => acc_plain hw hp.noInline r (hw.rules r hr).1
  refine ⟨max a b, fun fuel hf D L hm T => ?_⟩
  have ha := ha fuel (by omega) D L hm T
  by_cases hd : ∃ ω, Der K.W s ω ∧ (∀ t ∈ ω, t ∈ K.W.terminals) ∧ Yields D num ω
  · obtain ⟨f, σ, h⟩ := ha.2 hd
    exact ⟨f, .ok, σ, h, by simp [hd]⟩
  · obtain ⟨f, o, σ, h, -⟩ := hb' fuel (by omega) D L hm T U s
    exact ⟨f, o, σ, h, fun e => ha.1 ⟨f, σ, e ▸ h⟩, fun e => absurd e hd⟩

end

/-! ### Examples -/

theorem pairs_returns : Returns pairsCtx := returns_of (show returnsT pairsCtx 12 (fun s => 100 - s) = true by decide +kernel) fun _ h => nomatch h

/-- The parser of `A (B A)*` decides every text of every lexer that goes with it, such as that of `Read.readSpec`. -/
theorem pairs_decides : ∃ fuel0, ∀ fuel, fuel0 ≤ fuel → ∀ D L, Made D L → Together D pairsCtx.W pairsCtx.eofTok pairsNum →
    ∃ f o σ, run pairsCtx fuel (host L pairsCtx.W pairsNum) quietUser f 3 = some (o, σ) ∧
      (o = .ok ↔ ∃ ω, Der pairsCtx.W 3 ω ∧ (∀ t ∈ ω, t ∈ pairsCtx.W.terminals) ∧ Yields D pairsNum ω) :=
  C117_text_decides_partial pairs_wf pairs_plain pairs_lead.2 pairs_bare pairs_ll1.2 pairs_noTry pairs_ll1.1 pairs_returns pairs_first pairs_follow (fun _ => rfl) (by decide +kernel)
    (by decide +kernel)

example : Made readSpec readLx ∧ Together readSpec pairsCtx.W pairsCtx.eofTok pairsNum := ⟨readSpec_made.1, pairs_together⟩

end Verif.Whole
