import Verif.Whole.Tokens
import Verif.Gen.CompleteProps

/-!
# C97, C98: the generated parser on the generated lexer
-/

namespace Verif.Whole

open Verif.Gen Verif.TokStream Verif.Read Verif.Grammar

section
variable {K : Ctx} {D : Read.Spec} {L : Lx} {num : Nat → Nat} {U : User} {fuel f s : Nat}

/-! ### C97 -/

/-- C97: on the lexer the parser does what it does on the sequence of the tokens that the rules give: the same outcome, conditions asked, errors, state of the user and recoveries; and `yytoken`
is then the number of the token at the position reached. -/
theorem C97_simulates (hw : Wf K.W) (hm : Made D L) (T : Together D K.W K.eofTok num) : ∃ inp, Sequence D (numbers K.W num) inp ∧ (∀ p, inp p ∈ K.W.terminals) ∧
    ∀ U fuel f s, match run K fuel (host L K.W num) U f s, Gen.parse K fuel ⟨inp, U.oracle, U.act⟩ f s {} with
      | none, none => True
      | some (o, σ), some (o', st) => o = o' ∧ σ.lx.str.idx = st.pos + 1 ∧ σ.tok = num (inp st.pos) ∧ σ.asked = st.asked ∧ σ.errors = st.errors ∧ σ.user = st.user ∧ σ.recovered = st.recovered
      | _, _ => False := by
  obtain ⟨inp, hs, ht⟩ := sequence_exists hw T
  refine ⟨inp, hs, ht, fun U fuel f s => ?_⟩
  have h := run_rel (U := U) (fit_of hm T hs) K fuel f s
  show match run K fuel (host L K.W num) U f s, Gen.parse K fuel (env U inp) f s {} with | none, none => True | some (o, σ), some (o', st) => _ | _, _ => False
  revert h
  generalize run K fuel (host L K.W num) U f s = x
  generalize Gen.parse K fuel (env U inp) f s {} = y
  intro h
  match x, y, h with
  | none, none, _ => trivial
  | some (o, σ), some (o', st), ⟨h1, h2, _⟩ => exact ⟨h1, h2.idx, h2.tok.trans (numbers_term (hw.terminals _ (ht _))), h2.asked, h2.errors, h2.user, h2.recovered⟩

theorem run_parse {H : Host} {inp : Nat → Nat} (F : Fit D H inp) {o : Out} {σ : PState} (h : run K fuel H U f s = some (o, σ)) :
    ∃ st, Gen.parse K fuel (env U inp) f s {} = some (o, st) ∧ Rel D H inp σ st := by
  have hr := run_rel (U := U) F K fuel f s
  rw [h] at hr
  match hy : Gen.parse K fuel (env U inp) f s {}, hr with
  | some (o', st), hr => exact ⟨st, by rw [hr.1], hr.2.1⟩

/-- C97 (partial): what the parser accepts without a recovery is a sentence: the tokens of the text, as far as they are consumed, are derivable from the symbol; for a start symbol the text
has no tokens behind them.  Missing: what is missing in C47, where the claim is false; lexers of another form than `Made` (C83). -/
theorem C97_accepted_partial (hw : Wf K.W) (hp : Plain K.W) (hm : Made D L) (T : Together D K.W K.eofTok num)
    (h : run K fuel (host L K.W num) U f s = some (.ok, σ)) (hr : σ.recovered = 0) :
    ∃ ω, Der K.W s ω ∧ (∀ t ∈ ω, t ∈ K.W.terminals) ∧ σ.lx.str.idx = ω.length + 1 ∧ (∃ ts, Tokens D 0 0 ts ∧ ts.map (·.kind) = ω.map fun t => (num t : Int)) ∧
      (s ∈ K.W.start → Yields D num ω) := by
  obtain ⟨inp, hs, ht⟩ := sequence_exists hw T
  obtain ⟨st, h1, h2⟩ := run_parse (fit_of hm T hs) h
  obtain ⟨_, hd⟩ := C47_accepts_sentences_partial hw hp (fun p => by show K.W.node (inp p) ≠ _; rw [hw.terminals _ (ht p)]; simp) h1 (by rw [← h2.recovered, hr])
  have hk : ∀ k, (List.range k).map (fun p => numbers K.W num (inp p)) = (consumed inp 0 k).map fun t => (num t : Int) := by
    intro k
    rw [consumed_zero, List.map_map]
    exact List.map_congr_left fun p _ => numbers_term (hw.terminals _ (ht p))
  refine ⟨_, hd, fun t hm => ?_, ?_, ?_, fun h0 => ?_⟩
  · obtain ⟨p, _, rfl⟩ := List.mem_map.1 hm
    exact ht p
  · rw [h2.idx]; simp [consumed, env]
  · obtain ⟨ts, t1, t2⟩ := sequence_tokens T.adv hs st.pos
    exact ⟨ts, t1, by rw [t2, hk]; rfl⟩
  · obtain ⟨ts, t1, t2⟩ := sequence_tokens T.adv hs (st.pos + 1)
    refine ⟨ts, t1, ?_⟩
    have he : inp st.pos = K.eofTok := parse_eof h0 h1
    rw [t2, List.range_succ, List.map_append, hk, List.map_singleton, he, numbers_term (hw.terminals _ T.eof.1), T.eof.2]
    rfl

theorem yields_seq (hw : Wf K.W) (T : Together D K.W K.eofTok num) {inp : Nat → Nat} (hs : Sequence D (numbers K.W num) inp) {ω : List Nat} (hω : ∀ t ∈ ω, t ∈ K.W.terminals)
    (h : Yields D num ω) : (∀ p (hp : p < ω.length), inp p = ω[p]) ∧ inp ω.length = K.eofTok := by
  obtain ⟨ts, h1, h2⟩ := h
  have hl : ts.length = ω.length + 1 := by simpa using congrArg List.length h2
  have key : ∀ p (hp : p < ts.length), numbers K.W num (inp p) = (ts.map (·.kind))[p]'(by simpa using hp) := by
    intro p hp
    obtain ⟨us, u, h3, h4, h5⟩ := hs p
    rw [List.getElem_map, ← h5, h1.unique h3 p ts[p] u (List.getElem?_eq_getElem hp) h4]
  refine ⟨fun p hp => ?_, ?_⟩
  · have := key p (by omega)
    simp only [h2] at this
    rw [List.getElem_append_left (by simpa using hp), List.getElem_map, ← numbers_term (hw.terminals _ (hω _ (List.getElem_mem hp)))] at this
    exact numbers_inj T.inj _ _ this
  · have := key ω.length (by omega)
    simp only [h2] at this
    rw [List.getElem_append_right (by simp)] at this
    simp only [List.length_map, Nat.sub_self, List.getElem_cons_zero] at this
    refine numbers_inj T.inj _ _ ?_
    rw [this, numbers_term (hw.terminals _ T.eof.1), T.eof.2]
    rfl

theorem reads_of {inp : Nat → Nat} : ∀ (ω : List Nat) (p : Nat), (∀ i (hi : i < ω.length), inp (p + i) = ω[i]) → Reads inp p ω
  | [], _, _ => trivial
  | t :: ω, p, h => ⟨h 0 (by simp), reads_of ω (p + 1) fun i hi => by
      have := h (i + 1) (by simpa using hi)
      rw [show p + 1 + i = p + (i + 1) by omega, this]
      rfl⟩

/-- C97 (partial): for a grammar that one token of lookahead decides, the parser accepts each text whose tokens are a sentence of the start symbol.  Missing: what is missing in C48, where the claim is false. -/
theorem C97_accepts_partial (hw : Wf K.W) (hp : Plain K.W) (ho : OpsOk K.W) (hb : BareOk K.W) (hl : OpsLoop K.W)
    (hc : ∀ n l r, K.W.node n ≠ some (.tryc l (some r))) (hll : LL1 K) {f1 k1 f2 k2 : Nat} (hF : computeFirst K.W f1 k1 = some K.F)
    (hS : computeFollow K.W K.F K.eofTok f2 k2 = some K.S) (hor : ∀ k, U.oracle k = true) (hs : K.W.node s = some .sym) (h0 : s ∈ K.W.start) :
    ∃ fuel0, ∀ fuel, fuel0 ≤ fuel → ∀ D L, Made D L → Together D K.W K.eofTok num → ∀ ω, Der K.W s ω → (∀ t ∈ ω, t ∈ K.W.terminals) → Yields D num ω →
      ∃ f σ, run K fuel (host L K.W num) U f s = some (.ok, σ) ∧ σ.lx.str.idx = ω.length + 1 := by
  have hf0 := parseFun_total (K := K) hw hl (fun _ _ => searchRule_node hw) fun r hr => acc_plain hw hp.noInline r (hw.rules r hr).1
  obtain ⟨f0, hf0⟩ := hf0
  refine ⟨f0, fun fuel hfuel D L hm T ω hd hω hy => ?_⟩
  obtain ⟨inp, hq, ht⟩ := sequence_exists hw T
  obtain ⟨r1, r2⟩ := yields_seq hw T hq hω hy
  have R : Ready K (env U inp) fuel := ⟨hw, hp, ho, hb, hc, hll, (computeFirst_quiet hF).1, (computeFirst_quiet hF).2, (followLoop_quiet _ _ _ hS).1,
    fun s _ => hf0 fuel hfuel s, hor⟩
  have hend : (env U inp).inp (({} : State).pos + ω.length) = K.eofTok := by simpa [env] using r2
  have hfol : (s, K.eofTok) ∈ K.S := by
    cases hd with
    | sym => exact absurd (hw.terminals s (hω s (by simp))) (by rw [hs]; simp)
    | expand _ hr hi _ => exact (followLoop_quiet _ _ _ hS).2 _ (mem_initFollow hr hi h0)
    | _ hn => rw [hs] at hn; cases hn
  obtain ⟨st', h, h2⟩ := (complete R hd hω).call hs 0 {} (reads_of ω 0 (by simpa [env] using r1)) (by rw [hend]; exact hw.terminals _ T.eof.1) (by rw [hend]; exact hfol)
  obtain ⟨f, st1, h3, h4⟩ := parse_of_call h
  have hr := run_rel (U := U) (fit_of hm T hq) K fuel f s
  rw [h3] at hr
  match hx : run K fuel (host L K.W num) U f s, hr with
  | some (o, σ), hr => exact ⟨f, σ, by rw [hx, hr.1], by rw [hr.2.1.idx, h4, h2]; simp⟩

/-- C97 (partial): together: for a grammar without try, that one token of lookahead decides, the parser accepts exactly the texts whose tokens are a sentence of the start symbol. -/
theorem C97_exactly_partial (hw : Wf K.W) (hp : Plain K.W) (ho : OpsOk K.W) (hb : BareOk K.W) (hl : OpsLoop K.W)
    (hc : ∀ n l r, K.W.node n ≠ some (.tryc l r)) (hll : LL1 K) {f1 k1 f2 k2 : Nat} (hF : computeFirst K.W f1 k1 = some K.F)
    (hS : computeFollow K.W K.F K.eofTok f2 k2 = some K.S) (hor : ∀ k, U.oracle k = true) (hs : K.W.node s = some .sym) (h0 : s ∈ K.W.start) :
    ∃ fuel0, ∀ fuel, fuel0 ≤ fuel → ∀ D L, Made D L → Together D K.W K.eofTok num →
      ((∃ f σ, run K fuel (host L K.W num) U f s = some (.ok, σ)) ↔ ∃ ω, Der K.W s ω ∧ (∀ t ∈ ω, t ∈ K.W.terminals) ∧ Yields D num ω) := by
  obtain ⟨f0, h⟩ := C97_accepts_partial (num := num) hw hp ho hb hl (fun n l r => hc n l (some r)) hll hF hS hor hs h0
  refine ⟨f0, fun fuel hfuel D L hm T => ⟨?_, ?_⟩⟩
  · rintro ⟨f, σ, hx⟩
    obtain ⟨inp, hq, _⟩ := sequence_exists hw T
    obtain ⟨st, h1, h2⟩ := run_parse (fit_of hm T hq) hx
    obtain ⟨ω, a1, a2, _, _, a3⟩ := C97_accepted_partial hw hp hm T hx (by rw [h2.recovered, parse_recovered (fun n l => hc n l none) h1])
    exact ⟨ω, a1, a2, a3 h0⟩
  · rintro ⟨ω, a1, a2, a3⟩
    obtain ⟨f, σ, hx, _⟩ := h fuel hfuel D L hm T ω a1 a2 a3
    exact ⟨f, σ, hx⟩

/-- C97: if some rule matches everywhere, the tokens up to the first `EOF` cover the text: the `EOF` is at its end. -/
theorem C97_all_text (hf : ∀ r p, p < D.n → D.found r p ≠ none) (hn : ∀ r p u q, D.found r p = some (u, q) → u.term ≠ .tok 1000) {r p : Nat} {ts : List Tok} (h : Tokens D r p ts) :
    ∀ t ∈ ts, t.kind = 1000 → (D.n : Int) ≤ t.begin := by
  induction h with
  | nil => simp
  | tok hl _ ih =>
    intro t ht hk
    rcases List.mem_cons.1 ht with rfl | ht
    · obtain ⟨r, p, u, q, _, h2, h3⟩ := lexeme_tok hl _ rfl
      simp only at hk
      exact absurd (h3.trans (congrArg _ (by omega))) (hn r p u q h2)
    · exact ih t ht hk
  | skip _ _ ih => exact ih
  | stop hl _ ih =>
    intro t ht hk
    rcases List.mem_cons.1 ht with rfl | ht
    · rcases hl.stopped rfl with h | ⟨h, h'⟩
      · simp only; omega
      · exact absurd h' (hf _ _ h)
    · exact ih t ht hk

end

end Verif.Whole
