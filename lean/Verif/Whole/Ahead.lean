import Verif.Whole.Props

/-!
# C98: looking ahead
-/

namespace Verif.Whole

open Verif.Gen Verif.TokStream Verif.Read Verif.Grammar

variable {D : Read.Spec} {L : Lx} {H : Host} {U : User} {inp : Nat → Nat}

/-! ### Lemmas -/

theorem fill_reads (hm : Made D H.L) (ha : D.Advances) (hf : 5 * D.n + 5 ≤ H.fuel) (i : Nat) : ∀ (f : Nat) (s : St), Good D s → s.str.idx = s.str.size → i + 1 - s.str.size < f →
    ∃ l, fill H i f s = some l ∧ Good D l ∧ i < l.str.size ∧ s.str.buf <+: l.str.buf := by
  intro f
  induction f with
  | zero => intro s _ _ h; omega
  | succ f ih =>
    intro s hg hi hs
    unfold fill
    by_cases hc : (s.str.size : Int) ≤ (i : Int)
    · rw [if_pos hc]
      obtain ⟨⟨s', t⟩, hr⟩ := reads hm ha D.n s hg.le (by omega) H.fuel hf
      obtain ⟨g1, g2, g3, g4, g5⟩ := read_good hm hg hr
      obtain ⟨l, l1, l2, l3, l4⟩ := ih s' g1 (by omega) (by omega)
      exact ⟨l, by rw [hr]; exact l1, l2, l3, g4.trans l4⟩
    · rw [if_neg hc]
      exact ⟨s, rfl, hg, by omega, List.prefix_rfl⟩

theorem la_good (hm : Made D H.L) (ha : D.Advances) (hf : 5 * D.n + 5 ≤ H.fuel) {σ : PState} (hg : Good D σ.lx) {k : Int} (hk : 2 ≤ σ.lx.str.idx + k) : ∃ f0, ∀ f, f0 ≤ f → ∃ l t,
    σ.la H f k = some ({ σ with lx := l }, t) ∧ Good D l ∧ l.str.idx = σ.lx.str.idx ∧ σ.lx.str.buf <+: l.str.buf ∧ l.str.buf[(σ.lx.str.idx + k - 2).toNat]? = some t := by
  obtain ⟨i, hi⟩ : ∃ i : Nat, (σ.lx.str.idx : Int) + k - 2 = i := ⟨_, (Int.toNat_of_nonneg (by omega)).symm⟩
  have hle := hg.le
  refine ⟨i + 2, fun f hf0 => ?_⟩
  have e1 : σ.lx.str.rewind (σ.lx.str.size : Int) = some { σ.lx.str with idx := σ.lx.str.size } := by
    unfold Stream.rewind
    rw [if_pos (by omega)]
    simp
  obtain ⟨l, l1, l2, l3, l4⟩ := fill_reads hm ha hf i f { σ.lx with str := { σ.lx.str with idx := σ.lx.str.size } } ⟨Nat.le_refl _, hg.cont, hg.tokens⟩ rfl (by omega)
  have hsz : σ.lx.str.size ≤ l.str.size := l4.length_le
  have e2 : l.str.rewind (σ.lx.str.idx : Int) = some { l.str with idx := σ.lx.str.idx } := by
    unfold Stream.rewind
    rw [if_pos (by omega)]
    simp
  have e3 : σ.here + k - 1 = i := by unfold PState.here; omega
  have hlt : i < l.str.buf.length := l3
  refine ⟨{ l with str := { l.str with idx := σ.lx.str.idx } }, l.str.buf[i], ?_, ⟨Nat.le_trans hle hsz, l2.cont, l2.tokens⟩, rfl, l4, ?_⟩
  · unfold PState.la
    simp only [e3]
    rw [e1, Option.bind_some, l1, Option.bind_some, e2, Option.bind_some, if_pos (by omega)]
    simp [Stream.at, hlt]
  · rw [hi, Int.toNat_natCast]
    exact List.getElem?_eq_getElem hlt

theorem fill_good (hm : Made D H.L) (i : Int) : ∀ (f : Nat) (s l : St), Good D s → fill H i f s = some l → Good D l ∧ s.str.buf <+: l.str.buf := by
  intro f
  induction f with
  | zero => intro s l _ h; cases h
  | succ f ih =>
    intro s l hg h
    unfold fill at h
    split at h
    · obtain ⟨⟨s', t⟩, hr, h⟩ := Option.bind_eq_some_iff.1 h
      obtain ⟨g1, _, _, g4, _⟩ := read_good hm hg hr
      obtain ⟨l1, l2⟩ := ih s' l g1 h
      exact ⟨l1, g4.trans l2⟩
    · cases h
      exact ⟨hg, List.prefix_rfl⟩

theorem rewound {s s' : Stream} {i : Int} (h : s.rewind i = some s') : s' = { s with idx := i.toNat } ∧ i.toNat ≤ s.size := by
  unfold Stream.rewind at h
  split at h
  · cases h; exact ⟨rfl, by omega⟩
  · cases h

theorem la_any (hm : Made D H.L) {σ σ' : PState} (hg : Good D σ.lx) {k : Int} {f : Nat} {t : Tok} (h : σ.la H f k = some (σ', t)) :
    ∃ l, σ' = { σ with lx := l } ∧ Good D l ∧ l.str.idx = σ.lx.str.idx ∧ σ.lx.str.buf <+: l.str.buf := by
  unfold PState.la at h
  simp only [Option.bind_eq_some_iff] at h
  obtain ⟨s1, h1, l, h2, s2, h3, h4⟩ := h
  split at h4
  · simp only [Option.map_eq_some_iff, Prod.mk.injEq] at h4
    obtain ⟨_, _, rfl, _⟩ := h4
    obtain ⟨rfl, a1⟩ := rewound h1
    obtain ⟨g1, g2⟩ := fill_good hm _ f { σ.lx with str := { σ.lx.str with idx := (σ.lx.str.size : Int).toNat } } _ ⟨a1, hg.cont, hg.tokens⟩ h2
    obtain ⟨rfl, a2⟩ := rewound h3
    exact ⟨_, rfl, ⟨a2, g1.cont, g1.tokens⟩, by simp, g2⟩
  · cases h4

/-! ### C98 -/

/-- C98: at any time (after any calls of `read` and `rewind` on the lexer) `LA(k)` gives the token `k - 1` behind the current one, which is the one before the index; for this it reads the lexer as far as
needed, and changes neither the index nor the tokens there are.  With `k` so small that this would be before the first token the behaviour is undefined. -/
theorem C98_ahead (hm : Made D L) (ha : D.Advances) {W : World} {num : Nat → Nat} {g : Nat} {os : List Read.Op} {σ : PState} {out : List (Nat × Tok)} (h : Read.run L g .init os = some (σ.lx, out))
    (k : Int) : (2 ≤ σ.lx.str.idx + k → ∃ f0, ∀ f, f0 ≤ f → ∃ l t ts, σ.la (host L W num) f k = some ({ σ with lx := l }, t) ∧ Tokens D 0 0 ts ∧ ts[(σ.lx.str.idx + k - 2).toNat]? = some t ∧
        l.str.idx = σ.lx.str.idx ∧ σ.lx.str.buf <+: l.str.buf) ∧
      (σ.lx.str.idx + k < 2 → ∀ f, σ.la (host L W num) f k = none) := by
  have hg : Good D σ.lx := (run_good hm (good_init D) h).1
  refine ⟨fun hk => ?_, fun hk f => ?_⟩
  · obtain ⟨f0, hf⟩ := la_good (H := host L W num) hm ha (by rw [← hm.n]; exact Nat.le_refl _) hg hk
    refine ⟨f0, fun f hf0 => ?_⟩
    obtain ⟨l, t, h1, h2, h3, h4, h5⟩ := hf f hf0
    have := h2.tokens [] .nil
    rw [List.append_nil] at this
    exact ⟨l, t, _, h1, this, h5, h3, h4⟩
  · unfold PState.la
    have : ¬ 0 ≤ σ.here + k - 1 := by unfold PState.here; omega
    simp only [if_neg this]
    cases σ.lx.str.rewind (σ.lx.str.size : Int) with
    | none => rfl
    | some a =>
      simp only [Option.bind_some]
      cases fill (host L W num) (σ.here + k - 1) f _ with
      | none => rfl
      | some b =>
        simp only [Option.bind_some]
        cases b.str.rewind (σ.lx.str.idx : Int) <;> rfl

/-- `yytoken` is the current token, and the places to go back to are tokens there are. -/
structure InSync (σ : PState) : Prop where
  tok : ∃ i, σ.lx.str.idx = i + 1 ∧ (σ.lx.str.buf[i]?).map (·.kind) = some σ.tok
  marks : ∀ m ∈ σ.saved, 0 ≤ m.2.start ∧ m.2.start < σ.lx.str.size

theorem Rel.inSync (F : Fit D H inp) {σ : PState} {st : State} (h : Rel D H inp σ st) : InSync σ := by
  refine ⟨⟨st.pos, h.idx, ?_⟩, fun m hm => ?_⟩
  · have hlt : st.pos < σ.lx.str.buf.length := by
      have h1 := h.good.le
      have h2 := h.idx
      unfold Stream.size at h1; omega
    have := h.good.tokens [] .nil
    rw [List.append_nil] at this
    rw [List.getElem?_eq_getElem hlt, Option.map_some, F.token this (List.getElem?_eq_getElem hlt), h.tok]
  · rw [h.saved] at hm
    obtain ⟨v, hv, rfl⟩ := List.mem_map.1 hm
    have := h.bound v hv
    simp only [Mark.of]
    omega

theorem rel_of (F : Fit D H inp) {σ : PState} (hg : Good D σ.lx) (h : InSync σ) : ∃ st, Rel D H inp σ st := by
  obtain ⟨⟨i, h1, h2⟩, h3⟩ := h
  refine ⟨⟨i, σ.asked, σ.blocked, σ.errors, σ.user, σ.recovered, σ.saved.map fun m => (m.1, ⟨m.2.start.toNat, m.2.user⟩), σ.blocks⟩, hg, h1, ?_, rfl, rfl, rfl, rfl, rfl, ?_, rfl, ?_⟩
  · obtain ⟨t, ht, hk⟩ := Option.map_eq_some_iff.1 h2
    have := hg.tokens [] .nil
    rw [List.append_nil] at this
    rw [← hk, F.token this ht]
  · rw [List.map_map]
    conv => lhs; rw [← List.map_id σ.saved]
    refine List.map_congr_left fun m hm => ?_
    have := h3 m hm
    obtain ⟨a, b, c⟩ := m
    simp only [id_eq, Function.comp_apply, Mark.of]
    rw [Int.toNat_of_nonneg this.1]
  · intro v hv
    obtain ⟨m, hm, rfl⟩ := List.mem_map.1 hv
    have := h3 m hm
    simp only
    omega

/-- What can be seen of a parser after a run: all but how far the lexer has been read ahead. -/
def seen (r : Out × PState) : Out × Nat × Int × Nat × Bool × Nat × Nat × Nat := (r.1, r.2.lx.str.idx, r.2.tok, r.2.asked, r.2.blocked, r.2.errors, r.2.user, r.2.recovered)

theorem RelO.seen {n m : Nat} {a b : Option (Out × PState)} {c : Option (Out × State)} (h : RelO D H inp n a c) (h' : RelO D H inp m b c) : a.map Whole.seen = b.map Whole.seen := by
  match a, b, c, h, h' with
  | none, none, none, _, _ => rfl
  | some (o, σ), some (o', σ'), some (p, st), ⟨e, h, _⟩, ⟨e', h', _⟩ =>
    simp only [Option.map_some, Whole.seen, e, e', h.idx, h'.idx, h.tok, h'.tok, h.asked, h'.asked, h.blocked, h'.blocked, h.errors, h'.errors, h.user, h'.user, h.recovered, h'.recovered]

/-- C98: the states of the parser between the statements of a run are in sync. -/
theorem C98_sync {K : Ctx} {num : Nat → Nat} (hw : Wf K.W) (hm : Made D L) (T : Together D K.W K.eofTok num) {g : Nat} {os : List Read.Op} {σ : PState} {out : List (Nat × Tok)}
    (h : Read.run L g .init os = some (σ.lx, out)) (hs : InSync σ) {P : Nat → Option Gen.Stmt} {f : Nat} {s : Gen.Stmt} {o : Out} {σ' : PState}
    (hx : exec P K.eofTok (host L K.W num) U f s σ = some (o, σ')) : InSync σ' := by
  obtain ⟨inp, hq, _⟩ := sequence_exists hw T
  have F := fit_of hm T hq
  obtain ⟨st, hr⟩ := rel_of F (run_good hm (good_init D) h).1 hs
  have := exec_rel (U := U) F P K.eofTok f s σ st hr
  rw [hx] at this
  match Gen.exec P K.eofTok (env U inp) f s st, this with
  | some (_, st'), h => exact h.2.1.inSync F

/-- C98: a call of `LA` does not change what the parser does afterwards: every statement has the same outcome and leaves the same position, token, errors and state of the user. -/
theorem C98_transparent {K : Ctx} {num : Nat → Nat} (hw : Wf K.W) (hm : Made D L) (T : Together D K.W K.eofTok num) {g : Nat} {os : List Read.Op} {σ σ' : PState} {out : List (Nat × Tok)}
    (h : Read.run L g .init os = some (σ.lx, out)) (hs : InSync σ) {k : Int} {fa : Nat} {t : Tok} (hk : σ.la (host L K.W num) fa k = some (σ', t)) (P : Nat → Option Gen.Stmt) (f : Nat) (s : Gen.Stmt) :
    (exec P K.eofTok (host L K.W num) U f s σ').map seen = (exec P K.eofTok (host L K.W num) U f s σ).map seen := by
  obtain ⟨inp, hq, _⟩ := sequence_exists hw T
  have F := fit_of hm T hq
  have hg := (run_good hm (good_init D) h).1
  obtain ⟨st, hr⟩ := rel_of F hg hs
  obtain ⟨l, rfl, l1, l2, l3⟩ := la_any hm hg hk
  have hr' : Rel D (host L K.W num) inp { σ with lx := l } st := { hr with good := l1, idx := l2.trans hr.idx, bound := fun v hv => Nat.lt_of_lt_of_le (hr.bound v hv) l3.length_le }
  exact RelO.seen (exec_rel F P K.eofTok f s _ st hr') (exec_rel F P K.eofTok f s σ st hr)

end Verif.Whole
