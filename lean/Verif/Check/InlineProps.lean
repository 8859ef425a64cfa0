import Verif.Check.Inline

/-!
# Recursive inlining is refused

All theorems are about the run of `InlineChecker` over all rules as in kdev-pg-main.cpp lines 364-368.
-/

namespace Verif.Check

open Verif.Grammar

variable {W : World}

theorem occurs_below {n : Nat} (h : Occurs W n) : ∃ r ∈ W.rules, Below W r n := by
  induction h with
  | rule h => exact ⟨_, h, .refl⟩
  | part _ hp ih =>
    obtain ⟨r, h1, h2⟩ := ih
    exact ⟨r, h1, .part h2 hp⟩

theorem below_occurs {r n : Nat} (hr : r ∈ W.rules) (h : Below W r n) : Occurs W n := by
  induction h with
  | refl => exact .rule hr
  | part _ hp ih => exact .part ih hp

theorem inlRules_mono {f : Nat} : ∀ {rs cut : List Nat} {e : Nat} {x : Option Nat} {cut' : List Nat} {e' : Nat}, inlRules W f rs cut e = some (x, cut', e') →
    x = none ∧ e ≤ e' ∧ ∀ n ∈ cut, n ∈ cut'
  | [], cut, e, x, cut', e', h => by
    simp only [inlRules, Option.some.injEq, Prod.mk.injEq] at h
    obtain ⟨rfl, rfl, rfl⟩ := h
    simp
  | r :: rs, cut, e, x, cut', e', h => by
    unfold inlRules at h
    split at h
    · cases h
    · next c hc =>
      have f1 := inl_frame hc
      obtain ⟨g1, g2, g3⟩ := inlRules_mono h
      have := f1.2.1
      exact ⟨g1, Nat.le_trans f1.2.1 g2, fun n hn => g3 n (f1.2.2.2.2.1 n hn)⟩
    · next y c hc =>
      have := ((inl_frame hc).2.2.1 y rfl).1
      cases this

theorem inlRules_fin (hw : Wf W) {f : Nat} : ∀ {rs : List Nat} {e : Nat} {x : Option Nat} {cut' : List Nat}, inlRules W f rs [] e = some (x, cut', e) →
    ∀ r ∈ rs, ∀ m s, Below W r m → W.node m = some (.inlined (some s)) → Fin W s ∧ ¬ OperatorSym W s
  | [], _, _, _, _, r, hr => by cases hr
  | r :: rs, e, x, cut', h, r', hr' => by
    unfold inlRules at h
    split at h
    · cases h
    · next c hc =>
      have f1 := inl_frame hc
      have f2 := inlRules_mono h
      have he : c.errors = e := Nat.le_antisymm f2.2.1 f1.2.1
      have hcut : c.cut = [] := f1.2.2.2.2.2 he
      rw [hcut, he] at h
      rcases List.mem_cons.1 hr' with rfl | hr'
      · exact fun m s hm hs => ⟨(inl_fin hw hc he rfl (by intro m hm; cases hm)).2 m s hm hs, (inl_noop hw hc he rfl (by intro m hm; cases hm)).2 m s hm hs⟩
      · exact inlRules_fin hw h r' hr'
    · next y c hc =>
      have := ((inl_frame hc).2.2.1 y rfl).1
      cases this

theorem inlRules_noerr (ha : InlineAcyclic W) (ho : NoInlinedOp W) {f : Nat} : ∀ {rs : List Nat} {cut : List Nat} {e : Nat} {x : Option Nat} {cut' : List Nat} {e' : Nat},
    (∀ r ∈ rs, r ∈ W.rules) → inlRules W f rs cut e = some (x, cut', e') → e' = e ∧ cut' = cut
  | [], cut, e, x, cut', e', _, h => by
    simp only [inlRules, Option.some.injEq, Prod.mk.injEq] at h
    exact ⟨h.2.2.symm, h.2.1.symm⟩
  | r :: rs, cut, e, x, cut', e', hr, h => by
    unfold inlRules at h
    split at h
    · cases h
    · next c hc =>
      have e1 := (inl_noerr ha ho (fun s r h => (searchRule_some h).1) hc (.rule (hr r (by simp))) (by intro v hv; cases hv)).2
      obtain ⟨g1, g2⟩ := inlRules_noerr ha ho (fun r h => hr r (by simp [h])) h
      exact ⟨g1.trans e1, g2.trans ((inl_frame hc).2.2.2.2.2 e1)⟩
    · next y c hc =>
      have := ((inl_frame hc).2.2.1 y rfl).1
      cases this

theorem fin_irrefl {s : Nat} (h : Fin W s) : ¬ Relation.TransGen (Inlines W) s s := by
  have key : ∀ {s}, Fin W s → ∀ {t}, Relation.TransGen (Inlines W) s t → Relation.TransGen (Inlines W) t s → False := by
    intro s h
    induction h with
    | intro s _ ih =>
      intro t h1 h2
      obtain ⟨u, h3, h4⟩ := Relation.TransGen.head'_iff.1 (h1.trans h2)
      have h5 : Relation.TransGen (Inlines W) u u := Relation.TransGen.tail'_iff.2 ⟨s, h4, h3⟩
      exact ih u h3 h5 h5
  exact fun h' => key h h' h'

/-- C42: the check ends, and no exception ends the program. -/
theorem C42_check_ends (hw : Wf W) : ∃ f0, ∀ f, f0 ≤ f → ∃ cut e, inlRules W f W.rules [] 0 = some (none, cut, e) := by
  refine ⟨W.heap.length * (W.parsed + 1) + W.parsed + 1, fun f hf => ?_⟩
  have : ∀ rs : List Nat, (∀ r ∈ rs, r ∈ W.rules) → ∀ cut e, ∃ cut' e', inlRules W f rs cut e = some (none, cut', e') := by
    intro rs
    induction rs with
    | nil => exact fun _ cut e => ⟨cut, e, rfl⟩
    | cons r rs ih =>
      intro hr cut e
      obtain ⟨hrp, i, s, hri⟩ := hw.rules r (hr r (by simp))
      obtain ⟨⟨t, c⟩, hc⟩ := inl_total hw (fun s r h => (searchRule_some h).1) W.heap.length f r { cut, errors := e }
        (by unfold left; exact Nat.le_trans (List.length_filter_le _ _) (by simp)) hrp ⟨_, hri⟩ (by omega)
      unfold inlRules
      rw [hc]
      cases t with
      | none => exact ih (fun r h => hr r (by simp [h])) _ _
      | some y =>
        have := ((inl_frame hc).2.2.1 y rfl).1
        cases this
  exact this W.rules (fun _ h => h) [] 0

/-- C42: no error is reported exactly if no symbol is inlined in itself, directly or not, and no operator expression is inlined; then no
non-terminal loses its symbol. -/
theorem C42_refused_iff_cyclic (hw : Wf W) {f : Nat} {x : Option Nat} {cut : List Nat} {e : Nat} (h : inlRules W f W.rules [] 0 = some (x, cut, e)) :
    x = none ∧ (e = 0 ↔ InlineAcyclic W ∧ NoInlinedOp W) ∧ (e = 0 → cut = []) := by
  have hiff : e = 0 ↔ InlineAcyclic W ∧ NoInlinedOp W := by
    constructor
    · rintro rfl
      have hf := inlRules_fin hw h
      constructor
      · intro s hs
        obtain ⟨t, h1, h2⟩ := Relation.TransGen.head'_iff.1 hs
        obtain ⟨r, n, hr, hb, hn, -⟩ := id h1
        exact fin_irrefl (hf r (searchRule_some hr).1 n t hb hn).1 (Relation.TransGen.tail'_iff.2 ⟨s, h2, h1⟩)
      · intro n s hn hs
        obtain ⟨r, hr, hb⟩ := occurs_below hn
        exact (hf r hr n s hb hs).2
    · rintro ⟨ha, ho⟩
      exact (inlRules_noerr ha ho (fun _ h => h) h).1
  refine ⟨(inlRules_mono h).1, hiff, fun he => ?_⟩
  obtain ⟨ha, ho⟩ := hiff.1 he
  exact (inlRules_noerr ha ho (fun _ h => h) h).2

/-- C42: if the check reports no error, generating the parse functions of all symbols ends.  (`OpsLoop`: every operator expression has an
operator after its first operand, see `C64`.) -/
theorem C42_generation_ends {K : Gen.Ctx} (hw : Wf K.W) (hl : Gen.OpsLoop K.W) {f : Nat} {x : Option Nat} {cut : List Nat}
    (h : inlRules K.W f K.W.rules [] 0 = some (x, cut, 0)) : ∃ f0, ∀ f, f0 ≤ f → ∀ s, ∃ b, Gen.parseFun K f s = some b := by
  refine Gen.parseFun_total hw hl (fun _ _ => Gen.searchRule_node hw) fun r hr => ?_
  refine acc_of_fin hw r (hw.rules r hr).1 fun m s r' hb hm hr' => ?_
  exact acc_rule hw (inlRules_fin hw h r hr m s hb hm).1 r' hr'

/-- ```
@Y @Z -> X;  A @Z -> Y;  B -> Z
```
Tokens: 1 `A`, 2 `B`; symbols: 3 `X`, 4 `Y`, 5 `Z`. -/
def diamond : World where
  heap := [.zero, .term, .term, .sym, .sym, .sym, .inlined (some 4), .inlined (some 5), .cons 6 7, .evolve 8 3, .inlined (some 5), .cons 1 10,
    .evolve 11 4, .evolve 2 5]
  parsed := 14
  rules := [9, 12, 13]
  zero := 0
  terminals := [1, 2]
  start := [3]
  bnf := fun _ => none

theorem diamond_wf : Wf diamond := wf_of_wfB (by decide +kernel)

example : inlRules diamond 20 diamond.rules [] 0 = some (none, [], 0) := by decide +kernel

example : InlineAcyclic diamond ∧ NoInlinedOp diamond :=
  (C42_refused_iff_cyclic diamond_wf (f := 20) (x := none) (cut := []) (e := 0) (by decide +kernel)).2.1.1 rfl

/-- ```
@E @C @Y -> X;  @D @X -> Y;  @Y -> C;  @X -> D;  @D -> E
```
Symbols: 1 `X`, 2 `Y`, 3 `C`, 4 `D`, 5 `E`. -/
def knot : World where
  heap := [.zero, .sym, .sym, .sym, .sym, .sym, .inlined (some 5), .inlined (some 3), .cons 6 7, .inlined (some 2), .cons 8 9, .evolve 10 1,
    .inlined (some 4), .inlined (some 1), .cons 12 13, .evolve 14 2, .inlined (some 2), .evolve 16 3, .inlined (some 1), .evolve 18 4,
    .inlined (some 4), .evolve 20 5]
  parsed := 22
  rules := [11, 15, 17, 19, 21]
  zero := 0
  terminals := []
  start := []
  bnf := fun _ => none

theorem knot_wf : Wf knot := wf_of_wfB (by decide +kernel)

theorem knot_check : inlRules knot 100 knot.rules [] 0 = some (none, [18, 16, 12, 7, 6], 5) := by decide +kernel

theorem bind_map_none {a b : Option Nat} (h : b = none) : (a.bind fun x => b.map (x + ·)) = none := by
  subst h
  cases a <;> rfl

theorem emptyOp_evolve {F : Sets} {f n i s : Nat} (h : W.node n = some (.evolve i s)) (hi : emptyOp W F f i = none) : emptyOp W F (f + 1) n = none := by
  unfold emptyOp
  rw [h]
  exact hi

theorem emptyOp_cons {F : Sets} {f n l r : Nat} (h : W.node n = some (.cons l r)) (hi : emptyOp W F f r = none) : emptyOp W F (f + 1) n = none := by
  unfold emptyOp
  rw [h]
  exact bind_map_none hi

theorem emptyOp_inlined {F : Sets} {f n s r : Nat} (h : W.node n = some (.inlined (some s))) (hs : W.searchRule s = some r) (hi : emptyOp W F f r = none) :
    emptyOp W F (f + 1) n = none := by
  unfold emptyOp
  rw [h]
  dsimp only
  rw [hs]
  exact hi

theorem knot_loops (F : Sets) : ∀ f, emptyOp (withCut knot [18, 16, 12, 7, 6]) F f 11 = none := by
  intro f
  induction f using Nat.strongRecOn with
  | ind f ih =>
    match f with
    | 0 => rfl
    | 1 => exact emptyOp_evolve (i := 10) (s := 1) (by decide +kernel) rfl
    | 2 => exact emptyOp_evolve (i := 10) (s := 1) (by decide +kernel) (emptyOp_cons (l := 8) (r := 9) (by decide +kernel) rfl)
    | 3 => exact emptyOp_evolve (i := 10) (s := 1) (by decide +kernel) (emptyOp_cons (l := 8) (r := 9) (by decide +kernel)
        (emptyOp_inlined (s := 2) (r := 15) (by decide +kernel) (by decide +kernel) rfl))
    | 4 => exact emptyOp_evolve (i := 10) (s := 1) (by decide +kernel) (emptyOp_cons (l := 8) (r := 9) (by decide +kernel)
        (emptyOp_inlined (s := 2) (r := 15) (by decide +kernel) (by decide +kernel) (emptyOp_evolve (i := 14) (s := 2) (by decide +kernel) rfl)))
    | 5 => exact emptyOp_evolve (i := 10) (s := 1) (by decide +kernel) (emptyOp_cons (l := 8) (r := 9) (by decide +kernel)
        (emptyOp_inlined (s := 2) (r := 15) (by decide +kernel) (by decide +kernel) (emptyOp_evolve (i := 14) (s := 2) (by decide +kernel)
        (emptyOp_cons (l := 12) (r := 13) (by decide +kernel) rfl))))
    | f + 6 => exact emptyOp_evolve (i := 10) (s := 1) (by decide +kernel) (emptyOp_cons (l := 8) (r := 9) (by decide +kernel)
        (emptyOp_inlined (s := 2) (r := 15) (by decide +kernel) (by decide +kernel) (emptyOp_evolve (i := 14) (s := 2) (by decide +kernel)
        (emptyOp_cons (l := 12) (r := 13) (by decide +kernel)
        (emptyOp_inlined (s := 1) (r := 11) (by decide +kernel) (by decide +kernel) (ih f (by omega)))))))

/-- The cycles of this grammar are noticed. -/
example : ¬ (InlineAcyclic knot ∧ NoInlinedOp knot) := fun h => by
  have := (C42_refused_iff_cyclic knot_wf knot_check).2.1.2 h
  cases this

/-- C42 fails in that the checks after a reported cycle need not end: setting symbols to null does not remove all cycles, and
`EmptyOperatorChecker` (kdev-pg-main.cpp lines 376-380) then recurses for ever, so that the summary with the errors is
never reached. -/
theorem C42_fails_knot : ∃ W : World, Wf W ∧ ∃ f cut e, inlRules W f W.rules [] 0 = some (none, cut, e) ∧ 0 < e ∧
    (∃ s, Relation.TransGen (InlinesBut W cut) s s) ∧ ∃ r ∈ W.rules, ∀ F f, emptyOp (withCut W cut) F f r = none := by
  refine ⟨knot, knot_wf, 100, _, _, knot_check, by omega, ⟨1, ?_⟩, 11, by decide, fun F f => knot_loops F f⟩
  have p1 : Below knot 11 9 := .part (.part .refl (.evolve (s := 1) (i := 10) (by decide +kernel))) (.consR (l := 8) (r := 9) (by decide +kernel))
  have p2 : Below knot 15 13 := .part (.part .refl (.evolve (s := 2) (i := 14) (by decide +kernel))) (.consR (l := 12) (r := 13) (by decide +kernel))
  exact Relation.TransGen.tail (b := 2) (.single ⟨11, 9, by decide +kernel, p1, by decide +kernel, by decide⟩) ⟨15, 13, by decide +kernel, p2, by decide +kernel, by decide⟩

/-- The hypotheses of `C42_generation_ends` hold for a grammar with inlined symbols. -/
example (K : Gen.Ctx) (h : K.W = diamond) : ∃ f0, ∀ f, f0 ≤ f → ∀ s, ∃ b, Gen.parseFun K f s = some b :=
  C42_generation_ends (f := 20) (x := none) (cut := []) (h ▸ diamond_wf)
    (by rw [h]; intro n o hn; exfalso; have : ∀ k < 14, ∀ o, diamond.node k ≠ some (.op o) := by
          intro k hk o
          have : ∀ k < 14, (match diamond.node k with | some (.op _) => false | _ => true) = true := by decide +kernel
          have := this k hk
          intro h
          rw [h] at this
          cases this
        exact this n (lt_of_node hn) o hn) (by rw [h]; decide +kernel)

end Verif.Check
