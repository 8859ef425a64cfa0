import Verif.Grammar.FirstComplete

/-!
# FOLLOW sets contain what they should
-/

namespace Verif.Grammar

variable {W : World} {F S : Sets}

/-! ### Derivations through the rewritten items -/

/-- Derivations in which `+`, `*` and operator items are replaced by the nodes made for them. -/
inductive DerB (W : World) : Nat → List Nat → Prop
  | zero {n} : W.node n = some .zero → DerB W n []
  | term {n} : W.node n = some .term → DerB W n [n]
  | sym {n} : W.node n = some .sym → DerB W n [n]
  | expand {n r i α} : W.node n = some .sym → r ∈ W.rules → W.node r = some (.evolve i n) → DerB W i α → DerB W n α
  | evolve {n i s α} : W.node n = some (.evolve i s) → DerB W i α → DerB W n α
  | nonterm {n s α} : W.node n = some (.nonterm s) ∨ W.node n = some (.inlined (some s)) → DerB W s α → DerB W n α
  | cons {n l r α β} : W.node n = some (.cons l r) → DerB W l α → DerB W r β → DerB W n (α ++ β)
  | two {n l r m α} : W.node n = some (.alt l r) ∨ W.node n = some (.tryc l (some r)) → m = l ∨ m = r → DerB W m α → DerB W n α
  | action0 {n} : W.node n = some (.action none) → DerB W n []
  | annot {n i α} : W.node n = some (.annot i) ∨ W.node n = some (.cond i) → DerB W i α → DerB W n α
  | direct {n m α} : Direct W n m → DerB W m α → DerB W n α

theorem DerB.alt_inv {n l r : Nat} {α : List Nat} (hn : W.node n = some (.alt l r)) (h : DerB W n α) : DerB W l α ∨ DerB W r α := by
  cases h with
  | two h1 h2 h3 =>
    rcases h1 with h1 | h1
    · rw [hn] at h1; cases h1
      rcases h2 with rfl | rfl
      · exact .inl h3
      · exact .inr h3
    · rw [hn] at h1; cases h1
  | zero h => rw [hn] at h; cases h
  | term h => rw [hn] at h; cases h
  | sym h => rw [hn] at h; cases h
  | expand h => rw [hn] at h; cases h
  | evolve h => rw [hn] at h; cases h
  | nonterm h => rcases h with h | h <;> · rw [hn] at h; cases h
  | cons h => rw [hn] at h; cases h
  | action0 h => rw [hn] at h; cases h
  | annot h => rcases h with h | h <;> · rw [hn] at h; cases h
  | direct h => cases h with
    | plus h => rw [hn] at h; cases h
    | star h => rw [hn] at h; cases h
    | op h => rw [hn] at h; cases h
    | action h => rw [hn] at h; cases h
    | tryc h => rw [hn] at h; cases h

theorem DerB.direct_inv {n k : Nat} {it : Item} {α : List Nat} (hn : W.node n = some it) (hi : (∃ i, it = .plus i) ∨ (∃ i, it = .star i) ∨ ∃ o, it = .op o)
    (hk : W.bnf n = some k) (h : DerB W n α) : DerB W k α := by
  have no : ∀ {it'}, W.node n = some it' → ¬ ((∃ i, it' = Item.plus i) ∨ (∃ i, it' = .star i) ∨ ∃ o, it' = .op o) → False := by
    intro it' h1 h2; rw [hn] at h1; cases h1; exact h2 hi
  cases h with
  | two h1 h2 h3 => rcases h1 with h1 | h1 <;> exact (no h1 (by simp)).elim
  | zero h => exact (no h (by simp)).elim
  | term h => exact (no h (by simp)).elim
  | sym h => exact (no h (by simp)).elim
  | expand h => exact (no h (by simp)).elim
  | evolve h => exact (no h (by simp)).elim
  | nonterm h => rcases h with h | h <;> exact (no h (by simp)).elim
  | cons h => exact (no h (by simp)).elim
  | action0 h => exact (no h (by simp)).elim
  | annot h => rcases h with h | h <;> exact (no h (by simp)).elim
  | direct h h' => cases h with
    | plus h e => rw [hk] at e; cases e; exact h'
    | star h e => rw [hk] at e; cases e; exact h'
    | op h e => rw [hk] at e; cases e; exact h'
    | action h => exact (no h (by simp)).elim
    | tryc h => exact (no h (by simp)).elim

theorem chain_derB {top base : Nat} {bs : List OpBody} {k : Nat} (h : ChainAt W top base bs k) {α : List Nat} :
    (DerB W base α → DerB W k α) ∧ ∀ b ∈ bs, ∃ l, BodyAt W top b l ∧ ∀ α, DerB W l α → DerB W k α := by
  induction bs generalizing k with
  | nil => cases h; exact ⟨id, by simp⟩
  | cons b bs ih =>
    obtain ⟨r, h1, h2, _, h4⟩ := h
    refine ⟨fun hb => .two (.inl h1) (.inr rfl) ((ih h4).1 hb), fun b' hb' => ?_⟩
    rcases List.mem_cons.1 hb' with rfl | hb'
    · exact ⟨_, h2, fun α hd => .two (.inl h1) (.inl rfl) hd⟩
    · obtain ⟨l, g1, g2⟩ := (ih h4).2 b' hb'
      exact ⟨l, g1, fun α hd => .two (.inl h1) (.inr rfl) (g2 α hd)⟩

theorem derB_of_der (hw : Wf W) {n : Nat} {α : List Nat} (h : Der W n α) : DerB W n α := by
  have tok : ∀ {t}, W.node t = some .term → DerB W t [t] := fun h => .term h
  induction h with
  | zero h => exact .zero h
  | term h => exact .term h
  | sym h => exact .sym h
  | expand h h1 h2 _ ih => exact .expand h h1 h2 ih
  | evolve h _ ih => exact .evolve h ih
  | nonterm h _ ih => exact .nonterm (.inl h) ih
  | inlined h _ ih => exact .nonterm (.inr h) ih
  | cons h _ _ ih1 ih2 => exact .cons h ih1 ih2
  | altL h _ ih => exact .two (.inl h) (.inl rfl) ih
  | altR h _ ih => exact .two (.inl h) (.inr rfl) ih
  | action0 h => exact .action0 h
  | action h _ ih => exact .direct (.action h) ih
  | cond h _ ih => exact .annot (.inr h) ih
  | annot h _ ih => exact .annot (.inl h) ih
  | @tryL n l r α h _ ih => cases r with
    | none => exact .direct (.tryc h) ih
    | some r => exact .two (.inr h) (.inl rfl) ih
  | tryR h _ ih => exact .two (.inr h) (.inr rfl) ih
  | @plus1 n i α h _ ih =>
    obtain ⟨c, a, hb, hc, ha⟩ := hw.bnf.plus n i h
    have := DerB.cons hc ih (.two (.inl ha) (.inl rfl) (.zero hw.zero))
    rw [List.append_nil] at this
    exact .direct (.plus h hb) this
  | @plusS n i α β h _ _ ih1 ih2 =>
    obtain ⟨c, a, hb, hc, ha⟩ := hw.bnf.plus n i h
    exact .direct (.plus h hb) (.cons hc ih1 (.two (.inl ha) (.inr rfl) (ih2.direct_inv h (.inl ⟨i, rfl⟩) hb)))
  | @star0 n i h =>
    obtain ⟨c, a, hb, hc, ha⟩ := hw.bnf.star n i h
    exact .direct (.star h hb) (.two (.inl ha) (.inl rfl) (.zero hw.zero))
  | @starS n i α β h _ _ ih1 ih2 =>
    obtain ⟨c, a, hb, hc, ha⟩ := hw.bnf.star n i h
    exact .direct (.star h hb) (.two (.inl ha) (.inr rfl) (.cons hc ih1 (ih2.direct_inv h (.inr (.inl ⟨i, rfl⟩)) hb)))
  | @opBase n o α h _ ih =>
    obtain ⟨k, hb, hc, _⟩ := hw.bnf.op n o h
    exact .direct (.op h hb) ((chain_derB hc).1 ih)
  | @opPre n o t α h ht _ ih =>
    obtain ⟨k, hb, hc, _⟩ := hw.bnf.op n o h
    have hb' : OpBody.pre t ∈ o.bodies := mem_bodies.2 (.inl ⟨t, ht, rfl⟩)
    obtain ⟨l, g1, g2⟩ := (chain_derB (α := []) hc).2 _ hb'
    have hk := ih.direct_inv h (.inr (.inr ⟨o, rfl⟩)) hb
    exact .direct (.op h hb) (g2 _ (.cons (α := [t]) g1 (tok (hw.toks h _ hb' t (by simp [OpBody.toks]))) hk))
  | @opPost n o t α h ht _ ih =>
    obtain ⟨k, hb, hc, _⟩ := hw.bnf.op n o h
    have hb' : OpBody.post t ∈ o.bodies := mem_bodies.2 (.inr (.inl ⟨t, ht, rfl⟩))
    obtain ⟨l, g1, g2⟩ := (chain_derB (α := []) hc).2 _ hb'
    have hk := ih.direct_inv h (.inr (.inr ⟨o, rfl⟩)) hb
    exact .direct (.op h hb) (g2 _ (.cons g1 hk (tok (hw.toks h _ hb' t (by simp [OpBody.toks])))))
  | @opBin n o t α β h ht _ _ ih1 ih2 =>
    obtain ⟨k, hb, hc, _⟩ := hw.bnf.op n o h
    have hb' : OpBody.bin t ∈ o.bodies := mem_bodies.2 (.inr (.inr (.inl ⟨t, ht, rfl⟩)))
    obtain ⟨l, g1, g2⟩ := (chain_derB (α := []) hc).2 _ hb'
    have h1 := ih1.direct_inv h (.inr (.inr ⟨o, rfl⟩)) hb
    have h2 := ih2.direct_inv h (.inr (.inr ⟨o, rfl⟩)) hb
    exact .direct (.op h hb) (g2 _ (.cons g1.1 h1 (.cons (α := [t]) g1.2 (tok (hw.toks h _ hb' t (by simp [OpBody.toks]))) h2)))
  | @opTern n o t u α β γ h ht _ _ _ ih1 ih2 ih3 =>
    obtain ⟨k, hb, hc, _⟩ := hw.bnf.op n o h
    have hb' : OpBody.tern t u ∈ o.bodies := mem_bodies.2 (.inr (.inr (.inr (.inl ⟨(t, u), ht, rfl⟩))))
    obtain ⟨l, g1, g2⟩ := (chain_derB (α := []) hc).2 _ hb'
    have h1 := ih1.direct_inv h (.inr (.inr ⟨o, rfl⟩)) hb
    have h2 := ih2.direct_inv h (.inr (.inr ⟨o, rfl⟩)) hb
    have h3 := ih3.direct_inv h (.inr (.inr ⟨o, rfl⟩)) hb
    have ht := tok (hw.toks h _ hb' t (by simp [OpBody.toks]))
    have hu := tok (hw.toks h _ hb' u (by simp [OpBody.toks]))
    exact .direct (.op h hb) (g2 _ (.cons g1.1 h1 (.cons (α := [t]) g1.2.1 ht (.cons g1.2.2.1 h2 (.cons (α := [u]) g1.2.2.2 hu h3)))))
  | @opParen n o t u α h ht _ ih =>
    obtain ⟨k, hb, hc, _⟩ := hw.bnf.op n o h
    have hb' : OpBody.paren t u ∈ o.bodies := mem_bodies.2 (.inr (.inr (.inr (.inr ⟨(t, u), ht, rfl⟩))))
    obtain ⟨l, g1, g2⟩ := (chain_derB (α := []) hc).2 _ hb'
    have hk := ih.direct_inv h (.inr (.inr ⟨o, rfl⟩)) hb
    have ht := tok (hw.toks h _ hb' t (by simp [OpBody.toks]))
    have hu := tok (hw.toks h _ hb' u (by simp [OpBody.toks]))
    exact .direct (.op h hb) (g2 _ (.cons (α := [t]) g1.1 ht (.cons g1.2 hk hu)))

theorem der_of_derB (hw : Wf W) {n : Nat} {α : List Nat} (h : DerB W n α) : Der W n α := by
  induction h with
  | zero h => exact .zero h
  | term h => exact .term h
  | sym h => exact .sym h
  | expand h h1 h2 _ ih => exact .expand h h1 h2 ih
  | evolve h _ ih => exact .evolve h ih
  | nonterm h _ ih => rcases h with h | h
                      · exact .nonterm h ih
                      · exact .inlined h ih
  | cons h _ _ ih1 ih2 => exact .cons h ih1 ih2
  | two h hm _ ih =>
    rcases h with h | h <;> rcases hm with rfl | rfl
    · exact .altL h ih
    · exact .altR h ih
    · exact .tryL h ih
    · exact .tryR h ih
  | action0 h => exact .action0 h
  | annot h _ ih => rcases h with h | h
                    · exact .annot h ih
                    · exact .cond h ih
  | direct hd _ ih => cases hd with
    | plus h hb =>
      obtain ⟨c, a, e, hc, ha⟩ := hw.bnf.plus _ _ h
      rw [e] at hb; cases hb
      rw [plus_iff h, ← (loop_iff hw.zero hc ha).1]; exact ih
    | star h hb =>
      obtain ⟨c, a, e, hc, ha⟩ := hw.bnf.star _ _ h
      rw [e] at hb; cases hb
      rw [star_iff h, ← (loop_iff hw.zero hc ha).2]; exact ih
    | op h hb =>
      obtain ⟨k, e, hc, _⟩ := hw.bnf.op _ _ h
      rw [e] at hb; cases hb
      exact op_fw h hc (hw.toks h) ih
    | action h => exact .action h ih
    | tryc h => exact .tryL h ih

/-! ### Growth of the sets -/

theorem mergeFollow_le (W : World) (d : Nat) (xs : List Nat) (c : Comp) : c.Le (mergeFollow W d xs c) := by
  unfold mergeFollow
  split
  · exact .refl c
  · exact foldl_insert_le _ _ _

theorem mem_mergeFollow {d : Nat} {xs : List Nat} {c : Comp} {p : Nat × Nat} :
    p ∈ (mergeFollow W d xs c).sets ↔ p ∈ c.sets ∨ (W.node d ≠ some .zero ∧ W.node d ≠ some .term) ∧ p.1 = d ∧ p.2 ∈ xs ∧ W.node p.2 = some .term := by
  unfold mergeFollow
  split
  · next h =>
    constructor
    · exact .inl
    · rintro (h' | ⟨⟨h1, h2⟩, _⟩)
      · exact h'
      · rcases h with h | h
        · exact absurd h h1
        · exact absurd h h2
  · next h =>
    rw [mem_foldl_insert, List.mem_filter]
    simp only [not_or] at h
    simp [isTerm, h]

theorem followOfSymbol_le (W : World) (n s : Nat) (c : Comp) : c.Le (followOfSymbol W n s c) := by
  unfold followOfSymbol
  cases W.searchRule s with
  | none => exact mergeFollow_le _ _ _ _
  | some r => exact (mergeFollow_le _ _ _ _).trans (mergeFollow_le _ _ _ _)

theorem followGo_le (W : World) (F : Sets) (f : Nat) : ∀ V n c c', followGo W F f V n c = some c' → c.Le c' := by
  induction f with
  | zero => intro V n c c' h; simp [followGo] at h
  | succ f ih =>
    intro V n c c' h
    have hE : ∀ V n c c', enter (followGo W F f) V n c = some c' → c.Le c' := fun V n c c' => enter_le ih
    have hM := fun d xs c => mergeFollow_le W d xs c
    have hP : ∀ (s d : Nat) (c : Comp), c.Le (preCopy W s d c) := fun s d c => mergeFollow_le W s _ c
    have two : ∀ {l r : Nat} {c : Comp}, ((enter (followGo W F f) V l c).bind (enter (followGo W F f) V r)) = some c' → c.Le c' := by
      intro l r c h
      obtain ⟨d, hd, h⟩ := Option.bind_eq_some_iff.1 h
      exact (hE _ _ _ _ hd).trans (hE _ _ _ _ h)
    unfold followGo at h
    split at h
    · cases h
    · cases h; exact .refl _
    · cases h; exact .refl _
    · cases h; exact .refl _
    · cases h; exact followOfSymbol_le _ _ _ _
    · cases h; exact .refl _
    · cases h; exact followOfSymbol_le _ _ _ _
    · split at h
      · cases h
      · exact (hP _ _ _).trans (ih _ _ _ _ h)
    · split at h
      · cases h
      · exact (hP _ _ _).trans (ih _ _ _ _ h)
    · split at h
      · cases h
      · exact (hP _ _ _).trans (ih _ _ _ _ h)
    · exact (hP _ _ _).trans (hE _ _ _ _ h)
    · exact (hP _ _ _).trans (hE _ _ _ _ h)
    · cases h; exact .refl _
    · exact (hP _ _ _).trans (ih _ _ _ _ h)
    · exact (hP _ _ _).trans (ih _ _ _ _ h)
    · exact ((hP _ _ _).trans (hP _ _ _)).trans (two h)
    · exact ((hP _ _ _).trans (hP _ _ _)).trans (two h)
    · obtain ⟨er, _, h⟩ := Option.bind_eq_some_iff.1 h
      refine Comp.Le.trans ?_ (two h)
      split
      · exact ((hP _ _ _).trans (hM _ _ _)).trans (hP _ _ _)
      · exact (hP _ _ _).trans (hM _ _ _)
    · exact ((hP _ _ _).trans (hP _ _ _)).trans (hE _ _ _ _ h)

theorem followPass_le (W : World) (F : Sets) (f : Nat) (rs : List Nat) : ∀ c c', followPass W F f rs c = some c' → c.Le c' := by
  induction rs with
  | nil => intro c c' h; cases h; exact .refl _
  | cons r rs ih =>
    intro c c' h
    obtain ⟨d, hd, h⟩ := Option.bind_eq_some_iff.1 h
    exact (enter_le (followGo_le W F f) hd).trans (ih _ _ h)

/-! ### The last round -/

/-- A call that changes nothing. -/
def FEv (W : World) (F S : Sets) (V : List Nat) (n : Nat) : Prop := ∃ f, followGo W F f V n ⟨S, false⟩ = some ⟨S, false⟩

/-- FOLLOW(s) is contained in FOLLOW(d). -/
def FIncl (W : World) (S : Sets) (s d : Nat) : Prop :=
  W.node d ≠ some .zero → W.node d ≠ some .term → ∀ x, W.node x = some .term → (s, x) ∈ S → (d, x) ∈ S

theorem fincl_of_merge {xs : List Nat} {d : Nat} (h : mergeFollow W d xs ⟨S, false⟩ = ⟨S, false⟩) (h1 : W.node d ≠ some .zero) (h2 : W.node d ≠ some .term)
    {x : Nat} (hx : W.node x = some .term) (hm : x ∈ xs) : (d, x) ∈ S := by
  have : (d, x) ∈ (mergeFollow W d xs ⟨S, false⟩).sets := mem_mergeFollow.2 (.inr ⟨⟨h1, h2⟩, rfl, hm, hx⟩)
  rw [h] at this; exact this

theorem fincl_of_pre {s d : Nat} (h : preCopy W d s ⟨S, false⟩ = ⟨S, false⟩) : FIncl W S s d :=
  fun h1 h2 _ hx hm => fincl_of_merge h h1 h2 hx (mem_of.2 hm)

/-- The first of two steps that change nothing together. -/
theorem le_mid {c : Comp} (h : c.Le ⟨S, false⟩) : c = ⟨S, false⟩ := eq_of_le h

theorem le_mid' {c d : Comp} (e : d = ⟨S, false⟩) (h : c.Le d) : c = ⟨S, false⟩ := le_mid (e ▸ h)

theorem enter_fev {f : Nat} {V : List Nat} {m : Nat} (h : enter (followGo W F f) V m ⟨S, false⟩ = some ⟨S, false⟩) (hm : m ∉ V) : FEv W F S (m :: V) m := by
  rw [enter, if_neg hm] at h; exact ⟨f, h⟩

section
variable {V : List Nat} {n : Nat}

theorem fev_unfold (h : FEv W F S V n) : ∃ f, followGo W F (f + 1) V n ⟨S, false⟩ = some ⟨S, false⟩ := by
  obtain ⟨f, h⟩ := h
  cases f with
  | zero => simp [followGo] at h
  | succ f => exact ⟨f, h⟩

theorem followOfSymbol_fincl {s : Nat} (h : followOfSymbol W n s ⟨S, false⟩ = ⟨S, false⟩) : FIncl W S n s := by
  unfold followOfSymbol at h
  cases e : W.searchRule s with
  | none => rw [e] at h; exact fincl_of_pre h
  | some r =>
    rw [e] at h; simp only at h
    have : preCopy W r n ⟨S, false⟩ = ⟨S, false⟩ := le_mid' h (mergeFollow_le _ _ _ _)
    rw [this] at h; exact fincl_of_pre h

theorem fev_symbol (h : FEv W F S V n) {s : Nat} (hn : W.node n = some (.nonterm s) ∨ W.node n = some (.inlined (some s))) : FIncl W S n s := by
  obtain ⟨f, h⟩ := fev_unfold h
  rcases hn with hn | hn <;>
  · rw [followGo, hn] at h
    exact followOfSymbol_fincl (Option.some.inj h)

theorem fev_direct (h : FEv W F S V n) {m : Nat} (hm : Direct W n m) : FEv W F S V m ∧ FIncl W S n m := by
  obtain ⟨f, h⟩ := fev_unfold h
  rw [followGo] at h
  have key : followGo W F f V m (preCopy W m n ⟨S, false⟩) = some ⟨S, false⟩ := by
    cases hm with
    | plus h1 h2 => rw [h1] at h; simp only [h2] at h; exact h
    | star h1 h2 => rw [h1] at h; simp only [h2] at h; exact h
    | op h1 h2 => rw [h1] at h; simp only [h2] at h; exact h
    | action h1 => rw [h1] at h; exact h
    | tryc h1 => rw [h1] at h; exact h
  have e := le_mid (followGo_le _ _ _ _ _ _ _ key)
  rw [e] at key
  exact ⟨⟨f, key⟩, fincl_of_pre e⟩

theorem fev_annot (h : FEv W F S V n) {i : Nat} (hn : W.node n = some (.annot i) ∨ W.node n = some (.cond i)) :
    (i ∉ V → FEv W F S (i :: V) i) ∧ FIncl W S n i := by
  obtain ⟨f, h⟩ := fev_unfold h
  rw [followGo] at h
  have key : enter (followGo W F f) V i (preCopy W i n ⟨S, false⟩) = some ⟨S, false⟩ := by
    rcases hn with hn | hn <;> · rw [hn] at h; exact h
  have e := le_mid (enter_le (followGo_le _ _ _) key)
  rw [e] at key
  exact ⟨enter_fev key, fincl_of_pre e⟩

/-- Two visits that change nothing. -/
theorem fev_pair {f : Nat} {l r : Nat} {c : Comp} (h : ((enter (followGo W F f) V l c).bind (enter (followGo W F f) V r)) = some ⟨S, false⟩) :
    c.Le ⟨S, false⟩ ∧ (c = ⟨S, false⟩ → (l ∉ V → FEv W F S (l :: V) l) ∧ (r ∉ V → FEv W F S (r :: V) r)) := by
  obtain ⟨d, hd, h'⟩ := Option.bind_eq_some_iff.1 h
  have e := le_mid (enter_le (followGo_le _ _ _) h')
  subst e
  refine ⟨enter_le (followGo_le _ _ _) hd, ?_⟩
  rintro rfl
  exact ⟨enter_fev hd, enter_fev h'⟩

theorem fev_two (h : FEv W F S V n) {l r : Nat} (hn : W.node n = some (.alt l r) ∨ W.node n = some (.tryc l (some r))) :
    (l ∉ V → FEv W F S (l :: V) l) ∧ (r ∉ V → FEv W F S (r :: V) r) ∧ FIncl W S n l ∧ FIncl W S n r := by
  obtain ⟨f, h⟩ := fev_unfold h
  rw [followGo] at h
  have key : (enter (followGo W F f) V l (preCopy W r n (preCopy W l n ⟨S, false⟩))).bind (enter (followGo W F f) V r) = some ⟨S, false⟩ := by
    rcases hn with hn | hn <;> · rw [hn] at h; exact h
  obtain ⟨h1, h2⟩ := fev_pair key
  have e2 := le_mid h1
  have e1 : preCopy W l n ⟨S, false⟩ = ⟨S, false⟩ := le_mid' e2 (mergeFollow_le _ _ _ _)
  obtain ⟨g1, g2⟩ := h2 e2
  rw [e1] at e2
  exact ⟨g1, g2, fincl_of_pre e1, fincl_of_pre e2⟩

theorem fev_evolve (h : FEv W F S V n) {i s : Nat} (hn : W.node n = some (.evolve i s)) :
    (i ∉ V → FEv W F S (i :: V) i) ∧ FIncl W S s n ∧ FIncl W S n i := by
  obtain ⟨f, h⟩ := fev_unfold h
  rw [followGo, hn] at h; simp only at h
  have e2 := le_mid (enter_le (followGo_le _ _ _) h)
  have e1 : preCopy W n s ⟨S, false⟩ = ⟨S, false⟩ := le_mid' e2 (mergeFollow_le _ _ _ _)
  rw [e2] at h
  rw [e1] at e2
  exact ⟨enter_fev h, fincl_of_pre e1, fincl_of_pre e2⟩

theorem fev_cons (h : FEv W F S V n) {l r : Nat} (hn : W.node n = some (.cons l r)) :
    ∃ er, reduces W F r = some er ∧ (l ∉ V → FEv W F S (l :: V) l) ∧ (r ∉ V → FEv W F S (r :: V) r) ∧ FIncl W S n r ∧
      (W.node l ≠ some .zero → W.node l ≠ some .term → ∀ x, W.node x = some .term → (r, x) ∈ F → (l, x) ∈ S) ∧ (er = true → FIncl W S n l) := by
  obtain ⟨f, h⟩ := fev_unfold h
  rw [followGo, hn] at h; simp only at h
  obtain ⟨er, her, h⟩ := Option.bind_eq_some_iff.1 h
  obtain ⟨h1, h2⟩ := fev_pair h
  have e3 := le_mid h1
  have e2 : mergeFollow W l (F.of r) (preCopy W r n ⟨S, false⟩) = ⟨S, false⟩ := by
    refine le_mid' e3 ?_
    split
    · exact mergeFollow_le _ _ _ _
    · exact .refl _
  have e1 : preCopy W r n ⟨S, false⟩ = ⟨S, false⟩ := le_mid' e2 (mergeFollow_le _ _ _ _)
  obtain ⟨g1, g2⟩ := h2 e3
  rw [e1] at e2 e3
  rw [e2] at e3
  refine ⟨er, her, g1, g2, fincl_of_pre e1, fun k1 k2 x hx hm => fincl_of_merge e2 k1 k2 hx (mem_of.2 hm), fun he => ?_⟩
  rw [if_pos he] at e3
  exact fincl_of_pre e3

end

/-- `m` is visited from `n` through the test of `mVisited`. -/
inductive FCalls (W : World) (n : Nat) : Nat → Prop
  | annot {i} : W.node n = some (.annot i) ∨ W.node n = some (.cond i) → FCalls W n i
  | evolve {i s} : W.node n = some (.evolve i s) → FCalls W n i
  | twoL {l r} : W.node n = some (.alt l r) ∨ W.node n = some (.tryc l (some r)) → FCalls W n l
  | twoR {l r} : W.node n = some (.alt l r) ∨ W.node n = some (.tryc l (some r)) → FCalls W n r
  | consL {l r} : W.node n = some (.cons l r) → FCalls W n l
  | consR {l r} : W.node n = some (.cons l r) → FCalls W n r

inductive FVis (W : World) : List Nat → Nat → Prop
  | rule {r} : r ∈ W.rules → FVis W [r] r
  | calls {V n m} : FVis W V n → FCalls W n m → m ∉ V → FVis W (m :: V) m
  | direct {V n m} : FVis W V n → Direct W n m → FVis W V m

/-- The last round. -/
def FQuiet (W : World) (F S : Sets) : Prop := ∃ f, followPass W F f W.rules ⟨S, false⟩ = some ⟨S, false⟩

theorem fpass_ev {f : Nat} {rs : List Nat} (h : followPass W F f rs ⟨S, false⟩ = some ⟨S, false⟩) : ∀ r ∈ rs, FEv W F S [r] r := by
  induction rs with
  | nil => simp
  | cons r rs ih =>
    obtain ⟨d, hd, h⟩ := Option.bind_eq_some_iff.1 h
    have : d = ⟨S, false⟩ := eq_of_le (followPass_le W F f rs _ _ h)
    subst this
    intro r' hr'
    rcases List.mem_cons.1 hr' with rfl | hr'
    · exact enter_fev hd (by simp)
    · exact ih h r' hr'

theorem FVis.ev (hq : FQuiet W F S) {V : List Nat} {n : Nat} (h : FVis W V n) : FEv W F S V n := by
  induction h with
  | rule hr => obtain ⟨f, hf⟩ := hq; exact fpass_ev hf _ hr
  | calls _ hc hm ih =>
    cases hc with
    | annot h => exact (fev_annot ih h).1 hm
    | evolve h => exact (fev_evolve ih h).1 hm
    | twoL h => exact (fev_two ih h).1 hm
    | twoR h => exact (fev_two ih h).2.1 hm
    | consL h => obtain ⟨_, _, g, _⟩ := fev_cons ih h; exact g hm
    | consR h => obtain ⟨_, _, _, g, _⟩ := fev_cons ih h; exact g hm
  | direct _ hd ih => exact (fev_direct ih hd).1

theorem FVis.anc {V : List Nat} {n : Nat} (h : FVis W V n) : ∀ m ∈ V, ∃ V', FVis W V' m := by
  induction h with
  | rule hr => intro m hm; rw [List.mem_singleton] at hm; subst hm; exact ⟨_, .rule hr⟩
  | calls hv hc hm ih =>
    intro k hk
    rcases List.mem_cons.1 hk with rfl | hk
    · exact ⟨_, .calls hv hc hm⟩
    · exact ih k hk
  | direct hv hd ih => exact ih

def FSeen (W : World) (n : Nat) : Prop := ∃ V, FVis W V n

theorem FSeen.calls {n m : Nat} (h : FSeen W n) (hc : FCalls W n m) : FSeen W m := by
  obtain ⟨V, hv⟩ := h
  by_cases hm : m ∈ V
  · exact hv.anc m hm
  · exact ⟨_, .calls hv hc hm⟩

theorem FSeen.direct {n m : Nat} (h : FSeen W n) (hc : Direct W n m) : FSeen W m := by
  obtain ⟨V, hv⟩ := h
  exact ⟨_, .direct hv hc⟩

/-- What is visited for the FOLLOW sets has been visited for the FIRST sets. -/
theorem FSeen.seen (hq : Quiet W F) {n : Nat} (h : FSeen W n) : Seen W F true n := by
  obtain ⟨V, h⟩ := h
  induction h with
  | rule hr => exact (Seen.rule hr).weaken
  | calls _ hc _ ih =>
    cases hc with
    | annot h => exact (ih.annot hq h).1
    | evolve h => exact (ih.evolve hq h).1
    | twoL h => exact (ih.two hq h).1
    | twoR h => exact (ih.two hq h).2.1
    | consL h => obtain ⟨_, _, _, _, _, g, _⟩ := ih.cons hq h; exact g.weaken
    | consR h => obtain ⟨_, _, _, _, g, _⟩ := ih.cons hq h; exact g.weaken
  | direct _ hd ih => exact ih.direct hd

/-! ### The theorem -/

theorem append_pair {α β γ δ : List Nat} {s t : Nat} (h : α ++ β = γ ++ s :: t :: δ) :
    (∃ δ', α = γ ++ s :: t :: δ') ∨ (∃ γ', β = γ' ++ s :: t :: δ) ∨ (α = γ ++ [s] ∧ β = t :: δ) := by
  rcases List.append_eq_append_iff.1 h with ⟨a', h1, h2⟩ | ⟨c', h1, h2⟩
  · exact .inr (.inl ⟨a', h2⟩)
  · cases c' with
    | nil =>
      simp only [List.nil_append] at h2
      exact .inr (.inl ⟨[], by simpa using h2.symm⟩)
    | cons x c' =>
      simp only [List.cons_append, List.cons.injEq] at h2
      obtain ⟨rfl, h2⟩ := h2
      cases c' with
      | nil => exact .inr (.inr ⟨h1, by simpa using h2.symm⟩)
      | cons y c' =>
        simp only [List.cons_append, List.cons.injEq] at h2
        obtain ⟨rfl, h2⟩ := h2
        exact .inl ⟨c', h1⟩

theorem append_last {α β γ : List Nat} {s : Nat} (h : α ++ β = γ ++ [s]) : (∃ γ', β = γ' ++ [s]) ∨ (β = [] ∧ α = γ ++ [s]) := by
  rcases List.append_eq_append_iff.1 h with ⟨a', h1, h2⟩ | ⟨c', h1, h2⟩
  · exact .inl ⟨a', h2⟩
  · cases c' with
    | nil => exact .inl ⟨[], by simpa using h2.symm⟩
    | cons x c' =>
      simp only [List.cons_append, List.cons.injEq] at h2
      obtain ⟨rfl, h2⟩ := h2
      have := List.append_eq_nil_iff.1 h2.symm
      rw [this.1] at h1
      exact .inr ⟨this.2, h1⟩

theorem derB_nonempty {n s : Nat} {α : List Nat} (h : DerB W n (α ++ [s])) (hs : W.node s = some .sym) : W.node n ≠ some .zero ∧ W.node n ≠ some .term := by
  constructor
  · intro hn
    generalize hβ : α ++ [s] = β at h
    cases h with
    | zero => simp at hβ
    | term h => rw [hn] at h; cases h
    | sym h => rw [hn] at h; cases h
    | expand h => rw [hn] at h; cases h
    | evolve h => rw [hn] at h; cases h
    | nonterm h => rcases h with h | h <;> · rw [hn] at h; cases h
    | cons h => rw [hn] at h; cases h
    | two h => rcases h with h | h <;> · rw [hn] at h; cases h
    | action0 h => rw [hn] at h; cases h
    | annot h => rcases h with h | h <;> · rw [hn] at h; cases h
    | direct h => cases h with
      | plus h => rw [hn] at h; cases h
      | star h => rw [hn] at h; cases h
      | op h => rw [hn] at h; cases h
      | action h => rw [hn] at h; cases h
      | tryc h => rw [hn] at h; cases h
  · intro hn
    generalize hβ : α ++ [s] = β at h
    cases h with
    | zero h => rw [hn] at h; cases h
    | term h =>
      have : s = n := by
        have := congrArg List.getLast? hβ
        simpa using this
      subst this; rw [hn] at hs; cases hs
    | sym h => rw [hn] at h; cases h
    | expand h => rw [hn] at h; cases h
    | evolve h => rw [hn] at h; cases h
    | nonterm h => rcases h with h | h <;> · rw [hn] at h; cases h
    | cons h => rw [hn] at h; cases h
    | two h => rcases h with h | h <;> · rw [hn] at h; cases h
    | action0 h => rw [hn] at h; cases h
    | annot h => rcases h with h | h <;> · rw [hn] at h; cases h
    | direct h => cases h with
      | plus h => rw [hn] at h; cases h
      | star h => rw [hn] at h; cases h
      | op h => rw [hn] at h; cases h
      | action h => rw [hn] at h; cases h
      | tryc h => rw [hn] at h; cases h

/-- What follows symbols in derived forms is in their FOLLOW sets; what follows the item, is in FOLLOW of the last symbol. -/
theorem follow_complete (hw : Wf W) (hq : Quiet W F) (hi : ∀ p ∈ initFirst W, p ∈ F) (ho : OpsOk W) (hb : BareOk W) (hS : FQuiet W F S)
    {n : Nat} {ω : List Nat} (h : DerB W n ω) (hn : FSeen W n ∨ W.node n = some .sym) :
    (∀ α s t β, ω = α ++ s :: t :: β → W.node s = some .sym → t ∈ W.terminals → (s, t) ∈ S) ∧
    (∀ α s t, ω = α ++ [s] → W.node s = some .sym → W.node t = some .term → (n, t) ∈ S → (s, t) ∈ S) := by
  have ns : ∀ {n it}, (FSeen W n ∨ W.node n = some .sym) → W.node n = some it → it ≠ .sym → FSeen W n := by
    intro n it h1 h2 h3
    rcases h1 with h1 | h1
    · exact h1
    · rw [h2] at h1; cases h1; exact absurd rfl h3
  have ev : ∀ {n}, FSeen W n → ∃ V, FEv W F S V n := fun ⟨V, hv⟩ => ⟨V, hv.ev hS⟩
  -- passing on what follows to the one item that derives the form
  have pass : ∀ {n m : Nat} {ω : List Nat}, DerB W m ω → FIncl W S n m →
      ((∀ α s t β, ω = α ++ s :: t :: β → W.node s = some .sym → t ∈ W.terminals → (s, t) ∈ S) ∧
       (∀ α s t, ω = α ++ [s] → W.node s = some .sym → W.node t = some .term → (m, t) ∈ S → (s, t) ∈ S)) →
      ((∀ α s t β, ω = α ++ s :: t :: β → W.node s = some .sym → t ∈ W.terminals → (s, t) ∈ S) ∧
       (∀ α s t, ω = α ++ [s] → W.node s = some .sym → W.node t = some .term → (n, t) ∈ S → (s, t) ∈ S)) := by
    intro n m ω hd hinc ⟨h1, h2⟩
    refine ⟨h1, fun α s t e hs ht hm => h2 α s t e hs ht ?_⟩
    have := derB_nonempty (e ▸ hd) hs
    exact hinc this.1 this.2 t ht hm
  induction h with
  | zero => exact ⟨fun α s t β e => by simp at e, fun α s t e => by simp at e⟩
  | action0 => exact ⟨fun α s t β e => by simp at e, fun α s t e => by simp at e⟩
  | @term n h =>
    refine ⟨fun α s t β e => ?_, fun α s t e hs => ?_⟩
    · have := congrArg List.length e; simp at this; omega
    · have : s = n := by have := congrArg List.getLast? e; simpa using this.symm
      subst this; rw [h] at hs; cases hs
  | @sym n h =>
    refine ⟨fun α s t β e => ?_, fun α s t e hs ht hm => ?_⟩
    · have := congrArg List.length e; simp at this; omega
    · have : s = n := by have := congrArg List.getLast? e; simpa using this.symm
      subst this; exact hm
  | @expand n r i α h hr hnr hd ih =>
    have hr' : FSeen W r := ⟨_, .rule hr⟩
    obtain ⟨V, hv⟩ := ev hr'
    obtain ⟨_, g1, g2⟩ := fev_evolve hv hnr
    have h3 := ih (.inl (hr'.calls (.evolve hnr)))
    refine pass hd (fun k1 k2 x hx hm => g2 k1 k2 x hx (g1 (by rw [hnr]; simp) (by rw [hnr]; simp) x hx hm)) h3
  | @evolve n i s α h hd ih =>
    have hs := ns hn h (by simp)
    obtain ⟨V, hv⟩ := ev hs
    exact pass hd (fev_evolve hv h).2.2 (ih (.inl (hs.calls (.evolve h))))
  | @nonterm n s α h hd ih =>
    have hs : FSeen W n := by rcases h with h | h <;> exact ns hn h (by simp)
    obtain ⟨V, hv⟩ := ev hs
    refine pass hd (fev_symbol hv h) (ih (.inr ?_))
    rcases h with h | h
    · exact hw.symbols _ _ (.inl h)
    · exact hw.symbols _ _ (.inr (.inl h))
  | @two n l r m α h hm hd ih =>
    have hs : FSeen W n := by rcases h with h | h <;> exact ns hn h (by simp)
    obtain ⟨V, hv⟩ := ev hs
    obtain ⟨_, _, g1, g2⟩ := fev_two hv h
    rcases hm with rfl | rfl
    · exact pass hd g1 (ih (.inl (hs.calls (.twoL h))))
    · exact pass hd g2 (ih (.inl (hs.calls (.twoR h))))
  | @annot n i α h hd ih =>
    have hs : FSeen W n := by rcases h with h | h <;> exact ns hn h (by simp)
    obtain ⟨V, hv⟩ := ev hs
    exact pass hd (fev_annot hv h).2 (ih (.inl (hs.calls (.annot h))))
  | @direct n m α h hd ih =>
    have hs : FSeen W n := by
      cases h with
      | plus h => exact ns hn h (by simp)
      | star h => exact ns hn h (by simp)
      | op h => exact ns hn h (by simp)
      | action h => exact ns hn h (by simp)
      | tryc h => exact ns hn h (by simp)
    obtain ⟨V, hv⟩ := ev hs
    exact pass hd (fev_direct hv h).2 (ih (.inl (hs.direct h)))
  | @cons n l r α β h hl hr ih1 ih2 =>
    have hs := ns hn h (by simp)
    obtain ⟨V, hv⟩ := ev hs
    obtain ⟨er, her, _, _, g1, g2, g3⟩ := fev_cons hv h
    have hr' := hs.calls (.consR h)
    obtain ⟨a1, a2⟩ := ih1 (.inl (hs.calls (.consL h)))
    obtain ⟨b1, b2⟩ := ih2 (.inl hr')
    refine ⟨fun γ s t δ e hs ht => ?_, fun γ s t e hs ht hm => ?_⟩
    · rcases append_pair e with ⟨δ', e⟩ | ⟨γ', e⟩ | ⟨e1, e2⟩
      · exact a1 _ _ _ _ e hs ht
      · exact b1 _ _ _ _ e hs ht
      · have ht' := hw.terminals t ht
        have hf : (r, t) ∈ F := tok_first hw hq hi ho hb (der_of_derB hw hr) e2 ht' (hi _ (by simp [initFirst]; exact .inr ht)) (.inl (hr'.seen hq))
        have hz := derB_nonempty (e1 ▸ hl) hs
        exact a2 γ s t e1 hs ht' (g2 hz.1 hz.2 t ht' hf)
    · rcases append_last e with ⟨γ', e⟩ | ⟨e1, e2⟩
      · have hz := derB_nonempty (e ▸ hr) hs
        exact b2 _ s t e hs ht (g1 hz.1 hz.2 t ht hm)
      · subst e1
        have hnull : Nullable W r := der_of_derB hw hr
        have : er = true := by
          rcases (nz_first hw hq hi (nz_of_null ho hb hnull rfl)).2 with ⟨i, s', h'⟩ | h'
          · exact absurd h' (hw.parts n r i s' (.consR h))
          · exact reduces_of_says h' her
        have hz := derB_nonempty (e2 ▸ hl) hs
        exact a2 γ s t e2 hs ht (g3 this hz.1 hz.2 t ht hm)

/-! ### The end of the computation -/

theorem followLoop_quiet {f : Nat} : ∀ (k : Nat) (c : Comp) (S : Sets), followLoop W F f k c = some S → FQuiet W F S ∧ ∀ p ∈ c.sets, p ∈ S := by
  intro k
  induction k with
  | zero => intro c S h; simp [followLoop] at h
  | succ k ih =>
    intro c S h
    rw [followLoop] at h
    cases e : followPass W F f W.rules c with
    | none => rw [e] at h; cases h
    | some d =>
      rw [e] at h
      simp only at h
      have hle := followPass_le W F f W.rules _ _ e
      split at h
      · obtain ⟨h1, h2⟩ := ih _ _ h
        exact ⟨h1, fun p hp => h2 p (hle.sub p hp)⟩
      · next hc =>
        cases h
        have hd : d.changed = false := by simpa using hc
        have := hle.eq hd
        subst this
        refine ⟨⟨f, ?_⟩, fun p hp => hp⟩
        have : d = ⟨d.sets, false⟩ := by cases d; simp_all
        rw [← this]; exact e

theorem mem_initFollow {eof r i s : Nat} (hr : r ∈ W.rules) (hn : W.node r = some (.evolve i s)) (hs : s ∈ W.start) :
    (s, eof) ∈ (initFollow W eof).sets := by
  have mono : ∀ (rs : List Nat) (c : Comp) (p : Nat × Nat), p ∈ c.sets → p ∈ (rs.foldl (fun c r => match W.node r with
    | some (.evolve i s) => if s ∈ W.start then ((c.insert r eof).insert s eof).insert i eof else c
    | _ => c) c).sets := by
    intro rs
    induction rs with
    | nil => exact fun c p h => h
    | cons r rs ih =>
      intro c p hp
      refine ih _ _ ?_
      simp only
      split
      · split
        · simp [mem_insert, hp]
        · exact hp
      · exact hp
  have key : ∀ (rs : List Nat) (c : Comp), r ∈ rs → (s, eof) ∈ (rs.foldl (fun c r => match W.node r with
    | some (.evolve i s) => if s ∈ W.start then ((c.insert r eof).insert s eof).insert i eof else c
    | _ => c) c).sets := by
    intro rs
    induction rs with
    | nil => intro c h; cases h
    | cons r' rs ih =>
      intro c h
      rcases List.mem_cons.1 h with rfl | h
      · rw [List.foldl_cons]
        refine mono rs _ _ ?_
        simp only [hn, hs, if_true]
        simp [mem_insert]
      · exact ih _ h
  exact key _ _ hr

end Verif.Grammar
