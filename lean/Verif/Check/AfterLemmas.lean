import Verif.Check.Walk
import Verif.Grammar.FirstProps
import Verif.Grammar.FollowProps
import Verif.Grammar.FollowSound

/-! # What can come after an item is in its FOLLOW set (lemmas for C40) -/

namespace Verif.Check

open Verif.Grammar

/-- What is assumed of the grammar and of its sets. -/
structure Done (W : World) (F S : Sets) (eof : Nat) : Prop where
  wf : Wf W
  ops : OpsOk W
  bare : BareOk W
  quiet : Quiet W F
  init : ∀ p ∈ initFirst W, p ∈ F
  follow : FQuiet W F S
  start : ∀ p ∈ (initFollow W eof).sets, p ∈ S
  eof : W.node eof = some .term

section
variable {W : World} {F S : Sets} {eof : Nat}

/-- In the FOLLOW set, if the item has one. -/
def Fol (W : World) (S : Sets) (n a : Nat) : Prop := W.node n ≠ some .zero → W.node n ≠ some .term → (n, a) ∈ S

theorem Fol.mem {n a it} (h : Fol W S n a) (hn : W.node n = some it) (h1 : it ≠ .zero) (h2 : it ≠ .term) : (n, a) ∈ S :=
  h (by rw [hn]; simpa using h1) (by rw [hn]; simpa using h2)

theorem Fol.incl {n m a} (h : (n, a) ∈ S) (ha : W.node a = some .term) (hi : FIncl W S n m) : Fol W S m a := fun h1 h2 => hi h1 h2 a ha h

variable (R : Done W F S eof)
include R

theorem fev_of {n : Nat} (h : FSeen W n) : ∃ V, FEv W F S V n := by
  obtain ⟨V, hv⟩ := h
  exact ⟨V, hv.ev R.follow⟩

theorem first_mem {n t : Nat} {γ : List Nat} (hs : FSeen W n ∨ W.node n = some .sym) (ht : t ∈ W.terminals) (h : Der W n (t :: γ)) : (n, t) ∈ F := by
  refine tok_first R.wf R.quiet R.init R.ops R.bare h rfl (R.wf.terminals t ht) (R.init _ (by simp [initFirst]; exact .inr ht)) ?_
  rcases hs with hs | hs
  · exact .inl (hs.seen R.quiet)
  · exact .inr hs

theorem seq_follow {n l r a : Nat} (hs : FSeen W n) (hn : W.node n = some (.cons l r)) (ha : W.node a = some .term) (hf : (n, a) ∈ S) :
    Fol W S r a ∧ (Nullable W r → Fol W S l a) := by
  obtain ⟨V, hv⟩ := fev_of R hs
  obtain ⟨er, her, _, _, g1, g2, g3⟩ := fev_cons hv hn
  refine ⟨.incl hf ha g1, fun h => ?_⟩
  have : er = true := by
    rcases (nz_first R.wf R.quiet R.init (nz_of_null R.ops R.bare h rfl)).2 with ⟨i, s', h'⟩ | h'
    · exact absurd h' (R.wf.parts n r i s' (.consR hn))
    · exact reduces_of_says h' her
  exact .incl hf ha (g3 this)

theorem seq_first {n l r t : Nat} {γ : List Nat} (hs : FSeen W n) (hn : W.node n = some (.cons l r)) (hd : Der W r (t :: γ)) (ht : t ∈ W.terminals) :
    Fol W S l t := by
  obtain ⟨V, hv⟩ := fev_of R hs
  obtain ⟨er, her, _, _, g1, g2, g3⟩ := fev_cons hv hn
  exact fun h1 h2 => g2 h1 h2 t (R.wf.terminals t ht) (first_mem R (.inl (hs.calls (.consR hn))) ht hd)

theorem chain_fol {top base : Nat} {b0 : Item} (hb : W.node base = some b0) (hb1 : b0 ≠ .zero) (hb2 : b0 ≠ .term) : ∀ {bs : List OpBody} {j : Nat},
    ChainAt W top base bs j → FSeen W j →
    (∀ b ∈ bs, ∃ l, BodyAt W top b l ∧ FSeen W l) ∧ FSeen W base ∧ ∀ x, W.node x = some .term → (j, x) ∈ S → (base, x) ∈ S
  | [], j, h, hs => by
    cases h
    exact ⟨by simp, hs, fun x _ h => h⟩
  | b :: bs, j, h, hs => by
    obtain ⟨r, h1, h2, _, h3⟩ := h
    obtain ⟨g1, g2, g3⟩ := chain_fol hb hb1 hb2 h3 (hs.calls (.twoR (.inl h1)))
    refine ⟨?_, g2, ?_⟩
    · intro y hy
      rcases List.mem_cons.mp hy with rfl | hy
      · exact ⟨_, h2, hs.calls (.twoL (.inl h1))⟩
      · exact g1 y hy
    · intro x hx hm
      refine g3 x hx ?_
      obtain ⟨V, hv⟩ := fev_of R hs
      obtain ⟨_, _, _, k⟩ := fev_two hv (.inl h1)
      by_cases hz : W.node r = some .zero ∨ W.node r = some .term
      · exfalso
        cases bs with
        | nil =>
          have : r = base := h3
          subst this
          rw [hb] at hz
          rcases hz with hz | hz <;> cases hz
          · exact hb1 rfl
          · exact hb2 rfl
        | cons b' bs =>
          obtain ⟨r', h4, -⟩ := h3
          rw [h4] at hz
          rcases hz with hz | hz <;> cases hz
      · rw [not_or] at hz
        exact k hz.1 hz.2 x hx hm

theorem op_fol {n : Nat} {o : OpItem} (hs : FSeen W n) (hn : W.node n = some (.op o)) :
    ∃ k, W.bnf n = some k ∧ FSeen W k ∧ (∀ b ∈ o.bodies, ∃ l, BodyAt W k b l ∧ FSeen W l) ∧ FSeen W o.base ∧
      (∀ x, W.node x = some .term → (k, x) ∈ S → (o.base, x) ∈ S) ∧ (∃ α, Der W k α) ∧ ∃ it, W.node k = some it ∧ it ≠ .zero ∧ it ≠ .term := by
  obtain ⟨k, h1, h2, _⟩ := R.wf.bnf.op n o hn
  obtain ⟨s, hb⟩ := R.wf.opBase n o hn
  have sk := hs.direct (.op hn h1)
  obtain ⟨g1, g2, g3⟩ := chain_fol R hb (by simp) (by simp) h2 sk
  refine ⟨k, h1, sk, g1, g2, g3, productive_top R.wf hn h2, ?_⟩
  cases hbs : o.bodies with
  | nil =>
    rw [hbs] at h2
    have : k = o.base := h2
    exact ⟨_, this ▸ hb, by simp, by simp⟩
  | cons b bs =>
    rw [hbs] at h2
    obtain ⟨r, h, -⟩ := h2
    exact ⟨_, h, by simp, by simp⟩

theorem occurs_fseen {n : Nat} (h : Occurs W n) : FSeen W n := by
  induction h with
  | rule hr => exact ⟨_, .rule hr⟩
  | part _ hp ih =>
    cases hp with
    | evolve hn => exact ih.calls (.evolve hn)
    | consL hn => exact ih.calls (.consL hn)
    | consR hn => exact ih.calls (.consR hn)
    | altL hn => exact ih.calls (.twoL (.inl hn))
    | altR hn => exact ih.calls (.twoR (.inl hn))
    | action hn => exact ih.direct (.action hn)
    | cond hn => exact ih.calls (.annot (.inr hn))
    | annot hn => exact ih.calls (.annot (.inl hn))
    | tryL hn =>
      rename_i r
      rcases r with _ | r
      · exact ih.direct (.tryc hn)
      · exact ih.calls (.twoL (.inr hn))
    | tryR hn => exact ih.calls (.twoR (.inr hn))
    | plus hn =>
      obtain ⟨c, a, h1, h2, h3⟩ := R.wf.bnf.plus _ _ hn
      exact (ih.direct (.plus hn h1)).calls (.consL h2)
    | star hn =>
      obtain ⟨c, a, h1, h2, h3⟩ := R.wf.bnf.star _ _ hn
      exact ((ih.direct (.star hn h1)).calls (.twoR (.inl h3))).calls (.consL h2)
    | opBase hn =>
      obtain ⟨k, -, -, -, h, -⟩ := op_fol R ih hn
      exact h

theorem loop_nodes {n i : Nat} (hs : FSeen W n) (hn : W.node n = some (.star i) ∨ W.node n = some (.plus i)) :
    ∃ c a, W.node c = some (.cons i a) ∧ W.node a = some (.alt W.zero c) ∧ FSeen W c ∧ FIncl W S a c ∧
      ∀ x, W.node x = some .term → (n, x) ∈ S → (c, x) ∈ S := by
  rcases hn with hn | hn
  · obtain ⟨c, a, h1, h2, h3⟩ := R.wf.bnf.star _ _ hn
    have sa := hs.direct (.star hn h1)
    have sc := sa.calls (.twoR (.inl h3))
    obtain ⟨V, hv⟩ := fev_of R sa
    obtain ⟨_, _, _, k⟩ := fev_two hv (.inl h3)
    obtain ⟨V', hv'⟩ := fev_of R hs
    have k' := (fev_direct hv' (.star hn h1)).2
    exact ⟨c, a, h2, h3, sc, k, fun x hx h => k (by rw [h2]; simp) (by rw [h2]; simp) x hx (k' (by rw [h3]; simp) (by rw [h3]; simp) x hx h)⟩
  · obtain ⟨c, a, h1, h2, h3⟩ := R.wf.bnf.plus _ _ hn
    have sc := hs.direct (.plus hn h1)
    obtain ⟨V, hv⟩ := fev_of R sc
    obtain ⟨_, _, _, sa', _⟩ := fev_cons hv h2
    have sa := sc.calls (.consR h2)
    obtain ⟨V1, hv1⟩ := fev_of R sa
    obtain ⟨_, _, _, k⟩ := fev_two hv1 (.inl h3)
    obtain ⟨V', hv'⟩ := fev_of R hs
    have k' := (fev_direct hv' (.plus hn h1)).2
    exact ⟨c, a, h2, h3, sc, k, fun x hx h => k' (by rw [h2]; simp) (by rw [h2]; simp) x hx h⟩

theorem after_fol {n t : Nat} (h : After W eof n t) : W.node t = some .term ∧ Fol W S n t := by
  induction h with
  | start hr hn hs => exact ⟨R.eof, fun _ _ => R.start _ (mem_initFollow hr hn hs)⟩
  | symbol hn hs _ ih =>
    obtain ⟨V, hv⟩ := fev_of R (occurs_fseen R hn)
    refine ⟨ih.1, .incl ?_ ih.1 (fev_symbol hv hs)⟩
    rcases hs with hs | hs
    · exact ih.2.mem hs (by simp) (by simp)
    · exact ih.2.mem hs (by simp) (by simp)
  | @rule r i s t hr hn _ ih =>
    have hs := R.wf.symbols r s (.inr (.inr ⟨i, hn⟩))
    obtain ⟨V, hv⟩ := fev_of R (occurs_fseen R (.rule hr))
    obtain ⟨_, k1, k2⟩ := fev_evolve hv hn
    refine ⟨ih.1, .incl ?_ ih.1 k2⟩
    exact k1 (by rw [hn]; simp) (by rw [hn]; simp) t ih.1 (ih.2.mem hs (by simp) (by simp))
  | last hn h _ ih => exact ⟨ih.1, (seq_follow R (occurs_fseen R hn) h ih.1 (ih.2.mem h (by simp) (by simp))).1⟩
  | next hn h ht hd => exact ⟨R.wf.terminals _ ht, seq_first R (occurs_fseen R hn) h hd ht⟩
  | skip hn h h' _ ih => exact ⟨ih.1, (seq_follow R (occurs_fseen R hn) h ih.1 (ih.2.mem h (by simp) (by simp))).2 h'⟩
  | @again n i t γ hn h ht hd =>
    obtain ⟨c, a, h1, h2, sc, -, -⟩ := loop_nodes R (occurs_fseen R hn) h
    have hc : Der W a (t :: γ) := by
      refine .altR h2 ?_
      have := Der.cons h1 hd (.altL h2 (.zero R.wf.zero))
      simpa using this
    exact ⟨R.wf.terminals _ ht, seq_first R sc h1 hc ht⟩
  | @operand n o t hn h ht hm =>
    have hT := R.wf.terminals t ht
    obtain ⟨k, hk, sk, hbs, -, hbase, ⟨α, hα⟩, it, hit, hz1, hz2⟩ := op_fol R (occurs_fseen R hn) h
    refine ⟨hT, fun _ _ => hbase t hT ?_⟩
    have kz : W.node k ≠ some .zero := by rw [hit]; simpa using hz1
    have kt : W.node k ≠ some .term := by rw [hit]; simpa using hz2
    simp only [List.mem_append, List.mem_map] at hm
    rcases hm with (((hm | hm) | ⟨⟨t1, t2⟩, hm, rfl⟩) | ⟨⟨t1, t2⟩, hm, rfl⟩) | ⟨⟨t1, t2⟩, hm, rfl⟩
    · obtain ⟨l, hl, sl⟩ := hbs (.post t) (by simp [OpItem.bodies, hm])
      exact seq_first R sl hl (.term hT) ht kz kt
    · obtain ⟨l, ⟨hl, hl2⟩, sl⟩ := hbs (.bin t) (by simp [OpItem.bodies, hm])
      exact seq_first R sl hl (.cons hl2 (.term hT) hα) ht kz kt
    · obtain ⟨l, ⟨hl, hl2, hl3, hl4⟩, sl⟩ := hbs (.tern t1 t2) (by simp [OpItem.bodies, hm])
      have ht2 : W.node t2 = some .term := ((R.wf.opToks n o h).2 (t1, t2) (by simp [hm])).2
      exact seq_first R sl hl (.cons hl2 (.term hT) (.cons hl3 hα (.cons hl4 (.term ht2) hα))) ht kz kt
    · obtain ⟨l, ⟨hl, hl2, hl3, hl4⟩, sl⟩ := hbs (.tern t1 t2) (by simp [OpItem.bodies, hm])
      have s1 := sl.calls (.consR hl)
      have s2 := s1.calls (.consR hl2)
      exact seq_first R s2 hl3 (.cons hl4 (.term hT) hα) ht kz kt
    · obtain ⟨l, ⟨hl, hl2⟩, sl⟩ := hbs (.paren t1 t2) (by simp [OpItem.bodies, hm])
      exact seq_first R (sl.calls (.consR hl)) hl2 (.term hT) ht kz kt
  | @same n m t hn hnc hne hp _ ih =>
    refine ⟨ih.1, ?_⟩
    have sn := occurs_fseen R hn
    obtain ⟨V, hv⟩ := fev_of R sn
    have mem : ∀ {it}, W.node n = some it → it ≠ .zero → it ≠ .term → (n, t) ∈ S := fun h h1 h2 => ih.2.mem h h1 h2
    cases hp with
    | evolve h => exact absurd h (hne _ _)
    | consL h => exact absurd h (hnc _ _)
    | consR h => exact absurd h (hnc _ _)
    | altL h => exact .incl (mem h (by simp) (by simp)) ih.1 (fev_two hv (.inl h)).2.2.1
    | altR h => exact .incl (mem h (by simp) (by simp)) ih.1 (fev_two hv (.inl h)).2.2.2
    | action h => exact .incl (mem h (by simp) (by simp)) ih.1 (fev_direct hv (.action h)).2
    | cond h => exact .incl (mem h (by simp) (by simp)) ih.1 (fev_annot hv (.inr h)).2
    | annot h => exact .incl (mem h (by simp) (by simp)) ih.1 (fev_annot hv (.inl h)).2
    | tryL h =>
      rename_i r
      rcases r with _ | r
      · exact .incl (mem h (by simp) (by simp)) ih.1 (fev_direct hv (.tryc h)).2
      · exact .incl (mem h (by simp) (by simp)) ih.1 (fev_two hv (.inr h)).2.2.1
    | tryR h => exact .incl (mem h (by simp) (by simp)) ih.1 (fev_two hv (.inr h)).2.2.2
    | plus h =>
      obtain ⟨c, a, h1, h2, sc, -, k⟩ := loop_nodes R sn (.inr h)
      exact (seq_follow R sc h1 ih.1 (k t ih.1 (mem h (by simp) (by simp)))).2 (.altL h2 (.zero R.wf.zero))
    | star h =>
      obtain ⟨c, a, h1, h2, sc, -, k⟩ := loop_nodes R sn (.inl h)
      exact (seq_follow R sc h1 ih.1 (k t ih.1 (mem h (by simp) (by simp)))).2 (.altL h2 (.zero R.wf.zero))
    | opBase h =>
      obtain ⟨k, hk, sk, -, -, hbase, -, it, hit, hz1, hz2⟩ := op_fol R sn h
      exact fun _ _ => hbase t ih.1 ((Fol.incl (mem h (by simp) (by simp)) ih.1 (fev_direct hv (.op h hk)).2).mem hit hz1 hz2)

end

end Verif.Check
