import Verif.Grammar.FirstLemmas
import Verif.Grammar.Bnf

/-!
# FIRST sets contain what they should
-/

namespace Verif.Grammar

variable {W : World} {F : Sets}

theorem passes_false (W : World) (x : Nat) : passes W false x = true := by simp [passes]

theorem passes_true {W : World} {x : Nat} : passes W true x = true ↔ W.node x ≠ some .zero := by simp [passes]

theorem Incl.weaken {b b' : Bool} {s d : Nat} (h : Incl W F b s d) (hb : b' = false → b = false) : Incl W F b' s d := by
  intro x hx hp
  refine h x hx ?_
  cases b' with
  | true => cases b with
    | true => exact hp
    | false => exact passes_false _ _
  | false => rw [hb rfl]; exact passes_false _ _

theorem Incl.refl (b : Bool) (n : Nat) : Incl W F b n n := fun _ h _ => h

theorem Incl.trans {b : Bool} {s m d : Nat} (h : Incl W F b s m) (g : Incl W F b m d) : Incl W F b s d :=
  fun x hx hp => g x (h x hx hp) hp

section
variable (hq : Quiet W F)
include hq

theorem Seen.symbol {b : Bool} {n s : Nat} (h : Seen W F b n) (hn : W.node n = some (.nonterm s) ∨ W.node n = some (.inlined (some s))) :
    Incl W F b s n := by
  obtain ⟨b₀, V, hv, hb⟩ := h
  rcases hn with hn | hn
  · exact (ev_nonterm (hv.ev hq) hn).weaken hb
  · exact (ev_inlined (hv.ev hq) hn).weaken hb

theorem Seen.direct' {b : Bool} {n m : Nat} (h : Seen W F b n) (hd : Direct W n m) : Seen W F b m ∧ Incl W F b m n := by
  refine ⟨h.direct hd, ?_⟩
  obtain ⟨b₀, V, hv, hb⟩ := h
  exact (ev_direct (hv.ev hq) hd).2.weaken hb

theorem Seen.annot {b : Bool} {n i : Nat} (h : Seen W F b n) (hn : W.node n = some (.annot i) ∨ W.node n = some (.cond i)) :
    Seen W F b i ∧ Incl W F b i n := by
  constructor
  · have := h.calls (b' := false) (m := i) (fun b₀ => by
      rw [Bool.or_false]; rcases hn with hn | hn
      · exact .annot hn
      · exact .cond hn)
    simpa using this
  · obtain ⟨b₀, V, hv, hb⟩ := h
    exact (ev_annot (hv.ev hq) hn).2.weaken hb

theorem Seen.two {b : Bool} {n l r : Nat} (h : Seen W F b n) (hn : W.node n = some (.alt l r) ∨ W.node n = some (.tryc l (some r))) :
    Seen W F b l ∧ Seen W F b r ∧ Incl W F b l n ∧ Incl W F b r n := by
  refine ⟨?_, ?_, ?_⟩
  · have := h.calls (b' := false) (m := l) (fun b₀ => by
      rw [Bool.or_false]; rcases hn with hn | hn
      · exact .altL hn
      · exact .tryL hn)
    simpa using this
  · have := h.calls (b' := false) (m := r) (fun b₀ => by
      rw [Bool.or_false]; rcases hn with hn | hn
      · exact .altR hn
      · exact .tryR hn)
    simpa using this
  · obtain ⟨b₀, V, hv, hb⟩ := h
    have := ev_two (hv.ev hq) hn
    exact ⟨this.2.2.1.weaken hb, this.2.2.2.weaken hb⟩

theorem Seen.evolve {b : Bool} {n i s : Nat} (h : Seen W F b n) (hn : W.node n = some (.evolve i s)) :
    Seen W F b i ∧ Incl W F b i n ∧ Incl W F b n s := by
  constructor
  · have := h.calls (b' := false) (m := i) (fun b₀ => by rw [Bool.or_false]; exact .evolve hn)
    simpa using this
  · obtain ⟨b₀, V, hv, hb⟩ := h
    have := ev_evolve (hv.ev hq) hn
    exact ⟨this.2.1.weaken hb, this.2.2.weaken hb⟩

theorem Seen.cons {b : Bool} {n l r : Nat} (h : Seen W F b n) (hn : W.node n = some (.cons l r)) :
    ∃ er el, reduces W F r = some er ∧ reduces W F l = some el ∧ Seen W F b r ∧ Seen W F (b || !er) l ∧ Incl W F (b || !er) l n ∧
      (el = true → Incl W F (b || !er) r n) := by
  have h0 := h
  obtain ⟨b₀, V, hv, hb⟩ := h
  obtain ⟨er, el, h1, h2, h3, h4, h5, h6⟩ := ev_cons (hv.ev hq) hn
  have hw : (b || !er) = false → (b₀ || !er) = false := by
    intro e; cases b
    · have := hb rfl; subst this; exact e
    · simp at e
  refine ⟨er, el, h1, h2, ?_, ?_, h5.weaken hw, fun e => (h6 e).weaken hw⟩
  · have := h0.calls (b' := false) (m := r) (fun b₀ => by rw [Bool.or_false]; exact .consR hn)
    simpa using this
  · exact h0.calls (b' := !er) (m := l) (fun b₀ => .consL hn h1)

end

/-! ### Nullability -/

/-- `reducesToEpsilon` answers yes, whatever has been visited. -/
def Says (W : World) (F : Sets) (n : Nat) : Prop := ∀ f v b v', r2e W F f n v = some (b, v') → b = true

theorem r2e_says {n : Nat} (h : ∀ f v b v', n ∉ v → r2e W F (f + 1) n v = some (b, v') → b = true) : Says W F n := by
  intro f v b v' e
  cases f with
  | zero => simp [r2e] at e
  | succ f =>
    by_cases hv : n ∈ v
    · rw [r2e, if_pos hv] at e; cases e; rfl
    · exact h f v b v' hv e

theorem reduces_of_says {n : Nat} {b : Bool} (h : Says W F n) (e : reduces W F n = some b) : b = true := by
  unfold reduces at e
  obtain ⟨⟨b', v⟩, h1, rfl⟩ := Option.map_eq_some_iff.1 e
  exact h _ _ _ _ h1

theorem says_const {n : Nat} (hn : W.node n = some .zero ∨ W.node n = some (.action none) ∨ ∃ i, W.node n = some (.star i)) : Says W F n := by
  refine r2e_says fun f v b v' hv e => ?_
  rw [r2e, if_neg hv] at e
  rcases hn with hn | hn | ⟨i, hn⟩ <;> · rw [hn] at e; cases e; rfl

theorem says_one {n i : Nat} (hn : W.node n = some (.action (some i)) ∨ W.node n = some (.cond i) ∨ W.node n = some (.annot i) ∨
    W.node n = some (.plus i) ∨ W.node n = some (.nonterm i) ∨ W.node n = some (.inlined (some i))) (h : Says W F i) : Says W F n := by
  refine r2e_says fun f v b v' hv e => ?_
  rw [r2e, if_neg hv] at e
  rcases hn with hn | hn | hn | hn | hn | hn <;> · rw [hn] at e; exact h _ _ _ _ e

theorem says_alt {n l r : Nat} (hn : W.node n = some (.alt l r) ∨ W.node n = some (.tryc l (some r))) (h : Says W F l ∨ Says W F r) :
    Says W F n := by
  refine r2e_says fun f v b v' hv e => ?_
  rw [r2e, if_neg hv] at e
  rcases hn with hn | hn <;>
  · rw [hn] at e
    simp only at e
    split at e
    · cases e
    · cases e; rfl
    · next v'' he =>
      rcases h with h | h
      · have := h _ _ _ _ he; cases this
      · exact h _ _ _ _ e

theorem says_try {n l : Nat} {r : Option Nat} (hn : W.node n = some (.tryc l r)) (h : Says W F l) : Says W F n := by
  refine r2e_says fun f v b v' hv e => ?_
  rw [r2e, if_neg hv, hn] at e
  simp only at e
  split at e
  · cases e
  · cases e; rfl
  · next v'' he => have := h _ _ _ _ he; cases this

theorem says_cons {n l r : Nat} (hn : W.node n = some (.cons l r)) (hl : Says W F l) (hr : Says W F r) : Says W F n := by
  refine r2e_says fun f v b v' hv e => ?_
  rw [r2e, if_neg hv, hn] at e
  simp only at e
  split at e
  · cases e
  · exact hr _ _ _ _ e
  · next v'' he => have := hl _ _ _ _ he; cases this

theorem says_sym {n : Nat} (hn : W.node n = some .sym) (h : (n, W.zero) ∈ F) : Says W F n := by
  refine r2e_says fun f v b v' hv e => ?_
  rw [r2e, if_neg hv, hn] at e
  simp only [Option.some.injEq, Prod.mk.injEq] at e
  rw [← e.1]; simpa using h

section
variable (hw : Wf W) (hq : Quiet W F) (hi : ∀ p ∈ initFirst W, p ∈ F)
include hw hq hi

theorem zero_mem : (W.zero, W.zero) ∈ F := hi _ (by simp [initFirst])

/-- Zero is in FIRST, and `reducesToEpsilon` says yes. -/
theorem nz_first {b : Bool} {n : Nat} (h : NZ W b n) :
    (b = true → Seen W F false n ∨ W.node n = some .sym → (n, W.zero) ∈ F) ∧ ((∃ i s, W.node n = some (.evolve i s)) ∨ Says W F n) := by
  have hp := passes_false W W.zero
  have nosym : ∀ {n : Nat} {it : Item}, W.node n = some it → it ≠ .sym → W.node n = some .sym → False := by
    intro n it h1 h2 h3; rw [h1] at h3; cases h3; exact h2 rfl
  have noev : ∀ {n m : Nat}, (∃ i s, W.node m = some (.evolve i s)) ∨ Says W F m → Part W n m → Says W F m := by
    intro n m h1 h2
    rcases h1 with ⟨i, s, h1⟩ | h1
    · exact absurd h1 (hw.parts n m i s h2)
    · exact h1
  induction h with
  | zero hn =>
    exact ⟨fun _ _ => by rw [hw.oneZero _ hn]; exact zero_mem hw hq hi, .inr (says_const (.inl hn))⟩
  | @expand b n r i hn hr hnr _ ih =>
    have h1 := (Seen.rule (F := F) hr).evolve hq hnr
    have h2 := h1.2.2 _ (h1.2.1 _ (ih.1 rfl (.inl h1.1)) hp) hp
    exact ⟨fun _ _ => h2, .inr (says_sym hn h2)⟩
  | @evolve b n i s hn _ ih =>
    refine ⟨fun hb hs => ?_, .inl ⟨_, _, hn⟩⟩
    rcases hs with hs | hs
    · have h1 := hs.evolve hq hn
      exact h1.2.1 _ (ih.1 hb (.inl h1.1)) hp
    · exact (nosym hn (by simp) hs).elim
  | @nonterm b n s hn hd ih =>
    have hsym := hw.symbols n s (.inl hn)
    refine ⟨fun hb hs => ?_, .inr (says_one (.inr (.inr (.inr (.inr (.inl hn))))) ?_)⟩
    · rcases hs with hs | hs
      · exact hs.symbol hq (.inl hn) _ (ih.1 hb (.inr hsym)) hp
      · exact (nosym hn (by simp) hs).elim
    · rcases ih.2 with ⟨i, t, h⟩ | h
      · rw [hsym] at h; cases h
      · exact h
  | @inlined b n s hn hd ih =>
    have hsym := hw.symbols n s (.inr (.inl hn))
    refine ⟨fun hb hs => ?_, .inr (says_one (.inr (.inr (.inr (.inr (.inr hn))))) ?_)⟩
    · rcases hs with hs | hs
      · exact hs.symbol hq (.inr hn) _ (ih.1 hb (.inr hsym)) hp
      · exact (nosym hn (by simp) hs).elim
    · rcases ih.2 with ⟨i, t, h⟩ | h
      · rw [hsym] at h; cases h
      · exact h
  | @consL b n l r hn _ _ ihl ihr =>
    have hl := noev ihl.2 (.consL hn)
    have hr := noev ihr.2 (.consR hn)
    refine ⟨fun hb hs => ?_, .inr (says_cons hn hl hr)⟩
    rcases hs with hs | hs
    · obtain ⟨er, el, h1, h2, h3, h4, h5, h6⟩ := hs.cons hq hn
      have := reduces_of_says hr h1; subst this
      exact h5 _ (ihl.1 hb (.inl h4)) hp
    · exact (nosym hn (by simp) hs).elim
  | @consR b n l r hn _ _ ihl ihr =>
    have hl := noev ihl.2 (.consL hn)
    have hr := noev ihr.2 (.consR hn)
    refine ⟨fun hb hs => ?_, .inr (says_cons hn hl hr)⟩
    rcases hs with hs | hs
    · obtain ⟨er, el, h1, h2, h3, h4, h5, h6⟩ := hs.cons hq hn
      have := reduces_of_says hr h1; subst this
      have := reduces_of_says hl h2; subst this
      exact h6 rfl _ (ihr.1 hb (.inl h3)) hp
    · exact (nosym hn (by simp) hs).elim
  | @altL b n l r hn _ ih =>
    refine ⟨fun hb hs => ?_, .inr (says_alt (.inl hn) (.inl (noev ih.2 (.altL hn))))⟩
    rcases hs with hs | hs
    · have h1 := hs.two hq (.inl hn)
      exact h1.2.2.1 _ (ih.1 hb (.inl h1.1)) hp
    · exact (nosym hn (by simp) hs).elim
  | @altR b n l r hn _ ih =>
    refine ⟨fun hb hs => ?_, .inr (says_alt (.inl hn) (.inr (noev ih.2 (.altR hn))))⟩
    rcases hs with hs | hs
    · have h1 := hs.two hq (.inl hn)
      exact h1.2.2.2 _ (ih.1 hb (.inl h1.2.1)) hp
    · exact (nosym hn (by simp) hs).elim
  | action0 hn => exact ⟨by simp, .inr (says_const (.inr (.inl hn)))⟩
  | @action b n i hn _ ih =>
    refine ⟨fun hb hs => ?_, .inr (says_one (.inl hn) (noev ih.2 (.action hn)))⟩
    rcases hs with hs | hs
    · have h1 := hs.direct' hq (.action hn)
      exact h1.2 _ (ih.1 hb (.inl h1.1)) hp
    · exact (nosym hn (by simp) hs).elim
  | @cond b n i hn _ ih =>
    refine ⟨fun hb hs => ?_, .inr (says_one (.inr (.inl hn)) (noev ih.2 (.cond hn)))⟩
    rcases hs with hs | hs
    · have h1 := hs.annot hq (.inr hn)
      exact h1.2 _ (ih.1 hb (.inl h1.1)) hp
    · exact (nosym hn (by simp) hs).elim
  | @annot b n i hn _ ih =>
    refine ⟨fun hb hs => ?_, .inr (says_one (.inr (.inr (.inl hn))) (noev ih.2 (.annot hn)))⟩
    rcases hs with hs | hs
    · have h1 := hs.annot hq (.inl hn)
      exact h1.2 _ (ih.1 hb (.inl h1.1)) hp
    · exact (nosym hn (by simp) hs).elim
  | @tryL b n l r hn _ ih =>
    refine ⟨fun hb hs => ?_, .inr (says_try hn (noev ih.2 (.tryL hn)))⟩
    rcases hs with hs | hs
    · cases r with
      | none =>
        have h1 := hs.direct' hq (.tryc hn)
        exact h1.2 _ (ih.1 hb (.inl h1.1)) hp
      | some r =>
        have h1 := hs.two hq (.inr hn)
        exact h1.2.2.1 _ (ih.1 hb (.inl h1.1)) hp
    · exact (nosym hn (by simp) hs).elim
  | @tryR b n l r hn _ ih =>
    refine ⟨fun hb hs => ?_, .inr (says_alt (.inr hn) (.inr (noev ih.2 (.tryR hn))))⟩
    rcases hs with hs | hs
    · have h1 := hs.two hq (.inr hn)
      exact h1.2.2.2 _ (ih.1 hb (.inl h1.2.1)) hp
    · exact (nosym hn (by simp) hs).elim
  | @plus b n i hn _ ih =>
    refine ⟨fun hb hs => ?_, .inr (says_one (.inr (.inr (.inr (.inl hn)))) (noev ih.2 (.plus hn)))⟩
    rcases hs with hs | hs
    · obtain ⟨c, a, hb1, hc, ha⟩ := hw.bnf.plus n i hn
      have h1 := hs.direct' hq (.plus hn hb1)
      obtain ⟨er, el, g1, g2, g3, g4, g5, g6⟩ := h1.1.cons hq hc
      have := reduces_of_says (says_alt (.inl ha) (.inl (says_const (.inl hw.zero)))) g1; subst this
      exact h1.2 _ (g5 _ (ih.1 hb (.inl g4)) hp) hp
    · exact (nosym hn (by simp) hs).elim
  | @star b n i hn =>
    refine ⟨fun hb hs => ?_, .inr (says_const (.inr (.inr ⟨i, hn⟩)))⟩
    rcases hs with hs | hs
    · obtain ⟨c, a, hb1, hc, ha⟩ := hw.bnf.star n i hn
      have h1 := hs.direct' hq (.star hn hb1)
      have h2 := h1.1.two hq (.inl ha)
      exact h1.2 _ (h2.2.2.1 _ (zero_mem hw hq hi) hp) hp
    · exact (nosym hn (by simp) hs).elim
end

/-! ### Derivations of the empty sequence -/

theorem op_null_base {n : Nat} {o : OpItem} (hn : W.node n = some (.op o)) {α : List Nat} (h : Der W n α) (hα : α = []) : Nullable W o.base := by
  cases h <;> simp_all [Nullable]

/-- Under the two conditions, what can be empty is so in the sense of `NZ`. -/
theorem nz_of_null (ho : OpsOk W) (hb : BareOk W) {n : Nat} {α : List Nat} (h : Der W n α) (hα : α = []) : NZ W false n := by
  induction h with
  | zero hn => exact .zero hn
  | term => simp at hα
  | sym => simp at hα
  | expand hn hr hnr hd _ =>
    have := hb _ hn (Der.expand hn hr hnr (hα ▸ hd))
    cases this with
    | zero h => rw [hn] at h; cases h
    | expand _ h1 h2 h3 => exact .expand hn h1 h2 h3
    | evolve h => rw [hn] at h; cases h
    | nonterm h => rw [hn] at h; cases h
    | inlined h => rw [hn] at h; cases h
    | consL h => rw [hn] at h; cases h
    | consR h => rw [hn] at h; cases h
    | altL h => rw [hn] at h; cases h
    | altR h => rw [hn] at h; cases h
    | action h => rw [hn] at h; cases h
    | cond h => rw [hn] at h; cases h
    | annot h => rw [hn] at h; cases h
    | tryL h => rw [hn] at h; cases h
    | tryR h => rw [hn] at h; cases h
    | plus h => rw [hn] at h; cases h
    | star h => rw [hn] at h; cases h
  | evolve hn _ ih => exact .evolve hn (ih hα)
  | nonterm hn _ ih => exact .nonterm hn (ih hα)
  | inlined hn _ ih => exact .inlined hn (ih hα)
  | cons hn _ _ ih1 ih2 =>
    obtain ⟨h1, h2⟩ := List.append_eq_nil_iff.1 hα
    exact .consL hn (ih1 h1) (ih2 h2)
  | altL hn _ ih => exact .altL hn (ih hα)
  | altR hn _ ih => exact .altR hn (ih hα)
  | action0 hn => exact .action0 hn
  | action hn _ ih => exact .action hn (ih hα)
  | cond hn _ ih => exact .cond hn (ih hα)
  | annot hn _ ih => exact .annot hn (ih hα)
  | tryL hn _ ih => exact .tryL hn (ih hα)
  | tryR hn _ ih => exact .tryR hn (ih hα)
  | plus1 hn _ ih => exact .plus hn (ih hα)
  | plusS hn _ _ ih1 ih2 => exact .plus hn (ih1 (List.append_eq_nil_iff.1 hα).1)
  | star0 hn => exact .star hn
  | starS hn _ _ _ _ => exact .star hn
  | opBase hn hd _ => subst hα; exact absurd hd (ho _ _ hn)
  | opPre => simp at hα
  | opPost => simp at hα
  | opBin => simp at hα
  | opTern => simp at hα
  | opParen => simp at hα

theorem nz_true_of_no_bare (ho : OpsOk W) (hb : ∀ n, W.node n ≠ some (.action none)) {n : Nat} {α : List Nat} (h : Der W n α) (hα : α = []) :
    NZ W true n := by
  have weak : ∀ b n, NZ W b n → NZ W false n := by
    intro b n h
    induction h with
    | zero hn => exact .zero hn
    | expand h1 h2 h3 h4 _ => exact .expand h1 h2 h3 h4
    | evolve hn _ ih => exact .evolve hn ih
    | nonterm hn _ ih => exact .nonterm hn ih
    | inlined hn _ ih => exact .inlined hn ih
    | consL hn _ _ ih1 ih2 => exact .consL hn ih1 ih2
    | consR hn _ _ ih1 ih2 => exact .consR hn ih1 ih2
    | altL hn _ ih => exact .altL hn ih
    | altR hn _ ih => exact .altR hn ih
    | action0 hn => exact .action0 hn
    | action hn _ ih => exact .action hn ih
    | cond hn _ ih => exact .cond hn ih
    | annot hn _ ih => exact .annot hn ih
    | tryL hn _ ih => exact .tryL hn ih
    | tryR hn _ ih => exact .tryR hn ih
    | plus hn _ ih => exact .plus hn ih
    | star hn => exact .star hn
  induction h with
  | zero hn => exact .zero hn
  | term => simp at hα
  | sym => simp at hα
  | expand hn hr hnr hd ih => exact .expand hn hr hnr (ih hα)
  | evolve hn _ ih => exact .evolve hn (ih hα)
  | nonterm hn _ ih => exact .nonterm hn (ih hα)
  | inlined hn _ ih => exact .inlined hn (ih hα)
  | cons hn _ _ ih1 ih2 =>
    obtain ⟨h1, h2⟩ := List.append_eq_nil_iff.1 hα
    exact .consL hn (ih1 h1) (weak _ _ (ih2 h2))
  | altL hn _ ih => exact .altL hn (ih hα)
  | altR hn _ ih => exact .altR hn (ih hα)
  | action0 hn => exact absurd hn (hb _)
  | action hn _ ih => exact .action hn (ih hα)
  | cond hn _ ih => exact .cond hn (ih hα)
  | annot hn _ ih => exact .annot hn (ih hα)
  | tryL hn _ ih => exact .tryL hn (ih hα)
  | tryR hn _ ih => exact .tryR hn (ih hα)
  | plus1 hn _ ih => exact .plus hn (ih hα)
  | plusS hn _ _ ih1 ih2 => exact .plus hn (ih1 (List.append_eq_nil_iff.1 hα).1)
  | star0 hn => exact .star hn
  | starS hn _ _ _ _ => exact .star hn
  | opBase hn hd _ => subst hα; exact absurd hd (ho _ _ hn)
  | opPre => simp at hα
  | opPost => simp at hα
  | opBin => simp at hα
  | opTern => simp at hα
  | opParen => simp at hα

theorem bareOk_of_none (ho : OpsOk W) (hb : ∀ n, W.node n ≠ some (.action none)) : BareOk W :=
  fun _ _ h => nz_true_of_no_bare ho hb h rfl

/-! ### The rewritten operator grammar -/

theorem chain_seen (hq : Quiet W F) {top base : Nat} {bs : List OpBody} {k : Nat} {b : Bool} (hc : ChainAt W top base bs k) (hs : Seen W F b k) :
    (Seen W F b base ∧ Incl W F b base k) ∧ ∀ x ∈ bs, ∃ l, BodyAt W top x l ∧ Seen W F b l ∧ Incl W F b l k := by
  induction bs generalizing k with
  | nil => cases hc; exact ⟨⟨hs, .refl _ _⟩, by simp⟩
  | cons x bs ih =>
    obtain ⟨r, hn, hl, _, hr⟩ := hc
    have h1 := hs.two hq (.inl hn)
    have h2 := ih hr h1.2.1
    refine ⟨⟨h2.1.1, h2.1.2.trans h1.2.2.2⟩, fun y hy => ?_⟩
    rcases List.mem_cons.1 hy with rfl | hy
    · exact ⟨_, hl, h1.1, h1.2.2.1⟩
    · obtain ⟨l', g1, g2, g3⟩ := h2.2 y hy
      exact ⟨l', g1, g2, g3.trans h1.2.2.2⟩

/-- Every item of a rule is visited. -/
theorem occurs_seen (hw : Wf W) (hq : Quiet W F) {n : Nat} (h : Occurs W n) : Seen W F true n := by
  induction h with
  | rule hr => exact (Seen.rule hr).weaken
  | part _ hp ih =>
    cases hp with
    | evolve hn => exact (ih.evolve hq hn).1
    | consL hn => obtain ⟨_, _, _, _, _, h, _⟩ := ih.cons hq hn; exact h.weaken
    | consR hn => obtain ⟨_, _, _, _, h, _⟩ := ih.cons hq hn; exact h.weaken
    | altL hn => exact (ih.two hq (.inl hn)).1
    | altR hn => exact (ih.two hq (.inl hn)).2.1
    | action hn => exact (ih.direct' hq (.action hn)).1
    | cond hn => exact (ih.annot hq (.inr hn)).1
    | annot hn => exact (ih.annot hq (.inl hn)).1
    | tryL hn =>
      rename_i r
      rcases r with _ | r
      · exact (ih.direct' hq (.tryc hn)).1
      · exact (ih.two hq (.inr hn)).1
    | tryR hn => exact (ih.two hq (.inr hn)).2.1
    | plus hn =>
      obtain ⟨c, a, hb1, hc, ha⟩ := hw.bnf.plus _ _ hn
      obtain ⟨_, _, _, _, _, h, _⟩ := (ih.direct' hq (.plus hn hb1)).1.cons hq hc
      exact h.weaken
    | star hn =>
      obtain ⟨c, a, hb1, hc, ha⟩ := hw.bnf.star _ _ hn
      obtain ⟨_, _, _, _, _, h, _⟩ := ((ih.direct' hq (.star hn hb1)).1.two hq (.inl ha)).2.1.cons hq hc
      exact h.weaken
    | opBase hn =>
      obtain ⟨k, hb1, hc, _⟩ := hw.bnf.op _ _ hn
      exact (chain_seen hq hc (ih.direct' hq (.op hn hb1)).1).1.1

/-! ### Tokens -/

/-- What starts a derived sentential form is in FIRST. -/
theorem tok_first (hw : Wf W) (hq : Quiet W F) (hi : ∀ p ∈ initFirst W, p ∈ F) (ho : OpsOk W) (hb : BareOk W)
    {n : Nat} {α : List Nat} (h : Der W n α) {x t : Nat} {γ : List Nat} (hα : α = x :: γ) (ht : W.node t = some .term) (hx : (x, t) ∈ F)
    (hs : Seen W F true n ∨ W.node n = some .sym) : (n, t) ∈ F := by
  have hp : passes W true t = true := passes_true.2 (by rw [ht]; simp)
  have says : ∀ {n m}, Part W n m → Der W m [] → Says W F m := by
    intro n m hpart hm
    rcases (nz_first hw hq hi (nz_of_null ho hb hm rfl)).2 with ⟨i, s, h⟩ | h
    · exact absurd h (hw.parts n m i s hpart)
    · exact h
  have ns : ∀ {n it}, (Seen W F true n ∨ W.node n = some .sym) → W.node n = some it → it ≠ .sym → Seen W F true n := by
    intro n it h1 h2 h3
    rcases h1 with h1 | h1
    · exact h1
    · rw [h2] at h1; cases h1; exact absurd rfl h3
  induction h generalizing x t γ with
  | zero => simp at hα
  | term hn => cases hα; exact hx
  | sym hn => cases hα; exact hx
  | expand hn hr hnr _ ih =>
    have h1 := (Seen.rule (F := F) hr).weaken.evolve hq hnr
    exact h1.2.2 _ (h1.2.1 _ (ih hα ht hx (.inl h1.1) hp) hp) hp
  | evolve hn _ ih =>
    have h1 := (ns hs hn (by simp)).evolve hq hn
    exact h1.2.1 _ (ih hα ht hx (.inl h1.1) hp) hp
  | nonterm hn _ ih =>
    exact (ns hs hn (by simp)).symbol hq (.inl hn) _ (ih hα ht hx (.inr (hw.symbols _ _ (.inl hn))) hp) hp
  | inlined hn _ ih =>
    exact (ns hs hn (by simp)).symbol hq (.inr hn) _ (ih hα ht hx (.inr (hw.symbols _ _ (.inr (.inl hn)))) hp) hp
  | @cons n l r α β hn h1 h2 ih1 ih2 =>
    obtain ⟨er, el, g1, g2, g3, g4, g5, g6⟩ := (ns hs hn (by simp)).cons hq hn
    simp only [Bool.true_or] at g4 g5 g6
    cases α with
    | nil =>
      have := reduces_of_says (says (.consL hn) h1) g2; subst this
      exact g6 rfl _ (ih2 hα ht hx (.inl g3) hp) hp
    | cons y α =>
      cases hα
      exact g5 _ (ih1 rfl ht hx (.inl g4) hp) hp
  | altL hn _ ih =>
    have h1 := (ns hs hn (by simp)).two hq (.inl hn)
    exact h1.2.2.1 _ (ih hα ht hx (.inl h1.1) hp) hp
  | altR hn _ ih =>
    have h1 := (ns hs hn (by simp)).two hq (.inl hn)
    exact h1.2.2.2 _ (ih hα ht hx (.inl h1.2.1) hp) hp
  | action0 => simp at hα
  | action hn _ ih =>
    have h1 := (ns hs hn (by simp)).direct' hq (.action hn)
    exact h1.2 _ (ih hα ht hx (.inl h1.1) hp) hp
  | cond hn _ ih =>
    have h1 := (ns hs hn (by simp)).annot hq (.inr hn)
    exact h1.2 _ (ih hα ht hx (.inl h1.1) hp) hp
  | annot hn _ ih =>
    have h1 := (ns hs hn (by simp)).annot hq (.inl hn)
    exact h1.2 _ (ih hα ht hx (.inl h1.1) hp) hp
  | @tryL n l r α hn _ ih =>
    cases r with
    | none =>
      have h1 := (ns hs hn (by simp)).direct' hq (.tryc hn)
      exact h1.2 _ (ih hα ht hx (.inl h1.1) hp) hp
    | some r =>
      have h1 := (ns hs hn (by simp)).two hq (.inr hn)
      exact h1.2.2.1 _ (ih hα ht hx (.inl h1.1) hp) hp
  | tryR hn _ ih =>
    have h1 := (ns hs hn (by simp)).two hq (.inr hn)
    exact h1.2.2.2 _ (ih hα ht hx (.inl h1.2.1) hp) hp
  | @plus1 n i α hn _ ih =>
    obtain ⟨c, a, hb1, hc, ha⟩ := hw.bnf.plus n i hn
    have h1 := (ns hs hn (by simp)).direct' hq (.plus hn hb1)
    obtain ⟨er, el, g1, g2, g3, g4, g5, g6⟩ := h1.1.cons hq hc
    simp only [Bool.true_or] at g4 g5 g6
    exact h1.2 _ (g5 _ (ih hα ht hx (.inl g4) hp) hp) hp
  | @plusS n i α β hn _ _ ih1 ih2 =>
    cases α with
    | nil => exact ih2 hα ht hx hs hp
    | cons y α =>
      cases hα
      obtain ⟨c, a, hb1, hc, ha⟩ := hw.bnf.plus n i hn
      have h1 := (ns hs hn (by simp)).direct' hq (.plus hn hb1)
      obtain ⟨er, el, g1, g2, g3, g4, g5, g6⟩ := h1.1.cons hq hc
      simp only [Bool.true_or] at g4 g5 g6
      exact h1.2 _ (g5 _ (ih1 rfl ht hx (.inl g4) hp) hp) hp
  | star0 => simp at hα
  | @starS n i α β hn _ _ ih1 ih2 =>
    cases α with
    | nil => exact ih2 hα ht hx hs hp
    | cons y α =>
      cases hα
      obtain ⟨c, a, hb1, hc, ha⟩ := hw.bnf.star n i hn
      have h1 := (ns hs hn (by simp)).direct' hq (.star hn hb1)
      have h2 := h1.1.two hq (.inl ha)
      obtain ⟨er, el, g1, g2, g3, g4, g5, g6⟩ := h2.2.1.cons hq hc
      simp only [Bool.true_or] at g4 g5 g6
      exact h1.2 _ (h2.2.2.2 _ (g5 _ (ih1 rfl ht hx (.inl g4) hp) hp) hp) hp
  | @opBase n o α hn _ ih =>
    obtain ⟨k, hb1, hc, _⟩ := hw.bnf.op n o hn
    have h1 := (ns hs hn (by simp)).direct' hq (.op hn hb1)
    have h2 := (chain_seen hq hc h1.1).1
    exact h1.2 _ (h2.2 _ (ih hα ht hx (.inl h2.1) hp) hp) hp
  | @opPre n o u α hn hu _ _ =>
    cases hα
    obtain ⟨k, hb1, hc, _⟩ := hw.bnf.op n o hn
    have h1 := (ns hs hn (by simp)).direct' hq (.op hn hb1)
    obtain ⟨l, g1, g2, g3⟩ := (chain_seen hq hc h1.1).2 (.pre u) (mem_bodies.2 (.inl ⟨u, hu, rfl⟩))
    obtain ⟨er, el, e1, e2, e3, e4, e5, e6⟩ := g2.cons hq g1
    simp only [Bool.true_or] at e5
    exact h1.2 _ (g3 _ (e5 _ hx hp) hp) hp
  | @opPost n o u α hn hu hd' ih =>
    cases α with
    | nil => exact absurd (op_null_base hn hd' rfl) (ho _ _ hn)
    | cons y α => cases hα; exact ih rfl ht hx hs hp
  | @opBin n o u α β hn hu hd' _ ih _ =>
    cases α with
    | nil => exact absurd (op_null_base hn hd' rfl) (ho _ _ hn)
    | cons y α => cases hα; exact ih rfl ht hx hs hp
  | @opTern n o u u' α β δ hn hu hd' _ _ ih _ _ =>
    cases α with
    | nil => exact absurd (op_null_base hn hd' rfl) (ho _ _ hn)
    | cons y α => cases hα; exact ih rfl ht hx hs hp
  | @opParen n o u u' α hn hu _ _ =>
    cases hα
    obtain ⟨k, hb1, hc, _⟩ := hw.bnf.op n o hn
    have h1 := (ns hs hn (by simp)).direct' hq (.op hn hb1)
    obtain ⟨l, ⟨g1, g1'⟩, g2, g3⟩ := (chain_seen hq hc h1.1).2 (.paren u u')
      (mem_bodies.2 (.inr (.inr (.inr (.inr ⟨(u, u'), hu, rfl⟩)))))
    obtain ⟨er, el, e1, e2, e3, e4, e5, e6⟩ := g2.cons hq g1
    simp only [Bool.true_or] at e5
    exact h1.2 _ (g3 _ (e5 _ hx hp) hp) hp

/-! ### The end of the computation -/

theorem firstLoop_quiet {f : Nat} : ∀ (k : Nat) (F₀ F : Sets), firstLoop W f k F₀ = some F → Quiet W F ∧ ∀ p ∈ F₀, p ∈ F := by
  intro k
  induction k with
  | zero => intro F₀ F h; simp [firstLoop] at h
  | succ k ih =>
    intro F₀ F h
    rw [firstLoop] at h
    cases e : firstPass W f W.rules ⟨F₀, false⟩ with
    | none => rw [e] at h; cases h
    | some c =>
      rw [e] at h
      simp only at h
      have hle := firstPass_le W f W.rules _ _ e
      split at h
      · obtain ⟨h1, h2⟩ := ih _ _ h
        exact ⟨h1, fun p hp => h2 p (hle.sub p hp)⟩
      · next hc =>
        cases h
        have := hle.eq (by simpa using hc)
        subst this
        exact ⟨⟨f, e⟩, fun p hp => hp⟩

theorem computeFirst_quiet {f k : Nat} (h : computeFirst W f k = some F) : Quiet W F ∧ ∀ p ∈ initFirst W, p ∈ F := firstLoop_quiet _ _ _ h

end Verif.Grammar
