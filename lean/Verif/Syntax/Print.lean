import Verif.Syntax.Rules
import Verif.Syntax.Spec

/-!
# The tokens the pretty printer shows are read as an item with the same sentences
-/

namespace Verif.Syntax

/-! ## Tokens -/

def wrap : Item → List Tok → List Tok
  | .alt _ _, t => .lp :: t ++ [.rp]
  | _, t => t

/-- The tokens of an item, an alternative without its parentheses. -/
def inner : Item → List Tok
  | .zero => [.zero]
  | .nonterm s _ => [.ident s]
  | .inl s => [.ident s]
  | .term s => [.term s]
  | .ann l i => (if l.seq then [.hash] else []) ++ .ident l.name :: (if l.temp then .colon else .eq) :: wrap i (inner i)
  | .plus i => .lp :: wrap i (inner i) ++ [.rp, .plus]
  | .star i => .lp :: wrap i (inner i) ++ [.rp, .star]
  | .code _ => []
  | .act i _ => wrap i (inner i)
  | .alt l r => inner l ++ .bar :: inner r
  | .cons l r => wrap l (inner l) ++ wrap r (inner r)
  | .cond _ i => wrap i (inner i)
  | .recover i => .recover :: .lp :: wrap i (inner i) ++ [.rp]
  | .rollback i j => .rollback :: .lp :: wrap i (inner i) ++ .rp :: .catch_ :: .lp :: wrap j (inner j) ++ [.rp]
  | .op _ => []
  | .wild => []

def toks (i : Item) : List Tok := wrap i (inner i)

/-! ## Sentences -/

theorem W_nonterm {s a : Name} {w} : W (.nonterm s a) w ↔ w = [.sym s] := ⟨fun h => by cases h; rfl, fun h => h ▸ .nonterm⟩
theorem W_inl {s : Name} {w} : W (.inl s) w ↔ w = [.sym s] := ⟨fun h => by cases h; rfl, fun h => h ▸ .inl⟩
theorem W_code {c : Name} {w} : W (.code c) w ↔ w = [] := ⟨fun h => by cases h; rfl, fun h => h ▸ .code⟩
theorem W_ann {l : Label} {i : Item} {w} : W (.ann l i) w ↔ ∃ u, w = .label l :: u ∧ W i u := ⟨fun h => by cases h with | ann h => exact ⟨_, rfl, h⟩, fun ⟨_, e, h⟩ => e ▸ .ann h⟩
theorem W_act {c : Name} {i : Item} {w} : W (.act i c) w ↔ W i w := ⟨fun h => by cases h with | act h => exact h, .act⟩
theorem W_cond {c : Name} {i : Item} {w} : W (.cond c i) w ↔ W i w := ⟨fun h => by cases h with | cond h => exact h, .cond⟩
theorem W_alt {l r : Item} {w} : W (.alt l r) w ↔ W l w ∨ W r w :=
  ⟨fun h => by cases h with | left h => exact Or.inl h | right h => exact Or.inr h, fun h => h.elim .left .right⟩
theorem W_cons {l r : Item} {w} : W (.cons l r) w ↔ ∃ u v, w = u ++ v ∧ W l u ∧ W r v :=
  ⟨fun h => by cases h with | cons h h' => exact ⟨_, _, rfl, h, h'⟩, fun ⟨_, _, e, h, h'⟩ => e ▸ .cons h h'⟩
theorem W_recover {i : Item} {w} : W (.recover i) w ↔ ∃ u, w = .tryBegin :: u ++ [.tryEnd] ∧ W i u :=
  ⟨fun h => by cases h with | recover h => exact ⟨_, rfl, h⟩, fun ⟨_, e, h⟩ => e ▸ .recover h⟩
theorem W_rollback {i j : Item} {w} : W (.rollback i j) w ↔ ∃ u v, w = .rollBegin :: u ++ .rollCatch :: v ++ [.rollEnd] ∧ W i u ∧ W j v :=
  ⟨fun h => by cases h with | rollback h h' => exact ⟨_, _, rfl, h, h'⟩, fun ⟨_, _, e, h, h'⟩ => e ▸ .rollback h h'⟩

theorem star_mono {i j : Item} (h : ∀ w, W i w → W j w) : ∀ {w}, W (.star i) w → W (.star j) w := by
  intro w hw
  generalize e : Item.star i = x at hw
  induction hw with
  | none => exact .none
  | again h1 _ _ ih => cases e; exact .again (h _ h1) (ih rfl)
  | _ => cases e

theorem plus_mono {i j : Item} (h : ∀ w, W i w → W j w) : ∀ {w}, W (.plus i) w → W (.plus j) w := by
  intro w hw
  generalize e : Item.plus i = x at hw
  induction hw with
  | once h1 => cases e; exact .once (h _ h1)
  | more h1 _ _ ih => cases e; exact .more (h _ h1) (ih rfl)
  | _ => cases e

theorem same_star {i j : Item} (h : Same i j) : Same (.star i) (.star j) := fun _ => ⟨star_mono fun w => (h w).1, star_mono fun w => (h w).2⟩
theorem same_plus {i j : Item} (h : Same i j) : Same (.plus i) (.plus j) := fun _ => ⟨plus_mono fun w => (h w).1, plus_mono fun w => (h w).2⟩

/-- Code alone: nothing is shown, the sentence is empty. -/
theorem onlyCode_spec : ∀ {i : Item}, onlyCode i = true → toks i = [] ∧ ∀ w, W i w ↔ w = []
  | .code c, _ => ⟨rfl, fun _ => W_code⟩
  | .act i c, h => by
    obtain ⟨h1, h2⟩ := onlyCode_spec (i := i) h
    exact ⟨h1, fun w => W_act.trans (h2 w)⟩
  | .cond c i, h => by
    obtain ⟨h1, h2⟩ := onlyCode_spec (i := i) h
    exact ⟨h1, fun w => W_cond.trans (h2 w)⟩
  | .cons l r, h => by
    simp only [onlyCode, Bool.and_eq_true] at h
    obtain ⟨h1, h2⟩ := onlyCode_spec (i := l) h.1
    obtain ⟨h3, h4⟩ := onlyCode_spec (i := r) h.2
    refine ⟨by change toks l ++ toks r = []; rw [h1, h3]; rfl, fun w => W_cons.trans ?_⟩
    simp only [h2, h4]
    constructor
    · rintro ⟨u, v, rfl, rfl, rfl⟩; rfl
    · rintro rfl; exact ⟨[], [], rfl, rfl, rfl⟩

/-! ## Reading -/

/-- What is shown for an item can be read, alone, behind a sequence, as a list of alternatives, behind alternatives. -/
structure Reads (i : Item) : Prop where
  alone : ∃ b, D true .seq (toks i) b ∧ Same b i
  behind : ∀ ts a, D true .seq ts a → ∃ b, D true .seq (ts ++ toks i) b ∧ ∀ w, W b w ↔ ∃ u v, w = u ++ v ∧ W a u ∧ W i v
  alts : ∃ b, D true .option (inner i) b ∧ Same b i
  altsBehind : ∀ ts a, D true .option ts a → ∃ b, D true .option (ts ++ .bar :: inner i) b ∧ ∀ w, W b w ↔ W a w ∨ W i w

theorem postfix_seq {ts us : List Tok} {a b i : Item} (d : D true .postfix us b) (hc : codeFirst us = false) (hs : Same b i) (hd : D true .seq ts a) :
    ∃ b, D true .seq (ts ++ us) b ∧ ∀ w, W b w ↔ ∃ u v, w = u ++ v ∧ W a u ∧ W i v :=
  ⟨_, .seq hd d fun _ => hc, fun w => W_cons.trans (by simp only [hs _])⟩

/-- Everything but alternatives. -/
theorem reads_seq {i : Item} (hn : inner i = toks i) (h1 : ∃ b, D true .seq (toks i) b ∧ Same b i)
    (h2 : ∀ ts a, D true .seq ts a → ∃ b, D true .seq (ts ++ toks i) b ∧ ∀ w, W b w ↔ ∃ u v, w = u ++ v ∧ W a u ∧ W i v) : Reads i where
  alone := h1
  behind := h2
  alts := by
    obtain ⟨b, d, s⟩ := h1
    rw [hn]
    exact ⟨b, .single (.sequence d), s⟩
  altsBehind ts a hd := by
    obtain ⟨b, d, s⟩ := h1
    rw [hn]
    exact ⟨_, .alt hd (.sequence d), fun w => W_alt.trans (by rw [s w])⟩

theorem reads_unary {i b : Item} (hn : inner i = toks i) (hc : codeFirst (toks i) = false) (d : D true .unary (toks i) b) (hs : Same b i) : Reads i :=
  reads_seq hn ⟨b, .one (.unary d), hs⟩ fun _ _ hd => postfix_seq (.unary d) hc hs hd

/-- The item in parentheses. -/
theorem Reads.paren {i : Item} (h : Reads i) : ∃ b, D true .option (toks i) b ∧ Same b i := by
  obtain ⟨b, d, s⟩ := h.alone
  exact ⟨b, .single (.sequence d), s⟩

/-- An item that adds nothing to another. -/
theorem reads_of {i j : Item} (ht : inner j = toks i) (hw : toks j = toks i) (hs : Same i j) (h : Reads i) : Reads j :=
  reads_seq (ht.trans hw.symm)
    (by obtain ⟨b, d, s⟩ := h.alone; exact ⟨b, hw ▸ d, fun w => (s w).trans (hs w)⟩)
    (fun ts a hd => by
      obtain ⟨b, d, s⟩ := h.behind ts a hd
      exact ⟨b, hw ▸ d, fun w => (s w).trans (by simp only [hs _])⟩)

theorem reads : ∀ {i : Item}, Shown i → onlyCode i = false → Reads i
  | .zero, _, _ => reads_unary rfl rfl (.primary .zero) fun _ => Iff.rfl
  | .nonterm s a, _, _ => reads_unary rfl rfl (.primary (.atom .nonterm)) fun _ => W_nonterm.trans W_nonterm.symm
  | .inl s, _, _ => reads_unary rfl rfl (.primary (.atom .nonterm)) fun _ => W_nonterm.trans W_inl.symm
  | .term s, _, _ => reads_unary rfl rfl (.primary (.atom .term)) fun _ => Iff.rfl
  | .ann ⟨n, q, t⟩ i, h, _ => by
    have key : ∃ b, D true .atom (toks i) b ∧ Same b i := by
      rcases h with ⟨s, a, rfl⟩ | ⟨s, rfl⟩
      · exact ⟨_, .nonterm, fun _ => W_nonterm.trans W_nonterm.symm⟩
      · exact ⟨_, .term, fun _ => Iff.rfl⟩
    obtain ⟨b, d, s⟩ := key
    have hs : Same (.ann ⟨n, q, t⟩ b) (.ann ⟨n, q, t⟩ i) := fun w => W_ann.trans ((by simp only [s _] : _ ↔ _).trans W_ann.symm)
    cases q <;> cases t
    · exact reads_unary rfl rfl (.primary (.annEq d)) hs
    · exact reads_unary rfl rfl (.primary (.annColon d)) hs
    · exact reads_unary rfl rfl (.primary (.seqEq d)) hs
    · exact reads_unary rfl rfl (.primary (.seqColon d)) hs
  | .plus i, h, _ => by
    obtain ⟨b, d, s⟩ := (reads (i := i) h.1 h.2).paren
    refine reads_unary rfl rfl (b := .plus b) ?_ (same_plus s)
    have := D.plus (.paren d)
    simpa [toks, inner, wrap] using this
  | .star i, h, _ => by
    obtain ⟨b, d, s⟩ := (reads (i := i) h.1 h.2).paren
    refine reads_unary rfl rfl (b := .star b) ?_ (same_star s)
    have := D.star (.paren d)
    simpa [toks, inner, wrap] using this
  | .code c, _, h => by cases h
  | .act i c, h, hc => reads_of (i := i) rfl rfl (fun _ => W_act.symm) (reads h hc)
  | .cond c i, h, hc => reads_of (i := i) rfl rfl (fun _ => W_cond.symm) (reads h hc)
  | .recover i, h, _ => by
    obtain ⟨b, d, s⟩ := (reads (i := i) h.1 h.2).paren
    refine reads_unary rfl rfl (b := .recover b) (.primary (.tryIt (.recover d))) fun w => W_recover.trans ((by simp only [s _] : _ ↔ _).trans W_recover.symm)
  | .rollback i j, h, _ => by
    obtain ⟨b, d, s⟩ := (reads (i := i) h.1.1 h.1.2).paren
    obtain ⟨b', d', s'⟩ := (reads (i := j) h.2.1 h.2.2).paren
    refine reads_unary rfl rfl (b := .rollback b b') (.primary (.tryIt (.rollback d d'))) fun w =>
      W_rollback.trans ((by simp only [s _, s' _] : _ ↔ _).trans W_rollback.symm)
  | .alt l r, h, _ => by
    have hl := reads (i := l) h.1.1 h.1.2
    have hr := reads (i := r) h.2.1 h.2.2
    have halts : ∃ b, D true .option (inner (.alt l r)) b ∧ Same b (.alt l r) := by
      obtain ⟨b, d, s⟩ := hl.alts
      obtain ⟨b', d', s'⟩ := hr.altsBehind _ _ d
      exact ⟨b', d', fun w => (s' w).trans ((by rw [s w] : _ ↔ _).trans W_alt.symm)⟩
    obtain ⟨b, d, s⟩ := halts
    have hp : D true .postfix (toks (.alt l r)) b := .unary (.primary (.paren d))
    refine ⟨⟨b, .one hp, s⟩, fun _ _ hd => postfix_seq hp rfl s hd, ⟨b, d, s⟩, fun ts a hd => ?_⟩
    obtain ⟨b1, d1, s1⟩ := hl.altsBehind _ _ hd
    obtain ⟨b2, d2, s2⟩ := hr.altsBehind _ _ d1
    refine ⟨b2, by simpa [inner] using d2, fun w => (s2 w).trans ?_⟩
    rw [s1 w, W_alt, or_assoc]
  | .cons l r, h, hc => by
    cases hl : onlyCode l with
    | true =>
      have hr : onlyCode r = false := by simpa [onlyCode, hl] using hc
      obtain ⟨e, s⟩ := onlyCode_spec hl
      have ht : toks (.cons l r) = toks r := by change toks l ++ toks r = _; rw [e]; rfl
      refine reads_of (i := r) ht ht (fun w => ?_) (reads h.2 hr)
      rw [W_cons]
      simp only [s _]
      constructor
      · intro h; exact ⟨[], w, rfl, rfl, h⟩
      · rintro ⟨u, v, rfl, rfl, h⟩; exact h
    | false =>
      have h1 := reads h.1 hl
      cases hr : onlyCode r with
      | true =>
        obtain ⟨e, s⟩ := onlyCode_spec hr
        have ht : toks (.cons l r) = toks l := by change toks l ++ toks r = _; rw [e, List.append_nil]
        refine reads_of (i := l) ht ht (fun w => ?_) h1
        rw [W_cons]
        simp only [s _]
        constructor
        · intro h; exact ⟨w, [], by simp, h, rfl⟩
        · rintro ⟨u, v, rfl, h, rfl⟩; simpa using h
      | false =>
        have h2 := reads h.2 hr
        refine reads_seq rfl ?_ fun ts a hd => ?_
        · obtain ⟨b, d, s⟩ := h1.alone
          obtain ⟨b', d', s'⟩ := h2.behind _ _ d
          exact ⟨b', d', fun w => (s' w).trans ((by simp only [s _] : _ ↔ _).trans W_cons.symm)⟩
        · obtain ⟨b, d, s⟩ := h1.behind _ _ hd
          obtain ⟨b', d', s'⟩ := h2.behind _ _ d
          refine ⟨b', ?_, fun w => (s' w).trans ?_⟩
          · change D true .seq (ts ++ (toks l ++ toks r)) b'
            rw [← List.append_assoc]; exact d'
          · simp only [s _, W_cons]
            constructor
            · rintro ⟨u, v, rfl, ⟨x, y, rfl, hx, hy⟩, hv⟩
              exact ⟨x, y ++ v, by simp, hx, y, v, rfl, hy, hv⟩
            · rintro ⟨x, z, rfl, hx, y, v, rfl, hy, hv⟩
              exact ⟨x ++ y, v, by simp, ⟨x, y, rfl, hx, hy⟩, hv⟩

end Verif.Syntax
