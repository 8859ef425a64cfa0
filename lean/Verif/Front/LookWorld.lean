import Verif.Front.LookSen
import Verif.Front.Props
import Verif.Grammar.FirstProps
import Verif.Gen.Spec
import Mathlib.Tactic.ByContra

/-!
# Lemmas: what begins an item, by the nodes and by the rules as written
-/

namespace Verif.Front

open Verif.Grammar (Tables find World Der Wf OpsOk BareOk LeadOk Part Occurs Nullable Starts computeFirst Sets)
open Verif.Syntax (Name Tok Nt Rule)

/-- The nodes stand for the rules `rs`, and there are no others that matter. -/
structure Setting (W : World) (T : Tables Name) (rs : List Rule) (eof : Nat) : Prop where
  stands : Stands W T rs
  wf : Wf W
  plain : Gen.Plain W
  opsOk : OpsOk W
  bare : BareOk W
  simple : ∀ r ∈ rs, Simple False r.item
  valid : ∀ r ∈ rs, Valid r.item
  named : ∀ n, W.node n = some .sym → ∃ s, find T.symbols s = some n ∧ ((∃ r ∈ rs, r.sym = s) ∨ ∃ r ∈ rs, Mentions s r.item)
  full : ∀ n it, n < W.parsed → W.node n = some it → Two it → ∃ r ∈ rs, ∃ j, Sub j r.item ∧ Rep W.node T n j
  ops : ∀ n p, W.node n = some (.op p) → ∃ r ∈ rs, ∃ o, r.item = .op o ∧ OpRep W.node T n o
  term : ∀ t, W.node t = some .term → t ∈ W.terminals
  noTry : ∀ n l c, W.node n ≠ some (.tryc l c)
  eof : find T.terminals eofName = some eof
  start : ∀ r ∈ rs, ∀ k, find T.symbols r.sym = some k → k ∈ W.start → Alone rs r.sym
  rules : ∃ es, W.rules.Perm es ∧ RuleReps W.node T es rs

/-- Replaces symbols by words of terminals. -/
def Fills (W : World) (σ : Nat → List Nat) : Prop :=
  (∀ t, W.node t = some .term → σ t = [t]) ∧ (∀ s, W.node s = some .sym → Der W s (σ s)) ∧ ∀ n, ∀ t ∈ σ n, W.node t = some .term

theorem der_fill {W : World} (hw : Wf W) {σ : Nat → List Nat} (hσ : Fills W σ) {n : Nat} {α : List Nat} (h : Der W n α) : Der W n (α.flatMap σ) := by
  have tok : ∀ {n : Nat} {o : Grammar.OpItem} {t : Nat}, W.node n = some (.op o) → t ∈ o.pre ++ o.post ++ o.bin → σ t = [t] := fun hn ht => hσ.1 _ ((hw.opToks _ _ hn).1 _ ht)
  have tok2 : ∀ {n : Nat} {o : Grammar.OpItem} {t u : Nat}, W.node n = some (.op o) → (t, u) ∈ o.tern ++ o.paren → σ t = [t] ∧ σ u = [u] := fun hn ht =>
    ⟨hσ.1 _ ((hw.opToks _ _ hn).2 _ ht).1, hσ.1 _ ((hw.opToks _ _ hn).2 _ ht).2⟩
  induction h with
  | zero h => exact .zero h
  | term h => simp only [List.flatMap_cons, List.flatMap_nil, List.append_nil, hσ.1 _ h]; exact .term h
  | sym h => simp only [List.flatMap_cons, List.flatMap_nil, List.append_nil]; exact hσ.2.1 _ h
  | expand h1 h2 h3 _ ih => exact .expand h1 h2 h3 ih
  | evolve h1 _ ih => exact .evolve h1 ih
  | nonterm h1 _ ih => exact .nonterm h1 ih
  | inlined h1 _ ih => exact .inlined h1 ih
  | cons h1 _ _ ih1 ih2 => rw [List.flatMap_append]; exact .cons h1 ih1 ih2
  | altL h1 _ ih => exact .altL h1 ih
  | altR h1 _ ih => exact .altR h1 ih
  | action0 h1 => exact .action0 h1
  | action h1 _ ih => exact .action h1 ih
  | cond h1 _ ih => exact .cond h1 ih
  | annot h1 _ ih => exact .annot h1 ih
  | tryL h1 _ ih => exact .tryL h1 ih
  | tryR h1 _ ih => exact .tryR h1 ih
  | plus1 h1 _ ih => exact .plus1 h1 ih
  | plusS h1 _ _ ih1 ih2 => rw [List.flatMap_append]; exact .plusS h1 ih1 ih2
  | star0 h1 => exact .star0 h1
  | starS h1 _ _ ih1 ih2 => rw [List.flatMap_append]; exact .starS h1 ih1 ih2
  | opBase h1 _ ih => exact .opBase h1 ih
  | opPre h1 ht _ ih => rw [List.flatMap_cons, tok h1 (by simp [ht])]; exact .opPre h1 ht ih
  | opPost h1 ht _ ih => rw [List.flatMap_append, List.flatMap_cons, tok h1 (by simp [ht])]; exact .opPost h1 ht ih
  | opBin h1 ht _ _ ih1 ih2 => rw [List.flatMap_append, List.flatMap_cons, tok h1 (by simp [ht])]; exact .opBin h1 ht ih1 ih2
  | opTern h1 ht _ _ _ ih1 ih2 ih3 =>
    have := tok2 h1 (List.mem_append.2 (.inl ht))
    rw [List.flatMap_append, List.flatMap_cons, List.flatMap_append, List.flatMap_cons, this.1, this.2]
    exact .opTern h1 ht ih1 ih2 ih3
  | opParen h1 ht _ ih =>
    have := tok2 h1 (List.mem_append.2 (.inr ht))
    rw [List.flatMap_cons, List.flatMap_append, List.flatMap_cons, this.1, this.2]
    exact .opParen h1 ht ih

section
variable {W : World} {T : Tables Name} {rs : List Rule} {eof : Nat}

theorem Setting.neat (H : Setting W T rs eof) (hL : Look rs) : ∀ r ∈ rs, Neat rs r.item := fun r hr => ⟨H.simple r hr, H.valid r hr, hL.productive r hr⟩

theorem Setting.fill (H : Setting W T rs eof) (hL : Look rs) : ∃ σ, Fills W σ := by
  classical
  have word : ∀ s, W.node s = some .sym → ∃ α, Der W s α ∧ ∀ t ∈ α, W.node t = some .term := by
    intro n hn
    obtain ⟨s, hs, h⟩ := H.named n hn
    have hsen : ∃ ω, Sentence rs s ω := by
      rcases h with ⟨r, h1, rfl⟩ | ⟨r, h1, h2⟩
      · obtain ⟨ω, hω⟩ := item_sen (H.neat hL r h1)
        exact ⟨ω, r, h1, rfl, hω⟩
      · exact hL.productive r h1 s h2
    obtain ⟨ω, hω⟩ := hsen
    obtain ⟨α, h1, h2⟩ := (sentence_der H.stands hs ω).1 hω
    exact ⟨α, h2, fun t ht => by obtain ⟨x, hx⟩ := h1.mem t ht; exact H.stands.term _ _ hx⟩
  refine ⟨fun n => if h : W.node n = some .sym then (word n h).choose else if W.node n = some .term then [n] else [], fun t ht => ?_, fun s hs => ?_, fun n t ht => ?_⟩
  · simp [ht]
  · simp only [hs, dite_true]
    exact (word s hs).choose_spec.1
  · dsimp only at ht
    split at ht
    · rename_i hs
      exact (word n hs).choose_spec.2 t ht
    · split at ht
      · cases List.mem_singleton.1 ht; assumption
      · simp at ht

/-- A form that begins with a terminal can be made a word. -/
theorem Setting.word (H : Setting W T rs eof) (hL : Look rs) {n t : Nat} {γ : List Nat} (ht : W.node t = some .term) (h : Der W n (t :: γ)) :
    ∃ δ, Der W n (t :: δ) ∧ ∀ u ∈ t :: δ, u ∈ W.terminals := by
  obtain ⟨σ, hσ⟩ := H.fill hL
  have := der_fill H.wf hσ h
  rw [List.flatMap_cons, hσ.1 t ht] at this
  refine ⟨_, this, fun u hu => ?_⟩
  rcases List.mem_cons.1 hu with rfl | hu
  · exact H.term _ ht
  · obtain ⟨x, _, hx⟩ := List.mem_flatMap.1 hu
    exact H.term _ (hσ.2.2 _ _ hx)

theorem Setting.begins (H : Setting W T rs eof) (hL : Look rs) {n t : Nat} {γ : List Nat} (ht : W.node t = some .term) (h : Der W n (t :: γ)) :
    (∀ i, IRep W.node T n i → ∃ x, find T.terminals x = some t ∧ Begins rs i x) ∧ ∀ s, find T.symbols s = some n → ∃ x ω, find T.terminals x = some t ∧ Sentence rs s (x :: ω) := by
  obtain ⟨δ, h1, h2⟩ := H.word hL ht h
  obtain ⟨h3, h4⟩ := der_sen H.stands h1 h2
  refine ⟨fun i hi => ?_, fun s hs => ?_⟩
  · obtain ⟨ω, h5, h6⟩ := h3 i hi
    cases ω with
    | nil => exact h5.elim
    | cons x ω => exact ⟨x, h5.1, ω, h6⟩
  · obtain ⟨ω, h5, h6⟩ := h4 s hs
    cases ω with
    | nil => exact h5.elim
    | cons x ω => exact ⟨x, ω, h5.1, h6⟩

theorem Setting.begun (H : Setting W T rs eof) {n : Nat} {i : Syntax.Item} {x : Name} (hi : IRep W.node T n i) (h : Begins rs i x) : ∃ t γ, find T.terminals x = some t ∧ Der W n (t :: γ) := by
  obtain ⟨ω, h⟩ := h
  obtain ⟨α, h1, h2⟩ := sen_der H.stands h n hi
  cases α with
  | nil => exact h1.elim
  | cons t γ => exact ⟨t, γ, h1.1, h2⟩

theorem Setting.null (H : Setting W T rs eof) {n : Nat} {i : Syntax.Item} (hi : IRep W.node T n i) : Nullable W n ↔ Sen rs i [] := by
  constructor
  · intro h
    obtain ⟨ω, h1, h2⟩ := (der_sen H.stands h (by simp)).1 i hi
    cases ω with
    | nil => exact h2
    | cons => exact h1.elim
  · intro h
    obtain ⟨α, h1, h2⟩ := sen_der H.stands h n hi
    cases α with
    | nil => exact h2
    | cons => exact h1.elim

/-! ### FIRST sets -/

theorem starts_lead (hw : Wf W) {n m : Nat} (h : Starts W n m) : n < W.parsed → (∃ it, W.node n = some it) → ∀ {t : Nat} {γ : List Nat}, Der W m (t :: γ) → ∃ δ, Der W n (t :: δ) := by
  have part : ∀ {n m : Nat}, n < W.parsed → Part W n m → (∀ o, W.node n ≠ some (.op o)) → m < W.parsed ∧ ∃ it, W.node m = some it := fun h1 h2 h3 =>
    ⟨by have := Grammar.part_lt hw h1 h2 h3; omega, hw.valid _ _ h2⟩
  induction h with
  | refl => exact fun _ _ _ _ h => ⟨_, h⟩
  | consL hn _ ih =>
    intro hp _ t γ h
    have g := part hp (.consL hn) (by simp [hn])
    have g' := part hp (.consR hn) (by simp [hn])
    obtain ⟨δ, h⟩ := ih g.1 g.2 h
    obtain ⟨β, hb⟩ := Grammar.productive_parsed hw _ g'.1 g'.2
    exact ⟨_, .cons hn h hb⟩
  | consR hn hl _ ih =>
    intro hp _ t γ h
    have g := part hp (.consR hn) (by simp [hn])
    obtain ⟨δ, h⟩ := ih g.1 g.2 h
    exact ⟨δ, .cons hn hl h⟩
  | altL hn _ ih => intro hp _ t γ h; have g := part hp (.altL hn) (by simp [hn]); exact (ih g.1 g.2 h).imp fun _ => .altL hn
  | altR hn _ ih => intro hp _ t γ h; have g := part hp (.altR hn) (by simp [hn]); exact (ih g.1 g.2 h).imp fun _ => .altR hn
  | action hn _ ih => intro hp _ t γ h; have g := part hp (.action hn) (by simp [hn]); exact (ih g.1 g.2 h).imp fun _ => .action hn
  | cond hn _ ih => intro hp _ t γ h; have g := part hp (.cond hn) (by simp [hn]); exact (ih g.1 g.2 h).imp fun _ => .cond hn
  | annot hn _ ih => intro hp _ t γ h; have g := part hp (.annot hn) (by simp [hn]); exact (ih g.1 g.2 h).imp fun _ => .annot hn
  | tryL hn _ ih => intro hp _ t γ h; have g := part hp (.tryL hn) (by simp [hn]); exact (ih g.1 g.2 h).imp fun _ => .tryL hn
  | tryR hn _ ih => intro hp _ t γ h; have g := part hp (.tryR hn) (by simp [hn]); exact (ih g.1 g.2 h).imp fun _ => .tryR hn
  | plus hn _ ih => intro hp _ t γ h; have g := part hp (.plus hn) (by simp [hn]); exact (ih g.1 g.2 h).imp fun _ => .plus1 hn
  | nonterm hn _ ih =>
    intro hp _ t γ h
    have hs := hw.symbols _ _ (.inl hn)
    exact (ih (Grammar.parsed_of hw hs (by simp) (by simp)) ⟨_, hs⟩ h).imp fun _ => .nonterm hn
  | inlined hn _ ih =>
    intro hp _ t γ h
    have hs := hw.symbols _ _ (.inr (.inl hn))
    exact (ih (Grammar.parsed_of hw hs (by simp) (by simp)) ⟨_, hs⟩ h).imp fun _ => .inlined hn

theorem starts_parsed (hw : Wf W) {n m : Nat} (h : Starts W n m) : n < W.parsed → (∃ it, W.node n = some it) → m < W.parsed ∧ ∃ it, W.node m = some it := by
  have part : ∀ {n m : Nat}, n < W.parsed → Part W n m → (∀ o, W.node n ≠ some (.op o)) → m < W.parsed ∧ ∃ it, W.node m = some it := fun h1 h2 h3 =>
    ⟨by have := Grammar.part_lt hw h1 h2 h3; omega, hw.valid _ _ h2⟩
  induction h with
  | refl => exact fun h1 h2 => ⟨h1, h2⟩
  | consL hn _ ih => intro hp _; have g := part hp (.consL hn) (by simp [hn]); exact ih g.1 g.2
  | consR hn hl _ ih => intro hp _; have g := part hp (.consR hn) (by simp [hn]); exact ih g.1 g.2
  | altL hn _ ih => intro hp _; have g := part hp (.altL hn) (by simp [hn]); exact ih g.1 g.2
  | altR hn _ ih => intro hp _; have g := part hp (.altR hn) (by simp [hn]); exact ih g.1 g.2
  | action hn _ ih => intro hp _; have g := part hp (.action hn) (by simp [hn]); exact ih g.1 g.2
  | cond hn _ ih => intro hp _; have g := part hp (.cond hn) (by simp [hn]); exact ih g.1 g.2
  | annot hn _ ih => intro hp _; have g := part hp (.annot hn) (by simp [hn]); exact ih g.1 g.2
  | tryL hn _ ih => intro hp _; have g := part hp (.tryL hn) (by simp [hn]); exact ih g.1 g.2
  | tryR hn _ ih => intro hp _; have g := part hp (.tryR hn) (by simp [hn]); exact ih g.1 g.2
  | plus hn _ ih => intro hp _; have g := part hp (.plus hn) (by simp [hn]); exact ih g.1 g.2
  | nonterm hn _ ih => intro hp _; have hs := hw.symbols _ _ (.inl hn); exact ih (Grammar.parsed_of hw hs (by simp) (by simp)) ⟨_, hs⟩
  | inlined hn _ ih => intro hp _; have hs := hw.symbols _ _ (.inr (.inl hn)); exact ih (Grammar.parsed_of hw hs (by simp) (by simp)) ⟨_, hs⟩

/-- What starts two items but cannot be empty gives a token that begins both. -/
theorem Setting.shared (H : Setting W T rs eof) (hL : Look rs) {l r m : Nat} {a b : Syntax.Item} (hl : l < W.parsed) (hr : r < W.parsed) (ha : Rep W.node T l a) (hb : Rep W.node T r b)
    (h1 : Starts W l m) (h2 : Starts W r m) (hm : ¬ Nullable W m) : ∃ t, Begins rs a t ∧ Begins rs b t := by
  obtain ⟨it, h3, _⟩ := ha.node
  obtain ⟨it', h3', _⟩ := hb.node
  obtain ⟨g1, g2⟩ := starts_parsed H.wf h1 hl ⟨_, h3⟩
  obtain ⟨α, hα⟩ := Grammar.productive_parsed H.wf m g1 g2
  obtain ⟨σ, hσ⟩ := H.fill hL
  have hd := der_fill H.wf hσ hα
  cases e : α.flatMap σ with
  | nil => rw [e] at hd; exact absurd hd hm
  | cons t γ =>
    have ht : W.node t = some .term := by
      have : t ∈ α.flatMap σ := by rw [e]; exact .head _
      obtain ⟨x, _, hx⟩ := List.mem_flatMap.1 this
      exact hσ.2.2 _ _ hx
    rw [e] at hd
    obtain ⟨δ, d1⟩ := starts_lead H.wf h1 hl ⟨_, h3⟩ hd
    obtain ⟨δ', d2⟩ := starts_lead H.wf h2 hr ⟨_, h3'⟩ hd
    obtain ⟨x, x1, x2⟩ := (H.begins hL ht d1).1 a ha.irep
    obtain ⟨y, y1, y2⟩ := (H.begins hL ht d2).1 b hb.irep
    rw [H.stands.termInj _ _ _ y1 x1] at y2
    exact ⟨x, x2, y2⟩

theorem Copy.begins {j j' : Syntax.Item} (h : Copy j j') (hs : Simple False j') {t : Name} : Begins rs j' t ↔ Begins rs j t :=
  ⟨fun ⟨ω, hω⟩ => ⟨ω, (copy_sen h hs _).1 hω⟩, fun ⟨ω, hω⟩ => ⟨ω, (copy_sen h hs _).2 hω⟩⟩

theorem names_nodup (hi : ∀ s s' k, find T.terminals s = some k → find T.terminals s' = some k → s = s') : ∀ {α : List Nat} {ω : List Name}, Names T α ω → (α.Nodup ↔ ω.Nodup)
  | [], [], _ => by simp
  | t :: α, s :: ω, h => by
    rw [List.nodup_cons, List.nodup_cons, names_nodup hi h.2]
    refine and_congr (not_congr ⟨fun hm => ?_, fun hm => ?_⟩) Iff.rfl
    · obtain ⟨s', h1, h2⟩ := h.2.left t hm
      rw [hi _ _ _ h.1 h2]; exact h1
    · obtain ⟨t', h1, h2⟩ := h.2.right s hm
      have h3 := h.1
      rw [h2] at h3
      cases h3
      exact h1

theorem names2_fst : ∀ {α : List (Nat × Nat)} {ω : List (Name × Name)}, Names2 T α ω → Names T (α.map (·.1)) (ω.map (·.1))
  | [], [], _ => trivial
  | _ :: _, _ :: _, h => ⟨h.1.1, names2_fst h.2⟩

theorem middle1 {α : Type} (a b c d e : List α) (x : α) : (a ++ x :: b ++ c ++ d ++ e).Perm (x :: (a ++ b ++ c ++ d ++ e)) := by
  simp only [List.append_assoc, List.cons_append]
  exact List.perm_middle

theorem leads_perm : ∀ os : List Syntax.OpDecl, (pres os ++ posts os ++ bins os ++ (terns os).map (·.1) ++ (parens os).map (·.1)).Perm (os.map lead)
  | [] => .refl _
  | d :: os => by
    have ih := leads_perm os
    rw [List.map_cons]
    refine .trans ?_ (ih.cons _)
    generalize ea : pres os = a
    generalize eb : posts os = b
    generalize ec : bins os = c
    generalize ed : terns os = e
    generalize ee : parens os = f
    have key : ∀ {x : Name} {a' b' c' e' f' : List Name}, (a' = x :: a ∧ b' = b ∧ c' = c ∧ e' = e.map (·.1) ∧ f' = f.map (·.1)) ∨ (a' = a ∧ b' = x :: b ∧ c' = c ∧ e' = e.map (·.1) ∧ f' = f.map (·.1)) ∨
        (a' = a ∧ b' = b ∧ c' = x :: c ∧ e' = e.map (·.1) ∧ f' = f.map (·.1)) ∨ (a' = a ∧ b' = b ∧ c' = c ∧ e' = x :: e.map (·.1) ∧ f' = f.map (·.1)) ∨
        (a' = a ∧ b' = b ∧ c' = c ∧ e' = e.map (·.1) ∧ f' = x :: f.map (·.1)) → (a' ++ b' ++ c' ++ e' ++ f').Perm (x :: (a ++ b ++ c ++ e.map (·.1) ++ f.map (·.1))) := by
      rintro x a' b' c' e' f' (⟨rfl, rfl, rfl, rfl, rfl⟩ | ⟨rfl, rfl, rfl, rfl, rfl⟩ | ⟨rfl, rfl, rfl, rfl, rfl⟩ | ⟨rfl, rfl, rfl, rfl, rfl⟩ | ⟨rfl, rfl, rfl, rfl, rfl⟩)
      · exact .refl _
      · exact middle1 _ _ _ _ _ _
      · have := middle1 (a' ++ b') c (e.map (·.1)) (f.map (·.1)) [] x
        simpa only [List.append_nil] using this
      · have := middle1 (a' ++ b' ++ c') (e.map (·.1)) (f.map (·.1)) [] [] x
        simpa only [List.append_nil] using this
      · exact List.perm_middle
    subst ea eb ec ed ee
    cases d with
    | pre q p => exact key (.inl ⟨rfl, rfl, rfl, rfl, rfl⟩)
    | post q p a => exact key (.inr (.inl ⟨rfl, rfl, rfl, rfl, rfl⟩))
    | bin q p a => exact key (.inr (.inr (.inl ⟨rfl, rfl, rfl, rfl, rfl⟩)))
    | tern q q' p a => exact key (.inr (.inr (.inr (.inl ⟨rfl, rfl, rfl, rfl, rfl⟩))))
    | paren q q' => exact key (.inr (.inr (.inr (.inr ⟨rfl, rfl, rfl, rfl, rfl⟩))))

theorem Setting.opNodup (H : Setting W T rs eof) (hL : Look rs) {n : Nat} {p : Grammar.OpItem} (hn : W.node n = some (.op p)) : (p.pre ++ p.post ++ p.bin ++ p.tern.map (·.1) ++ p.paren.map (·.1)).Nodup := by
  obtain ⟨r, hr, o, e, p', g1, _, g2, _⟩ := H.ops n p hn
  rw [hn] at g1
  cases g1
  refine (names_nodup H.stands.termInj ((((g2.pre.append g2.post).append g2.bin).append (names2_fst g2.tern)).append (names2_fst g2.paren))).2 ?_
  exact (leads_perm o.decls).nodup_iff.2 (hL.opLead r hr o e)

theorem Setting.lead (H : Setting W T rs eof) (hL : Look rs) : LeadOk W := by
  have neat := H.neat hL
  refine ⟨fun n l r m hp hn h1 h2 => ?_, fun n l r m hp hn h1 h2 => ?_, fun n l r m hp hn hl h1 h2 => ?_, fun n o hn => H.opNodup hL hn⟩
  · by_contra hm
    obtain ⟨ρ, hρ, j, hj, hr⟩ := H.full n _ hp hn (.inl ⟨_, _, rfl⟩)
    cases j <;> simp only [Rep, hn] at hr <;> try simp at hr
    rename_i a b
    obtain ⟨ha, hb⟩ := hr
    obtain ⟨j', k', c1, c2⟩ := copy_at hj (.rule hρ)
    obtain ⟨a', b', rfl, ca, cb⟩ := copy_alt c1
    have hs := (at_neat neat c2).1.1
    have gl := Grammar.part_lt H.wf hp (.altL hn) (by simp [hn])
    have gr := Grammar.part_lt H.wf hp (.altR hn) (by simp [hn])
    obtain ⟨t, t1, t2⟩ := H.shared hL (by omega) (by omega) ha hb h1 h2 hm
    exact choices_disjoint (hL.alt a' b' k' _ c2) (fun m m' h => h.2.1) ((ca.begins hs.1).2 t1) ((cb.begins hs.2).2 t2)
  · exact absurd hn (H.noTry _ _ _)
  · by_contra hm
    obtain ⟨ρ, hρ, j, hj, hr⟩ := H.full n _ hp hn (.inr ⟨_, _, rfl⟩)
    cases j <;> simp only [Rep, hn] at hr <;> try simp at hr
    rename_i a b
    obtain ⟨ha, hb⟩ := hr
    obtain ⟨j', k', c1, c2⟩ := copy_at hj (.rule hρ)
    obtain ⟨a', b', rfl, ca, cb⟩ := copy_cons c1
    have hs := (at_neat neat c2).1.1
    have gl := Grammar.part_lt H.wf hp (.consL hn) (by simp [hn])
    have gr := Grammar.part_lt H.wf hp (.consR hn) (by simp [hn])
    obtain ⟨t, t1, t2⟩ := H.shared hL (by omega) (by omega) ha hb h1 h2 hm
    exact hL.seq a' b' k' _ c2 ((copy_sen ca hs.1 _).2 ((H.null ha.irep).1 hl)) t ((ca.begins hs.1).2 t1) ((cb.begins hs.2).2 t2)

end

end Verif.Front
