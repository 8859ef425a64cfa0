import Verif.Front.LookLL
import Verif.Grammar.FollowProps

/-!
# Lemmas: what may come behind a symbol by the rules as written is in its FOLLOW set
-/

namespace Verif.Front

open Verif.Grammar (Tables find World Der Wf OpsOk computeFirst computeFollow)
open Verif.Gen (Ctx)
open Verif.Syntax (Name Rule OpExpr)

variable {T : Tables Name} {rs : List Rule}

theorem star_plus {W : World} {eof : Nat} (H : Setting W T rs eof) {n m : Nat} {i : Syntax.Item} (hn : W.node n = some (.plus m)) (hm : Rep W.node T m i) {ω : List Name} (h : Sen rs (.star i) ω) :
    ∀ β, Der W m β → ∃ γ, Names T γ ω ∧ Der W n (β ++ γ) := by
  generalize e : Syntax.Item.star i = j at h
  induction h with
  | none => exact fun β hβ => ⟨[], trivial, by rw [List.append_nil]; exact .plus1 hn hβ⟩
  | again h1 _ _ ih =>
    cases e
    intro β hβ
    obtain ⟨γ, g1, g2⟩ := sen_der H.stands h1 m hm.irep
    obtain ⟨δ, d1, d2⟩ := ih rfl γ g2
    exact ⟨γ ++ δ, g1.append d1, .plusS hn hβ d2⟩
  | _ => cases e

/-- What is put for an item of a rule, with what stands behind it. -/
theorem at_context {W : World} {eof : Nat} (H : Setting W T rs eof) (hL : Look rs) {i : Syntax.Item} {k : List Syntax.Item} {s : Name} (h : At rs i k s) :
    ∃ n ks, IRep W.node T n i ∧ find T.symbols s = some ks ∧ ∀ β, Der W n β → ∀ ω, SenAll rs k ω → ∃ α κ, Names T κ ω ∧ Der W ks (α ++ β ++ κ) := by
  have up : ∀ {n m ks : Nat} {k : List Syntax.Item}, (∀ β, Der W m β → Der W n β) → (∀ β, Der W n β → ∀ ω, SenAll rs k ω → ∃ α κ, Names T κ ω ∧ Der W ks (α ++ β ++ κ)) →
      ∀ β, Der W m β → ∀ ω, SenAll rs k ω → ∃ α κ, Names T κ ω ∧ Der W ks (α ++ β ++ κ) := fun h1 h2 β hβ => h2 β (h1 β hβ)
  induction h with
  | @rule r hr =>
    obtain ⟨e, he, m, ks, h1, h2, h3⟩ := H.stands.right r hr
    refine ⟨m, ks, h3, h2, fun β hβ ω hω => ?_⟩
    cases hω
    exact ⟨[], [], trivial, by simpa using Der.expand (H.stands.sym _ _ h2) he h1 hβ⟩
  | ann _ ih =>
    obtain ⟨n, ks, hr, hs, ih⟩ := ih
    obtain ⟨m, h1, h2⟩ := hr
    exact ⟨m, ks, h2.irep, hs, up (fun β => .annot h1) ih⟩
  | act _ ih =>
    obtain ⟨n, ks, hr, hs, ih⟩ := ih
    obtain ⟨m, h1, h2⟩ := hr
    exact ⟨m, ks, h2.irep, hs, up (fun β => .action h1) ih⟩
  | cond _ ih =>
    obtain ⟨n, ks, hr, hs, ih⟩ := ih
    obtain ⟨m, h1, h2⟩ := hr
    exact ⟨m, ks, h2.irep, hs, up (fun β => .cond h1) ih⟩
  | altL _ ih =>
    obtain ⟨n, ks, hr, hs, ih⟩ := ih
    obtain ⟨l, r, h1, h2, h3⟩ := hr
    exact ⟨l, ks, h2.irep, hs, up (fun β => .altL h1) ih⟩
  | altR _ ih =>
    obtain ⟨n, ks, hr, hs, ih⟩ := ih
    obtain ⟨l, r, h1, h2, h3⟩ := hr
    exact ⟨r, ks, h3.irep, hs, up (fun β => .altR h1) ih⟩
  | consL _ ih =>
    obtain ⟨n, ks, hr, hs, ih⟩ := ih
    obtain ⟨l, r, h1, h2, h3⟩ := hr
    refine ⟨l, ks, h2.irep, hs, fun β hβ ω hω => ?_⟩
    cases hω with
    | cons g1 g2 =>
      obtain ⟨γ, g3, g4⟩ := sen_der H.stands g1 r h3.irep
      obtain ⟨α, κ, g5, g6⟩ := ih _ (.cons h1 hβ g4) _ g2
      exact ⟨α, γ ++ κ, g3.append g5, by simpa only [List.append_assoc] using g6⟩
  | consR h ih =>
    obtain ⟨n, ks, hr, hs, ih⟩ := ih
    obtain ⟨l, r, h1, h2, h3⟩ := hr
    refine ⟨r, ks, h3.irep, hs, fun β hβ ω hω => ?_⟩
    obtain ⟨χ, hχ⟩ := item_sen (at_neat (H.neat hL) (.consL h)).1
    obtain ⟨γ, g3, g4⟩ := sen_der H.stands hχ l h2.irep
    obtain ⟨α, κ, g5, g6⟩ := ih _ (.cons h1 g4 hβ) _ hω
    exact ⟨α ++ γ, κ, g5, by simpa only [List.append_assoc] using g6⟩
  | star _ ih =>
    obtain ⟨n, ks, hr, hs, ih⟩ := ih
    have hr' := hr
    obtain ⟨m, h1, h2⟩ := hr
    refine ⟨m, ks, h2.irep, hs, fun β hβ ω hω => ?_⟩
    cases hω with
    | cons g1 g2 =>
      obtain ⟨γ, g3, g4⟩ := sen_der H.stands g1 n hr'
      obtain ⟨α, κ, g5, g6⟩ := ih _ (.starS h1 hβ g4) _ g2
      exact ⟨α, γ ++ κ, g3.append g5, by simpa only [List.append_assoc] using g6⟩
  | plus _ ih =>
    obtain ⟨n, ks, hr, hs, ih⟩ := ih
    obtain ⟨m, h1, h2⟩ := hr
    refine ⟨m, ks, h2.irep, hs, fun β hβ ω hω => ?_⟩
    cases hω with
    | cons g1 g2 =>
      obtain ⟨γ, g3, g4⟩ := star_plus H h1 h2 g1 β hβ
      obtain ⟨α, κ, g5, g6⟩ := ih _ g4 _ g2
      exact ⟨α, γ ++ κ, g3.append g5, by simpa only [List.append_assoc] using g6⟩
  | recover _ ih =>
    obtain ⟨n, ks, hr, hs, ih⟩ := ih
    obtain ⟨m, h1, h2⟩ := hr
    exact absurd h1 (H.noTry _ _ _)
  | try_ _ ih =>
    obtain ⟨n, ks, hr, hs, ih⟩ := ih
    obtain ⟨l, r, h1, h2, h3⟩ := hr
    exact absurd h1 (H.noTry _ _ _)
  | catch_ _ ih =>
    obtain ⟨n, ks, hr, hs, ih⟩ := ih
    obtain ⟨l, r, h1, h2, h3⟩ := hr
    exact absurd h1 (H.noTry _ _ _)

/-- An operator rule with what is derived from it. -/
theorem op_context {W : World} {eof : Nat} (H : Setting W T rs eof) {r : Rule} {o : OpExpr} (hr : r ∈ rs) (e : r.item = .op o) {s : Name} {a : Name} (hb : o.base = .sym s a) :
    ∃ n p k ks, W.node n = some (.op p) ∧ Lists T p o.decls ∧ find T.symbols s = some k ∧ find T.symbols r.sym = some ks ∧ Der W n [k] ∧ ∀ β, Der W n β → Der W ks β := by
  obtain ⟨x, hx, m, ks, h1, h2, h3⟩ := H.stands.right r hr
  rw [e] at h3
  obtain ⟨p, g1, ⟨s', a', k, g2, g3, g4⟩, g5, _⟩ := h3
  rw [hb] at g2
  cases g2
  exact ⟨m, p, k, ks, g1, g5, g4, h2, .opBase g1 (.nonterm g3 (.sym (H.stands.sym _ _ g4))), fun β hβ => .expand (H.stands.sym _ _ h2) hx h1 hβ⟩

section
variable {K : Ctx} (H : Setting K.W T rs K.eofTok) (hL : Look rs) {f1 k1 f2 k2 : Nat} (hF : computeFirst K.W f1 k1 = some K.F) (hS : computeFollow K.W K.F K.eofTok f2 k2 = some K.S)
include H hL hF hS

theorem after_follow (hstart : ∀ s k, Alone rs s → find T.symbols s = some k → k ∈ K.W.start) {s x : Name} (h : After rs s x) :
    ∀ {k t : Nat}, find T.symbols s = some k → find T.terminals x = some t → (k, t) ∈ K.S := by
  obtain ⟨hq, hi⟩ := Grammar.computeFirst_quiet hF
  obtain ⟨hq', _⟩ := Grammar.followLoop_quiet _ _ _ hS
  have next : ∀ {s₀ k t : Nat} {α β : List Nat} {s' s x : Name}, find T.symbols s' = some s₀ → find T.symbols s = some k → find T.terminals x = some t → Der K.W s₀ (α ++ k :: t :: β) → (k, t) ∈ K.S :=
    fun h1 h2 h3 hd => (Grammar.C37_follow_partial H.wf H.opsOk H.bare (H.stands.term _ _ H.eof) hF hS (H.stands.sym _ _ h2)).1 _ _ _ _ (H.stands.sym _ _ h1) (H.term _ (H.stands.term _ _ h3)) hd
  have last : ∀ {s₀ k t : Nat} {α : List Nat} {s' s x : Name}, find T.symbols s' = some s₀ → find T.symbols s = some k → find T.terminals x = some t → Der K.W s₀ (α ++ [k]) → (s₀, t) ∈ K.S → (k, t) ∈ K.S :=
    fun h1 h2 h3 hd => (Grammar.follow_complete H.wf hq hi H.opsOk H.bare hq' (Grammar.derB_of_der H.wf hd) (.inr (H.stands.sym _ _ h1))).2 _ _ _ rfl (H.stands.sym _ _ h2) (H.stands.term _ _ h3)
  induction h with
  | @eof s ha =>
    intro k t hk ht
    rw [H.eof] at ht
    cases ht
    have : ∃ r ∈ rs, r.sym = s := by
      have h1 := ha.1
      cases e : rs.filter fun r => r.sym = s with
      | nil => rw [e] at h1; cases h1
      | cons r l =>
        have : r ∈ rs.filter fun r => r.sym = s := by rw [e]; exact .head _
        obtain ⟨h2, h3⟩ := List.mem_filter.1 this
        exact ⟨r, h2, by simpa using h3⟩
    obtain ⟨r, hr, rfl⟩ := this
    obtain ⟨e, he, m, ks, h1, h2, h3⟩ := H.stands.right r hr
    rw [hk] at h2
    cases h2
    exact (Grammar.C37_follow_partial H.wf H.opsOk H.bare (H.stands.term _ _ H.eof) hF hS (H.stands.sym _ _ hk)).2 k e m [] (hstart _ _ ha hk) he h1 (.sym (H.stands.sym _ _ hk))
  | @next s a k' s' t ω ha hω =>
    intro k u hk hu
    obtain ⟨n, ks, h1, h2, h3⟩ := at_context H hL ha
    obtain ⟨m, g1, g2⟩ := h1
    rw [hk] at g2
    cases g2
    obtain ⟨α, κ, h4, h5⟩ := h3 [k] (.nonterm g1 (.sym (H.stands.sym _ _ hk))) _ hω
    cases κ with
    | nil => exact h4.elim
    | cons u' κ =>
      obtain ⟨h4, _⟩ := h4
      rw [hu] at h4
      cases h4
      exact next (β := κ) (α := α) h2 hk hu (by simpa using h5)
  | @last s a k' s' t ha hω _ ih =>
    intro k u hk hu
    obtain ⟨n, ks, h1, h2, h3⟩ := at_context H hL ha
    obtain ⟨m, g1, g2⟩ := h1
    rw [hk] at g2
    cases g2
    obtain ⟨α, κ, h4, h5⟩ := h3 [k] (.nonterm g1 (.sym (H.stands.sym _ _ hk))) _ hω
    cases κ with
    | nil => exact last (α := α) h2 hk hu (by simpa using h5) (ih h2 hu)
    | cons u' κ => exact h4.elim
  | @opNext r o s a d t hr e hb hd hbe =>
    intro k u hk hu
    obtain ⟨n, p, k', ks, g1, g2, g3, g4, g5, g6⟩ := op_context H hr e hb
    rw [hk] at g3
    cases g3
    cases d with
    | pre q pr => exact hbe.elim
    | post q pr as =>
      cases hbe
      obtain ⟨u', h1, h2⟩ := g2.post.right q.tok (mem_posts.2 ⟨_, _, _, hd, rfl⟩)
      rw [hu] at h2
      cases h2
      exact next (α := []) (β := []) g4 hk hu (g6 _ (.opPost g1 h1 g5))
    | bin q pr as =>
      cases hbe
      obtain ⟨u', h1, h2⟩ := g2.bin.right q.tok (mem_bins.2 ⟨_, _, _, hd, rfl⟩)
      rw [hu] at h2
      cases h2
      have hdd := g6 _ (.opBin g1 h1 g5 g5)
      exact next (α := []) (β := [k]) g4 hk hu hdd
    | tern q q' pr as =>
      obtain ⟨⟨v, w⟩, h1, h2, h3⟩ := g2.tern.right (q.tok, q'.tok) (mem_terns.2 ⟨_, _, _, _, hd, rfl⟩)
      have hdd := g6 _ (.opTern g1 h1 g5 g5 g5)
      rcases hbe with hbe | hbe <;> cases hbe
      · rw [hu] at h2
        cases h2
        exact next (α := []) (β := [k] ++ w :: [k]) g4 hk hu hdd
      · rw [hu] at h3
        cases h3
        exact next (α := [k] ++ [v]) (β := [k]) g4 hk hu hdd
    | paren q q' =>
      obtain ⟨⟨v, w⟩, h1, h2, h3⟩ := g2.paren.right (q.tok, q'.tok) (mem_parens.2 ⟨_, _, hd, rfl⟩)
      cases hbe
      rw [hu] at h3
      cases h3
      exact next (α := [v]) (β := []) g4 hk hu (g6 _ (.opParen g1 h1 g5))
  | @opLast r o s a t hr e hb _ ih =>
    intro k u hk hu
    obtain ⟨n, p, k', ks, g1, g2, g3, g4, g5, g6⟩ := op_context H hr e hb
    rw [hk] at g3
    cases g3
    exact last (α := []) g4 hk hu (g6 _ g5) (ih g4 hu)

end

end Verif.Front
