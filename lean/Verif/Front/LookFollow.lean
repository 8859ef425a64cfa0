import Verif.Front.LookWorld
import Verif.Grammar.FollowPos

/-!
# Lemmas: what may come behind, by the nodes and by the rules as written
-/

namespace Verif.Front

open Verif.Grammar (Tables find World Der Wf OpsOk LeadOk Part Occurs Nullable ChainAt BodyAt OpBody OpItem Passes Fol FSeen FVis FCalls Direct)
open Verif.Syntax (Name Rule OpExpr)

variable {W : World} {T : Tables Name} {rs : List Rule} {eof : Nat}

def AfterN (T : Tables Name) (rs : List Rule) (s : Name) (e : Nat) : Prop := ∃ x, find T.terminals x = some e ∧ After rs s x

def FollowsN (T : Tables Name) (rs : List Rule) (k : List Syntax.Item) (s : Name) (e : Nat) : Prop := ∃ x, find T.terminals x = some e ∧ Follows rs k s x

/-- What may come behind a part of an operator expression. -/
def InOp (T : Tables Name) (rs : List Rule) (r : Rule) (o : OpExpr) (e : Nat) : Prop := ∃ x, find T.terminals x = some e ∧ (After rs r.sym x ∨ ∃ d ∈ o.decls, Behind x d)

/-- The nodes of an operator rule. -/
structure OpAt (W : World) (T : Tables Name) (rs : List Rule) (r : Rule) (o : OpExpr) (p : Nat) (po : OpItem) (top : Nat) : Prop where
  mem : r ∈ rs
  item : r.item = .op o
  node : W.node p = some (.op po)
  base : ∃ s a k, o.base = .sym s a ∧ W.node po.base = some (.nonterm k) ∧ find T.symbols s = some k
  lists : Lists T po o.decls
  chain : ChainAt W top po.base po.bodies top
  top : po.bodies ≠ [] → W.parsed ≤ top

/-- `Place W T rs n X`: the node `n` stands for something in the rules behind which `X` may come. -/
inductive Place (W : World) (T : Tables Name) (rs : List Rule) : Nat → (Nat → Prop) → Prop
  | rule {n r} : r ∈ rs → RuleRep W.node T n r → Place W T rs n (AfterN T rs r.sym)
  | item {n i k s} : Rep W.node T n i → At rs i k s → Place W T rs n (FollowsN T rs k s)
  | op {n r o} : r ∈ rs → r.item = .op o → OpRep W.node T n o → Place W T rs n (AfterN T rs r.sym)
  | loopC {n m a j k s} : W.node n = some (.cons m a) → W.node a = some (.alt W.zero n) → Rep W.node T m j → At rs j (.star j :: k) s → Place W T rs n (FollowsN T rs k s)
  | loopA {n m c j k s} : W.node c = some (.cons m n) → W.node n = some (.alt W.zero c) → Rep W.node T m j → At rs j (.star j :: k) s → Place W T rs n (FollowsN T rs k s)
  | chain {n r o p po top bs} : OpAt W T rs r o p po top → ChainAt W top po.base bs n → (∀ b ∈ bs, b ∈ po.bodies) → (bs ≠ [] → W.parsed ≤ n) → Place W T rs n (InOp T rs r o)
  | body {r o p po top b k j} : OpAt W T rs r o p po top → BodyAt W top b k → b ∈ po.bodies → W.parsed ≤ k → j < b.size → Place W T rs (k + j) (InOp T rs r o)
  | leaf {n} : W.node n = some .term ∨ W.node n = some .zero → Place W T rs n fun _ => True

/-- The tokens of an alternative which stand behind an operand. -/
def behind : OpBody → List Nat
  | .pre _ => []
  | .post t => [t]
  | .bin t => [t]
  | .tern t u => [t, u]
  | .paren _ u => [u]

theorem cons_lead {n t r : Nat} (hn : W.node n = some (.cons t r)) (ht : W.node t = some .term) {α : List Nat} (h : Der W n α) : ∃ γ, α = t :: γ := by
  cases h
  case cons l r α β h2 h3 h1 =>
    rw [hn] at h1
    cases h1
    rw [Grammar.der_term ht h2]
    exact ⟨β, rfl⟩
  all_goals simp_all

theorem body_cons {top k : Nat} {b : OpBody} (h : BodyAt W top b k) (ht : ∀ t ∈ b.toks, W.node t = some .term) {j : Nat} (hj : j < b.size) :
    ∃ l r, W.node (k + j) = some (.cons l r) ∧ (l ∈ b.toks ∨ l = top ∧ ∃ u ∈ behind b, ∀ α, Der W r α → ∃ γ, α = u :: γ) ∧ (r ∈ b.toks ∨ r = top ∨ r = k + (j + 1) ∧ j + 1 < b.size) := by
  have one : ∀ {t : Nat}, W.node t = some .term → ∀ α, Der W t α → ∃ γ, α = t :: γ := fun ht α h => ⟨[], Grammar.der_term ht h⟩
  cases b with
  | pre t =>
    obtain rfl : j = 0 := by simp [OpBody.size] at hj; exact hj
    exact ⟨t, top, h, .inl (by simp [OpBody.toks]), .inr (.inl rfl)⟩
  | post t =>
    obtain rfl : j = 0 := by simp [OpBody.size] at hj; exact hj
    exact ⟨top, t, h, .inr ⟨rfl, t, by simp [behind], one (ht t (by simp [OpBody.toks]))⟩, .inl (by simp [OpBody.toks])⟩
  | bin t =>
    have h1 := ht t (by simp [OpBody.toks])
    match j, hj with
    | 0, _ => exact ⟨top, k + 1, h.1, .inr ⟨rfl, t, by simp [behind], fun α => cons_lead h.2 h1⟩, .inr (.inr ⟨rfl, by simp [OpBody.size]⟩)⟩
    | 1, _ => exact ⟨t, top, h.2, .inl (by simp [OpBody.toks]), .inr (.inl rfl)⟩
    | j + 2, hj => simp [OpBody.size] at hj; omega
  | tern t u =>
    have h1 := ht t (by simp [OpBody.toks])
    have h2 := ht u (by simp [OpBody.toks])
    match j, hj with
    | 0, _ => exact ⟨top, k + 1, h.1, .inr ⟨rfl, t, by simp [behind], fun α => cons_lead h.2.1 h1⟩, .inr (.inr ⟨rfl, by simp [OpBody.size]⟩)⟩
    | 1, _ => exact ⟨t, k + 2, h.2.1, .inl (by simp [OpBody.toks]), .inr (.inr ⟨rfl, by simp [OpBody.size]⟩)⟩
    | 2, _ => exact ⟨top, k + 3, h.2.2.1, .inr ⟨rfl, u, by simp [behind], fun α => cons_lead h.2.2.2 h2⟩, .inr (.inr ⟨rfl, by simp [OpBody.size]⟩)⟩
    | 3, _ => exact ⟨u, top, h.2.2.2, .inl (by simp [OpBody.toks]), .inr (.inl rfl)⟩
    | j + 4, hj => simp [OpBody.size] at hj; omega
  | paren t u =>
    have h2 := ht u (by simp [OpBody.toks])
    match j, hj with
    | 0, _ => exact ⟨t, k + 1, h.1, .inl (by simp [OpBody.toks]), .inr (.inr ⟨rfl, by simp [OpBody.size]⟩)⟩
    | 1, _ => exact ⟨top, u, h.2, .inr ⟨rfl, u, by simp [behind], one h2⟩, .inl (by simp [OpBody.toks])⟩
    | j + 2, hj => simp [OpBody.size] at hj; omega

section
variable {r : Rule} {o : OpExpr} {p top : Nat} {po : OpItem}

theorem OpAt.toks (h : OpAt W T rs r o p po top) (hw : Wf W) : ∀ b ∈ po.bodies, ∀ t ∈ b.toks, W.node t = some .term := by
  obtain ⟨h1, h2⟩ := hw.opToks _ _ h.node
  intro b hb t ht
  rcases Grammar.mem_bodies.1 hb with ⟨x, hx, rfl⟩ | ⟨x, hx, rfl⟩ | ⟨x, hx, rfl⟩ | ⟨x, hx, rfl⟩ | ⟨x, hx, rfl⟩ <;> simp only [OpBody.toks, List.mem_cons, List.not_mem_nil, or_false] at ht
  · subst ht; exact h1 _ (by simp [hx])
  · subst ht; exact h1 _ (by simp [hx])
  · subst ht; exact h1 _ (by simp [hx])
  · rcases ht with rfl | rfl
    · exact (h2 _ (List.mem_append.2 (.inl hx))).1
    · exact (h2 _ (List.mem_append.2 (.inl hx))).2
  · rcases ht with rfl | rfl
    · exact (h2 _ (List.mem_append.2 (.inr hx))).1
    · exact (h2 _ (List.mem_append.2 (.inr hx))).2

theorem OpAt.behind (h : OpAt W T rs r o p po top) {b : OpBody} (hb : b ∈ po.bodies) {u : Nat} (hu : u ∈ behind b) : InOp T rs r o u := by
  rcases Grammar.mem_bodies.1 hb with ⟨x, hx, rfl⟩ | ⟨x, hx, rfl⟩ | ⟨x, hx, rfl⟩ | ⟨x, hx, rfl⟩ | ⟨x, hx, rfl⟩ <;> simp only [Front.behind, List.mem_cons, List.not_mem_nil, or_false] at hu
  · subst hu
    obtain ⟨s, h1, h2⟩ := h.lists.post.left _ hx
    obtain ⟨q, pr, a, h3, rfl⟩ := mem_posts.1 h1
    exact ⟨_, h2, .inr ⟨_, h3, rfl⟩⟩
  · subst hu
    obtain ⟨s, h1, h2⟩ := h.lists.bin.left _ hx
    obtain ⟨q, pr, a, h3, rfl⟩ := mem_bins.1 h1
    exact ⟨_, h2, .inr ⟨_, h3, rfl⟩⟩
  · obtain ⟨s, h1, h2, h2'⟩ := h.lists.tern.left _ hx
    obtain ⟨q, q', pr, a, h3, rfl⟩ := mem_terns.1 h1
    rcases hu with rfl | rfl
    · exact ⟨_, h2, .inr ⟨_, h3, .inl rfl⟩⟩
    · exact ⟨_, h2', .inr ⟨_, h3, .inr rfl⟩⟩
  · subst hu
    obtain ⟨s, h1, h2, h2'⟩ := h.lists.paren.left _ hx
    obtain ⟨q, q', h3, rfl⟩ := mem_parens.1 h1
    exact ⟨_, h2', .inr ⟨_, h3, rfl⟩⟩

theorem OpAt.place (h : OpAt W T rs r o p po top) : Place W T rs top (InOp T rs r o) := .chain h h.chain (fun _ h => h) h.top

theorem OpAt.token (h : OpAt W T rs r o p po top) (hw : Wf W) {b : OpBody} (hb : b ∈ po.bodies) {t : Nat} (ht : t ∈ b.toks) : Place W T rs t fun _ => True := .leaf (.inl (h.toks hw b hb t ht))

end

theorem opAt_of {r : Rule} {o : OpExpr} {n k : Nat} (hw : Wf W) (hr : r ∈ rs) (e : r.item = .op o) (h : OpRep W.node T n o) (hk : W.bnf n = some k) : ∃ po, OpAt W T rs r o n po k := by
  obtain ⟨po, h1, h2, h3, _⟩ := h
  obtain ⟨k', g1, g2, g3⟩ := hw.bnf.op n po h1
  rw [hk] at g1
  cases g1
  exact ⟨po, hr, e, h1, h2, h3, g2, g3⟩

/-! ### Steps -/

theorem follows_mono {j : Syntax.Item} {k : List Syntax.Item} {s : Name} (h : Sen rs j []) {e : Nat} (hf : FollowsN T rs k s e) : FollowsN T rs (j :: k) s e := by
  obtain ⟨x, h1, h2⟩ := hf
  refine ⟨x, h1, ?_⟩
  rcases h2 with ⟨ω, h2⟩ | ⟨h2, h3⟩
  · exact .inl ⟨ω, .cons (α := []) h h2⟩
  · exact .inr ⟨.cons (α := []) h h2, h3⟩

/-- All of what may come behind is passed on. -/
theorem place_pass (hw : Wf W) {n m : Nat} {X : Nat → Prop} (h : Place W T rs n X) (hp : Passes W n m) : ∃ X', Place W T rs m X' ∧ ∀ e, X e → X' e := by
  cases h with
  | @rule n r hr h =>
    obtain ⟨i, k, h1, h2, h3⟩ := h
    cases hp with
    | direct hd => cases hd <;> simp_all
    | annot h => simp_all
    | twoL h => simp_all
    | twoR h => simp_all
    | consR h => simp_all
    | evolve h =>
      rw [h1] at h
      cases h
      rcases h3.cases with h3 | ⟨o, e, h3⟩
      · refine ⟨_, .item h3 (.rule hr), fun e ⟨x, hx, ha⟩ => ⟨x, hx, .inr ⟨.nil, ha⟩⟩⟩
      · exact ⟨_, .op hr e h3, fun _ h => h⟩
  | @item n i k s hr ha =>
    have same : ∀ {m : Nat} {j : Syntax.Item}, Rep W.node T m j → At rs j k s → ∃ X', Place W T rs m X' ∧ ∀ e, FollowsN T rs k s e → X' e := fun h1 h2 => ⟨_, .item h1 h2, fun _ h => h⟩
    have hno := hr.node
    cases hp with
    | direct hd =>
      cases hd with
      | @plus j c hn hb =>
        cases i <;> simp only [Rep, hn] at hr <;> try simp at hr
        obtain ⟨c', a, e1, e2, e3⟩ := hw.bnf.plus _ _ hn
        rw [hb] at e1
        cases e1
        exact ⟨_, .loopC e2 e3 hr (.plus ha), fun _ h => h⟩
      | @star j c hn hb =>
        cases i <;> simp only [Rep, hn] at hr <;> try simp at hr
        obtain ⟨c', a, e1, e2, e3⟩ := hw.bnf.star _ _ hn
        rw [hb] at e1
        cases e1
        exact ⟨_, .loopA e2 e3 hr (.star ha), fun _ h => h⟩
      | op hn hb =>
        obtain ⟨it, h1, _, _, h2⟩ := hno
        rw [hn] at h1
        exact absurd (Option.some.inj h1).symm (h2 _)
      | action hn =>
        cases i <;> simp only [Rep, hn] at hr <;> try simp at hr
        exact same hr (.act ha)
      | tryc hn =>
        cases i <;> simp only [Rep, hn] at hr <;> try simp at hr
        exact same hr (.recover ha)
    | annot hn =>
      rcases hn with hn | hn
      · cases i <;> simp only [Rep, hn] at hr <;> try simp at hr
        exact same hr (.ann ha)
      · cases i <;> simp only [Rep, hn] at hr <;> try simp at hr
        exact same hr (.cond ha)
    | twoL hn =>
      rcases hn with hn | hn
      · cases i <;> simp only [Rep, hn] at hr <;> try simp at hr
        exact same hr.1 (.altL ha)
      · cases i <;> simp only [Rep, hn] at hr <;> try simp at hr
        exact same hr.1 (.try_ ha)
    | twoR hn =>
      rcases hn with hn | hn
      · cases i <;> simp only [Rep, hn] at hr <;> try simp at hr
        exact same hr.2 (.altR ha)
      · cases i <;> simp only [Rep, hn] at hr <;> try simp at hr
        exact same hr.2 (.catch_ ha)
    | consR hn =>
      cases i <;> simp only [Rep, hn] at hr <;> try simp at hr
      exact same hr.2 (.consR ha)
    | evolve hn =>
      obtain ⟨it, h1, h2, _⟩ := hno
      rw [hn] at h1
      exact absurd (Option.some.inj h1).symm (h2 _ _)
  | @op n r o hr e h =>
    have hn : ∃ po, W.node n = some (.op po) := by obtain ⟨po, h1, _⟩ := h; exact ⟨po, h1⟩
    obtain ⟨po, hn⟩ := hn
    cases hp with
    | direct hd =>
      cases hd with
      | op hn' hb =>
        obtain ⟨po, h⟩ := opAt_of hw hr e h hb
        exact ⟨_, h.place, fun e ⟨x, h1, h2⟩ => ⟨x, h1, .inl h2⟩⟩
      | plus h => simp_all
      | star h => simp_all
      | action h => simp_all
      | tryc h => simp_all
    | annot h => simp_all
    | twoL h => simp_all
    | twoR h => simp_all
    | consR h => simp_all
    | evolve h => simp_all
  | @loopC n m a j k s h1 h2 hr ha =>
    cases hp with
    | direct hd => cases hd <;> simp_all
    | annot h => simp_all
    | twoL h => simp_all
    | twoR h => simp_all
    | consR h =>
      rw [h1] at h
      cases h
      exact ⟨_, .loopA h1 h2 hr ha, fun _ h => h⟩
    | evolve h => simp_all
  | @loopA n m c j k s h1 h2 hr ha =>
    cases hp with
    | direct hd => cases hd <;> simp_all
    | annot h => simp_all
    | twoL h =>
      rcases h with h | h <;> rw [h2] at h <;> cases h
      exact ⟨_, .leaf (.inr hw.zero), fun _ _ => trivial⟩
    | twoR h =>
      rcases h with h | h <;> rw [h2] at h <;> cases h
      exact ⟨_, .loopC h1 h2 hr ha, fun _ h => h⟩
    | consR h => simp_all
    | evolve h => simp_all
  | @chain n r o p po top bs h hc hs hle =>
    cases bs with
    | nil =>
      obtain ⟨s, a, k, _, h2, _⟩ := h.base
      obtain rfl : n = po.base := hc
      cases hp with
      | direct hd => cases hd <;> simp_all
      | annot h => simp_all
      | twoL h => simp_all
      | twoR h => simp_all
      | consR h => simp_all
      | evolve h => simp_all
    | cons b bs =>
      obtain ⟨r', h1, h2, h3, h4⟩ := hc
      have hb := hs b (.head _)
      have hle := hle (by simp)
      cases hp with
      | direct hd => cases hd <;> simp_all
      | annot h => simp_all
      | twoL h' =>
        rcases h' with h' | h' <;> rw [h1] at h' <;> cases h'
        exact ⟨_, Place.body (j := 0) h h2 hb (by omega) (by cases b <;> simp [OpBody.size]), fun _ h => h⟩
      | twoR h' =>
        rcases h' with h' | h' <;> rw [h1] at h' <;> cases h'
        exact ⟨_, .chain h h4 (fun b hb => hs b (.tail _ hb)) fun hne => by have := h3 hne; omega, fun _ h => h⟩
      | consR h => simp_all
      | evolve h => simp_all
  | @body r o p po top b k j h hb hm hle hj =>
    obtain ⟨l, r', h1, h2, h3⟩ := body_cons hb (h.toks hw b hm) hj
    cases hp with
    | direct hd => cases hd <;> simp_all
    | annot h => simp_all
    | twoL h => simp_all
    | twoR h => simp_all
    | consR h' =>
      rw [h1] at h'
      cases h'
      rcases h3 with h3 | rfl | ⟨rfl, h3⟩
      · exact ⟨_, h.token hw hm h3, fun _ _ => trivial⟩
      · exact ⟨_, h.place, fun _ h => h⟩
      · exact ⟨_, .body h hb hm hle h3, fun _ h => h⟩
    | evolve h => simp_all
  | leaf hn =>
    have no : ∀ {it}, W.node n = some it → it = .term ∨ it = .zero := fun h => by
      rcases hn with hn | hn <;> rw [h] at hn <;> cases hn
      · exact .inl rfl
      · exact .inr rfl
    cases hp with
    | direct hd => cases hd <;> simp_all
    | annot h => rcases h with h | h <;> rcases no h with h | h <;> cases h
    | twoL h => rcases h with h | h <;> rcases no h with h | h <;> cases h
    | twoR h => rcases h with h | h <;> rcases no h with h | h <;> cases h
    | consR h => rcases no h with h | h <;> cases h
    | evolve h => rcases no h with h | h <;> cases h

/-- The first part of a sequence. -/
theorem place_left (H : Setting W T rs eof) (hL : Look rs) {n l r : Nat} {X : Nat → Prop} (h : Place W T rs n X) (hn : W.node n = some (.cons l r)) :
    ∃ X', Place W T rs l X' ∧ (Nullable W r → ∀ e, X e → X' e) ∧ ∀ e γ, W.node e = some .term → Der W r (e :: γ) → X' e := by
  have hw := H.wf
  cases h with
  | rule hr h =>
    obtain ⟨i, k, h1, _⟩ := h
    rw [hn] at h1; cases h1
  | @item n i k s hr ha =>
    cases i <;> simp only [Rep, hn] at hr <;> try simp at hr
    rename_i a b
    refine ⟨_, .item hr.1 (.consL ha), fun h0 e he => follows_mono ((H.null hr.2.irep).1 h0) he, fun e γ he hd => ?_⟩
    obtain ⟨x, h1, ω, h2⟩ := (H.begins hL he hd).1 b hr.2.irep
    obtain ⟨χ, h3⟩ := senAll_exists (at_neat (H.neat hL) ha).2
    exact ⟨x, h1, .inl ⟨_, .cons h2 h3⟩⟩
  | op hr e h =>
    obtain ⟨po, h1, _⟩ := h
    rw [hn] at h1; cases h1
  | @loopC n m a j k s h1 h2 hr ha =>
    rw [hn] at h1
    cases h1
    refine ⟨_, .item hr ha, fun _ e he => follows_mono .none he, fun e γ he hd => ?_⟩
    obtain ⟨δ, d1, d2⟩ := H.word hL he hd
    obtain ⟨αs, g1, g2⟩ := (Grammar.loop_iff hw.zero hn h2).2.1 d1
    have all : ∀ αs : List (List Nat), (∀ β ∈ αs, Der W l β ∧ ∀ u ∈ β, u ∈ W.terminals) → ∃ ω, Names T αs.flatten ω ∧ Sen rs (.star j) ω := by
      intro αs
      induction αs with
      | nil => exact fun _ => ⟨[], trivial, .none⟩
      | cons β αs ih =>
        intro h
        obtain ⟨ω, w1, w2⟩ := ih fun β hβ => h β (.tail _ hβ)
        obtain ⟨χ, c1, c2⟩ := (der_sen H.stands (h β (.head _)).1 (h β (.head _)).2).1 j hr.irep
        exact ⟨_, c1.append w1, .again c2 w2⟩
    obtain ⟨ω, w1, w2⟩ := all αs fun β hβ => ⟨g1 β hβ, fun u hu => d2 u (by rw [g2]; exact List.mem_flatten.2 ⟨β, hβ, hu⟩)⟩
    rw [← g2] at w1
    cases ω with
    | nil => exact w1.elim
    | cons x ω =>
      obtain ⟨χ, h3⟩ := senAll_exists (fun j' hj' => (at_neat (H.neat hL) ha).2 j' (.tail _ hj'))
      exact ⟨x, w1.1, .inl ⟨_, .cons w2 h3⟩⟩
  | loopA h1 h2 hr ha => rw [hn] at h2; cases h2
  | @chain n r o p po top bs h hc hs hle =>
    cases bs with
    | nil =>
      obtain ⟨s, a, k, _, h2, _⟩ := h.base
      obtain rfl : n = po.base := hc
      rw [hn] at h2; cases h2
    | cons b bs =>
      obtain ⟨r', h1, _⟩ := hc
      rw [hn] at h1; cases h1
  | @body r o p po top b k j h hb hm hle hj =>
    obtain ⟨l', r', h1, h2, h3⟩ := body_cons hb (h.toks hw b hm) hj
    rw [hn] at h1
    cases h1
    rcases h2 with h2 | ⟨rfl, u, h2, h4⟩
    · exact ⟨_, h.token hw hm h2, fun _ _ _ => trivial, fun _ _ _ _ => trivial⟩
    · refine ⟨_, h.place, fun h0 => ?_, fun e γ he hd => ?_⟩
      · obtain ⟨γ, hγ⟩ := h4 _ h0
        cases hγ
      · obtain ⟨γ', hγ⟩ := h4 _ hd
        cases hγ
        exact h.behind hm h2
  | leaf h => rcases h with h | h <;> rw [hn] at h <;> cases h

/-- References to symbols. -/
theorem place_sym (H : Setting W T rs eof) {n k : Nat} {X : Nat → Prop} (h : Place W T rs n X) (hn : W.node n = some (.nonterm k) ∨ W.node n = some (.inlined (some k))) :
    ∃ s, find T.symbols s = some k ∧ ∀ e, X e → AfterN T rs s e := by
  rcases hn with hn | hn
  · cases h with
    | rule hr h =>
      obtain ⟨i, k, h1, _⟩ := h
      rw [hn] at h1; cases h1
    | @item n i k' s' hr ha =>
      cases i <;> simp only [Rep, hn] at hr <;> try simp at hr
      rename_i s a
      refine ⟨s, hr, fun e ⟨x, h1, h2⟩ => ⟨x, h1, ?_⟩⟩
      rcases h2 with ⟨ω, h2⟩ | ⟨h2, h3⟩
      · exact .next ha h2
      · exact .last ha h2 h3
    | op hr e h =>
      obtain ⟨po, h1, _⟩ := h
      rw [hn] at h1; cases h1
    | loopC h1 h2 hr ha => rw [hn] at h1; cases h1
    | loopA h1 h2 hr ha => rw [hn] at h2; cases h2
    | @chain n r o p po top bs h hc hs hle =>
      cases bs with
      | nil =>
        obtain ⟨s, a, k', h1, h2, h3⟩ := h.base
        obtain rfl : n = po.base := hc
        rw [hn] at h2; cases h2
        refine ⟨s, h3, fun e ⟨x, g1, g2⟩ => ⟨x, g1, ?_⟩⟩
        rcases g2 with g2 | ⟨d, g2, g3⟩
        · exact .opLast h.mem h.item h1 g2
        · exact .opNext h.mem h.item h1 g2 g3
      | cons b bs =>
        obtain ⟨r', h1, _⟩ := hc
        rw [hn] at h1; cases h1
    | @body r o p po top b k j h hb hm hle hj =>
      obtain ⟨l', r', h1, h2, h3⟩ := body_cons hb (h.toks H.wf b hm) hj
      rw [hn] at h1; cases h1
    | leaf h => rcases h with h | h <;> rw [hn] at h <;> cases h
  · exact absurd hn (H.plain.noInline _ _)

theorem place_seen (H : Setting W T rs eof) (hL : Look rs) {n : Nat} (h : FSeen W n) : ∃ X, Place W T rs n X := by
  obtain ⟨V, h⟩ := h
  induction h with
  | rule hr =>
    obtain ⟨r, h1, h2⟩ := H.stands.left _ hr
    exact ⟨_, .rule h1 h2⟩
  | calls _ hc _ ih =>
    obtain ⟨X, ih⟩ := ih
    have pass : ∀ {n m : Nat}, Place W T rs n X → Passes W n m → ∃ X, Place W T rs m X := fun h hp => by
      obtain ⟨X', h1, _⟩ := place_pass H.wf h hp
      exact ⟨X', h1⟩
    cases hc with
    | annot h => exact pass ih (.annot h)
    | evolve h => exact pass ih (.evolve h)
    | twoL h => exact pass ih (.twoL h)
    | twoR h => exact pass ih (.twoR h)
    | consL h =>
      obtain ⟨X', h1, _⟩ := place_left H hL ih h
      exact ⟨X', h1⟩
    | consR h => exact pass ih (.consR h)
  | direct _ hd ih =>
    obtain ⟨X, ih⟩ := ih
    obtain ⟨X', h1, _⟩ := place_pass H.wf ih (.direct hd)
    exact ⟨X', h1⟩

theorem place_not_sym (H : Setting W T rs eof) {n : Nat} {X : Nat → Prop} (h : Place W T rs n X) : W.node n ≠ some .sym := by
  intro hn
  cases h with
  | rule hr h =>
    obtain ⟨i, k, h1, _⟩ := h
    rw [hn] at h1; cases h1
  | item hr ha =>
    obtain ⟨it, h1, _, h2, _⟩ := hr.node
    rw [hn] at h1
    exact h2 (Option.some.inj h1).symm
  | op hr e h =>
    obtain ⟨po, h1, _⟩ := h
    rw [hn] at h1; cases h1
  | loopC h1 h2 hr ha => rw [hn] at h1; cases h1
  | loopA h1 h2 hr ha => rw [hn] at h2; cases h2
  | @chain n r o p po top bs h hc hs hle =>
    cases bs with
    | nil =>
      obtain ⟨s, a, k', h1, h2, h3⟩ := h.base
      obtain rfl : n = po.base := hc
      rw [hn] at h2; cases h2
    | cons b bs =>
      obtain ⟨r', h1, _⟩ := hc
      rw [hn] at h1; cases h1
  | @body r o p po top b k j h hb hm hle hj =>
    obtain ⟨l', r', h1, h2, h3⟩ := body_cons hb (h.toks H.wf b hm) hj
    rw [hn] at h1; cases h1
  | leaf h => rcases h with h | h <;> rw [hn] at h <;> cases h

theorem fol_place (H : Setting W T rs eof) (hL : Look rs) {n e : Nat} (h : Fol W eof n e) : (∃ s, find T.symbols s = some n ∧ AfterN T rs s e) ∨ ∃ X, Place W T rs n X ∧ X e := by
  have notSym : ∀ {n m s : Nat} {x : Name}, find T.symbols x = some n → ¬ Passes W n m := by
    intro n m s x hx hp
    have := H.stands.sym _ _ hx
    cases hp with
    | direct hd => cases hd <;> simp_all
    | annot h => simp_all
    | twoL h => simp_all
    | twoR h => simp_all
    | consR h => simp_all
    | evolve h => simp_all
  induction h with
  | @start r i s hs hr hn =>
    obtain ⟨ρ, h1, m, k, h2, h3, _⟩ := H.stands.left r hr
    rw [hn] at h2
    cases h2
    exact .inl ⟨ρ.sym, h3, eofName, H.eof, .eof (H.start ρ h1 _ h3 hs)⟩
  | @rule r i s e hr hn _ ih =>
    obtain ⟨ρ, h1, h⟩ := H.stands.left r hr
    have h' := h
    obtain ⟨m, k, h2, h3, _⟩ := h'
    rw [hn] at h2
    cases h2
    rcases ih with ⟨x, h4, h5⟩ | ⟨X, h4, h5⟩
    · rw [H.stands.symInj _ _ _ h4 h3] at h5
      exact .inr ⟨_, .rule h1 h, h5⟩
    · exact absurd (H.stands.sym _ _ h3) (place_not_sym H h4)
  | pass hs hp _ ih =>
    rcases ih with ⟨x, h4, h5⟩ | ⟨X, h4, h5⟩
    · exact absurd hp (notSym (s := 0) h4)
    · obtain ⟨X', h6, h7⟩ := place_pass H.wf h4 hp
      exact .inr ⟨X', h6, h7 _ h5⟩
  | last hs hn h0 _ ih =>
    rcases ih with ⟨x, h4, h5⟩ | ⟨X, h4, h5⟩
    · exact absurd (Passes.consR hn) (notSym (s := 0) h4)
    · obtain ⟨X', h6, h7, _⟩ := place_left H hL h4 hn
      exact .inr ⟨X', h6, h7 h0 _ h5⟩
  | next hs hn he hd =>
    obtain ⟨X, h4⟩ := place_seen H hL hs
    obtain ⟨X', h6, _, h7⟩ := place_left H hL h4 hn
    exact .inr ⟨X', h6, h7 _ _ he hd⟩
  | @sym n s e hs hn _ ih =>
    rcases ih with ⟨x, h4, h5⟩ | ⟨X, h4, h5⟩
    · have := H.stands.sym _ _ h4
      rcases hn with hn | hn <;> rw [this] at hn <;> cases hn
    · obtain ⟨x, h6, h7⟩ := place_sym H h4 hn
      exact .inl ⟨x, h6, h7 _ h5⟩

end Verif.Front
