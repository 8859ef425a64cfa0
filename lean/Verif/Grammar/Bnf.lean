import Verif.Grammar.Spec

/-!
# Lemmas on the rewriting of `+`, `*` and operator items
-/

namespace Verif.Grammar

variable {W : World}

theorem plus_iff {n i : Nat} (hn : W.node n = some (.plus i)) {α : List Nat} :
    Der W n α ↔ ∃ αs : List (List Nat), αs ≠ [] ∧ (∀ β ∈ αs, Der W i β) ∧ α = αs.flatten := by
  constructor
  · intro h
    have : ∀ m α, Der W m α → m = n → ∃ αs : List (List Nat), αs ≠ [] ∧ (∀ β ∈ αs, Der W i β) ∧ α = αs.flatten := by
      intro m α h
      induction h
      case plus1 h1 h2 _ =>
        rintro rfl
        rw [hn] at h1; cases h1
        exact ⟨[_], by simp, by simpa using h2, by simp⟩
      case plusS h1 h2 _ _ ih =>
        rintro rfl
        rw [hn] at h1; cases h1
        obtain ⟨αs, g1, g2, g3⟩ := ih rfl
        exact ⟨_ :: αs, by simp, by simpa using ⟨h2, g2⟩, by simp [g3]⟩
      all_goals (rintro rfl; simp_all)
    exact this _ _ h rfl
  · rintro ⟨αs, h1, h2, rfl⟩
    induction αs with
    | nil => exact absurd rfl h1
    | cons β αs ih =>
      have hβ := h2 β (by simp)
      by_cases e : αs = []
      · subst e; simpa using Der.plus1 hn hβ
      · simpa using Der.plusS hn hβ (ih e fun γ hγ => h2 γ (by simp [hγ]))

theorem star_iff {n i : Nat} (hn : W.node n = some (.star i)) {α : List Nat} :
    Der W n α ↔ ∃ αs : List (List Nat), (∀ β ∈ αs, Der W i β) ∧ α = αs.flatten := by
  constructor
  · intro h
    have : ∀ m α, Der W m α → m = n → ∃ αs : List (List Nat), (∀ β ∈ αs, Der W i β) ∧ α = αs.flatten := by
      intro m α h
      induction h
      case star0 => exact fun _ => ⟨[], by simp, rfl⟩
      case starS h1 h2 _ _ ih =>
        rintro rfl
        rw [hn] at h1; cases h1
        obtain ⟨αs, g2, g3⟩ := ih rfl
        exact ⟨_ :: αs, by simpa using ⟨h2, g2⟩, by simp [g3]⟩
      all_goals (rintro rfl; simp_all)
    exact this _ _ h rfl
  · rintro ⟨αs, h2, rfl⟩
    induction αs with
    | nil => exact .star0 hn
    | cons β αs ih => simpa using Der.starS hn (h2 β (by simp)) (ih fun γ hγ => h2 γ (by simp [hγ]))

/-- The two nodes of a rewritten loop. -/
theorem loop_iff {z c a i : Nat} (hz : W.node z = some .zero) (hc : W.node c = some (.cons i a)) (ha : W.node a = some (.alt z c)) {α : List Nat} :
    (Der W c α ↔ ∃ αs : List (List Nat), αs ≠ [] ∧ (∀ β ∈ αs, Der W i β) ∧ α = αs.flatten) ∧
    (Der W a α ↔ ∃ αs : List (List Nat), (∀ β ∈ αs, Der W i β) ∧ α = αs.flatten) := by
  have hzero : ∀ β, Der W z β → β = [] := by
    intro β h; cases h <;> simp_all
  have fw : ∀ m α, Der W m α → (m = c → ∃ αs : List (List Nat), αs ≠ [] ∧ (∀ β ∈ αs, Der W i β) ∧ α = αs.flatten) ∧
      (m = a → ∃ αs : List (List Nat), (∀ β ∈ αs, Der W i β) ∧ α = αs.flatten) := by
    intro m α h
    induction h
    case cons h1 h2 h3 _ ih =>
      constructor
      · rintro rfl
        rw [hc] at h1; cases h1
        obtain ⟨αs, g2, g3⟩ := ih.2 rfl
        exact ⟨_ :: αs, by simp, by simpa using ⟨h2, g2⟩, by simp [g3]⟩
      · rintro rfl; rw [ha] at h1; cases h1
    case altL h1 h2 _ =>
      constructor
      · rintro rfl; rw [hc] at h1; cases h1
      · rintro rfl; rw [ha] at h1; cases h1
        exact ⟨[], by simp, by simpa using hzero _ h2⟩
    case altR h1 h2 ih =>
      constructor
      · rintro rfl; rw [hc] at h1; cases h1
      · rintro rfl; rw [ha] at h1; cases h1
        obtain ⟨αs, _, g⟩ := ih.1 rfl
        exact ⟨αs, g⟩
    all_goals (constructor <;> (rintro rfl; simp_all))
  have bw : ∀ αs : List (List Nat), (∀ β ∈ αs, Der W i β) → Der W a αs.flatten := by
    intro αs
    induction αs with
    | nil => exact fun _ => .altL ha (.zero hz)
    | cons β αs ih => exact fun h => .altR ha (.cons hc (h β (by simp)) (ih fun γ hγ => h γ (by simp [hγ])))
  refine ⟨⟨fun h => (fw _ _ h).1 rfl, ?_⟩, ⟨fun h => (fw _ _ h).2 rfl, fun ⟨αs, h1, h2⟩ => h2 ▸ bw αs h1⟩⟩
  rintro ⟨αs, h1, h2, rfl⟩
  cases αs with
  | nil => exact absurd rfl h1
  | cons β αs => exact .cons hc (h2 β (by simp)) (bw αs fun γ hγ => h2 γ (by simp [hγ]))

theorem mem_bodies {o : OpItem} {x : OpBody} : x ∈ o.bodies ↔ (∃ t ∈ o.pre, x = .pre t) ∨ (∃ t ∈ o.post, x = .post t) ∨ (∃ t ∈ o.bin, x = .bin t) ∨
    (∃ p ∈ o.tern, x = .tern p.1 p.2) ∨ (∃ p ∈ o.paren, x = .paren p.1 p.2) := by
  simp only [OpItem.bodies, List.mem_reverse, List.mem_append, List.mem_map, or_assoc, eq_comm]

/-- What the alternatives derive. -/
def OpBody.Der (W : World) (n : Nat) (α : List Nat) : OpBody → Prop
  | .pre t => ∃ β, α = t :: β ∧ Grammar.Der W n β
  | .post t => ∃ β, α = β ++ [t] ∧ Grammar.Der W n β
  | .bin t => ∃ β γ, α = β ++ t :: γ ∧ Grammar.Der W n β ∧ Grammar.Der W n γ
  | .tern t u => ∃ β γ δ, α = β ++ t :: (γ ++ u :: δ) ∧ Grammar.Der W n β ∧ Grammar.Der W n γ ∧ Grammar.Der W n δ
  | .paren t u => ∃ β, α = t :: (β ++ [u]) ∧ Grammar.Der W n β

theorem op_of_body {n : Nat} {o : OpItem} (hn : W.node n = some (.op o)) {b : OpBody} (hb : b ∈ o.bodies) {α : List Nat} (h : b.Der W n α) : Der W n α := by
  rcases mem_bodies.1 hb with ⟨t, ht, rfl⟩ | ⟨t, ht, rfl⟩ | ⟨t, ht, rfl⟩ | ⟨p, ht, rfl⟩ | ⟨p, ht, rfl⟩
  · obtain ⟨β, rfl, h⟩ := h; exact .opPre hn ht h
  · obtain ⟨β, rfl, h⟩ := h; exact .opPost hn ht h
  · obtain ⟨β, γ, rfl, h, h'⟩ := h; exact .opBin hn ht h h'
  · obtain ⟨β, γ, δ, rfl, h, h', h''⟩ := h; exact .opTern hn ht h h' h''
  · obtain ⟨β, rfl, h⟩ := h; exact .opParen hn ht h

def OpBody.toks : OpBody → List Nat
  | .pre t => [t]
  | .post t => [t]
  | .bin t => [t]
  | .tern t u => [t, u]
  | .paren t u => [t, u]

theorem der_term {t : Nat} (ht : W.node t = some .term) {α : List Nat} (h : Der W t α) : α = [t] := by
  cases h <;> simp_all

/-- What the nodes of the rewritten operator grammar derive. -/
def OpShape (W : World) (n top : Nat) (o : OpItem) (m : Nat) (α : List Nat) : Prop :=
  (∀ bs, bs ≠ [] → (∀ b ∈ bs, b ∈ o.bodies) → ChainAt W top o.base bs m → Der W n α) ∧
    (∀ b ∈ o.bodies, BodyAt W top b m → b.Der W n α) ∧
    (∀ t, W.node t = some .term → W.node m = some (.cons t top) → ∃ β, α = t :: β ∧ Der W n β) ∧
    (∀ t, W.node t = some .term → W.node m = some (.cons top t) → ∃ β, α = β ++ [t] ∧ Der W n β) ∧
    (∀ t x, W.node t = some .term → W.node m = some (.cons top x) → W.node x = some (.cons t top) →
      ∃ β γ, α = β ++ t :: γ ∧ Der W n β ∧ Der W n γ) ∧
    (∀ t u x y, W.node t = some .term → W.node u = some .term → W.node m = some (.cons t x) → W.node x = some (.cons top y) →
      W.node y = some (.cons u top) → ∃ β γ, α = t :: (β ++ u :: γ) ∧ Der W n β ∧ Der W n γ)

theorem OpShape.other {n top : Nat} {o : OpItem} {m : Nat} {α : List Nat} (h1 : ∀ l r, W.node m ≠ some (.cons l r))
    (h2 : ∀ l r, W.node m ≠ some (.alt l r)) : OpShape W n top o m α := by
  refine ⟨?_, ?_, ?_, ?_, ?_, ?_⟩
  · intro bs hbs _ h
    cases bs with
    | nil => exact absurd rfl hbs
    | cons b bs => obtain ⟨r', g, _⟩ := h; exact absurd g (h2 _ _)
  · intro b _ h
    cases b with
    | pre t => exact absurd h (h1 _ _)
    | post t => exact absurd h (h1 _ _)
    | bin t => exact absurd h.1 (h1 _ _)
    | tern t u => exact absurd h.1 (h1 _ _)
    | paren t u => exact absurd h.1 (h1 _ _)
  · intro t _ h; exact absurd h (h1 _ _)
  · intro t _ h; exact absurd h (h1 _ _)
  · intro t x _ h; exact absurd h (h1 _ _)
  · intro t u x y _ _ h; exact absurd h (h1 _ _)

theorem op_fw {n : Nat} {o : OpItem} (hn : W.node n = some (.op o)) {top : Nat} (hc : ChainAt W top o.base o.bodies top)
    (ht : ∀ b ∈ o.bodies, ∀ t ∈ b.toks, W.node t = some .term) {α : List Nat} (h : Der W top α) : Der W n α := by
  by_cases hne : o.bodies = []
  · rw [hne] at hc; cases hc; exact .opBase hn h
  have key : ∀ m α, Der W m α → OpShape W n top o m α := by
    intro m α h
    induction h
    case cons m l r α β h1 h2 h3 ih1 ih2 =>
      have e1 : ∀ t, W.node t = some .term → W.node m = some (.cons t top) → ∃ γ, α ++ β = t :: γ ∧ Der W n γ := by
        intro t ht1 g
        rw [h1] at g; cases g
        exact ⟨β, by simp [der_term ht1 h2], ih2.1 _ hne (fun _ => id) hc⟩
      have e2 : ∀ t, W.node t = some .term → W.node m = some (.cons top t) → ∃ γ, α ++ β = γ ++ [t] ∧ Der W n γ := by
        intro t ht1 g
        rw [h1] at g; cases g
        exact ⟨α, by simp [der_term ht1 h3], ih1.1 _ hne (fun _ => id) hc⟩
      have e3 : ∀ t x, W.node t = some .term → W.node m = some (.cons top x) → W.node x = some (.cons t top) →
          ∃ γ δ, α ++ β = γ ++ t :: δ ∧ Der W n γ ∧ Der W n δ := by
        intro t x ht1 g g'
        rw [h1] at g; cases g
        obtain ⟨δ, rfl, hd⟩ := ih2.2.2.1 t ht1 g'
        exact ⟨α, δ, rfl, ih1.1 _ hne (fun _ => id) hc, hd⟩
      refine ⟨?_, ?_, e1, e2, e3, ?_⟩
      · intro bs hbs _ h
        cases bs with
        | nil => exact absurd rfl hbs
        | cons b bs =>
          obtain ⟨r', g, _⟩ := h
          rw [h1] at g; cases g
      · intro b hb h
        have htk := ht b hb
        cases b with
        | pre t => exact e1 t (htk t (by simp [OpBody.toks])) h
        | post t => exact e2 t (htk t (by simp [OpBody.toks])) h
        | bin t => exact e3 t _ (htk t (by simp [OpBody.toks])) h.1 h.2
        | tern t u =>
          obtain ⟨g1, g2, g3, g4⟩ := h
          rw [h1] at g1; cases g1
          obtain ⟨γ, δ, rfl, k1, k2⟩ := ih2.2.2.2.2.2 t u _ _ (htk t (by simp [OpBody.toks])) (htk u (by simp [OpBody.toks])) g2 g3 g4
          exact ⟨α, γ, δ, rfl, ih1.1 _ hne (fun _ => id) hc, k1, k2⟩
        | paren t u =>
          obtain ⟨g1, g2⟩ := h
          rw [h1] at g1; cases g1
          obtain ⟨γ, rfl, k1⟩ := ih2.2.2.2.1 u (htk u (by simp [OpBody.toks])) g2
          exact ⟨γ, by rw [der_term (htk _ (by simp [OpBody.toks])) h2]; rfl, k1⟩
      · intro t u x y ht1 hu g g' g''
        rw [h1] at g; cases g
        obtain ⟨γ, δ, rfl, k1, k2⟩ := ih2.2.2.2.2.1 u y hu g' g''
        exact ⟨γ, δ, by simp [der_term ht1 h2], k1, k2⟩
    case altL m l r α h1 h2 ih =>
      refine ⟨?_, ?_, ?_, ?_, ?_, ?_⟩
      · intro bs hbs hsub h
        cases bs with
        | nil => exact absurd rfl hbs
        | cons b bs =>
          obtain ⟨r', g, g2, _⟩ := h
          rw [h1] at g; cases g
          exact op_of_body hn (hsub b (by simp)) (ih.2.1 b (hsub b (by simp)) g2)
      all_goals first
        | (intro b _ h; cases b <;> simp [BodyAt, h1] at h; done)
        | (intro t _ h; rw [h1] at h; cases h; done)
        | (intro t x _ h; rw [h1] at h; cases h; done)
        | (intro t u x y _ _ h; rw [h1] at h; cases h; done)
    case altR m l r α h1 h2 ih =>
      refine ⟨?_, ?_, ?_, ?_, ?_, ?_⟩
      · intro bs hbs hsub h
        cases bs with
        | nil => exact absurd rfl hbs
        | cons b bs =>
          obtain ⟨r', g, g2, _, g3⟩ := h
          rw [h1] at g; cases g
          by_cases e : bs = []
          · subst e; cases g3; exact .opBase hn h2
          · exact ih.1 bs e (fun b hb => hsub b (by simp [hb])) g3
      all_goals first
        | (intro b _ h; cases b <;> simp [BodyAt, h1] at h; done)
        | (intro t _ h; rw [h1] at h; cases h; done)
        | (intro t x _ h; rw [h1] at h; cases h; done)
        | (intro t u x y _ _ h; rw [h1] at h; cases h; done)
    all_goals (apply OpShape.other <;> simp_all)
  exact (key _ _ h).1 _ hne (fun _ => id) hc

theorem chain_body {top base : Nat} {bs : List OpBody} {k : Nat} (h : ChainAt W top base bs k) {b : OpBody} (hb : b ∈ bs) :
    ∃ l, BodyAt W top b l ∧ ∀ α, Der W l α → Der W k α := by
  induction bs generalizing k with
  | nil => simp at hb
  | cons x bs ih =>
    obtain ⟨r, h1, h2, _, h3⟩ := h
    rcases List.mem_cons.1 hb with rfl | hb
    · exact ⟨_, h2, fun α => .altL h1⟩
    · obtain ⟨l, g1, g2⟩ := ih h3 hb
      exact ⟨l, g1, fun α h => .altR h1 (g2 α h)⟩

theorem chain_base {top base : Nat} {bs : List OpBody} {k : Nat} (h : ChainAt W top base bs k) {α : List Nat} (hd : Der W base α) : Der W k α := by
  induction bs generalizing k with
  | nil => cases h; exact hd
  | cons x bs ih =>
    obtain ⟨r, h1, _, _, h3⟩ := h
    exact .altR h1 (ih h3)

theorem op_bw {n : Nat} {o : OpItem} (hn : W.node n = some (.op o)) {top : Nat} (hc : ChainAt W top o.base o.bodies top)
    (ht : ∀ b ∈ o.bodies, ∀ t ∈ b.toks, W.node t = some .term) {α : List Nat} (h : Der W n α) : Der W top α := by
  have key : ∀ m α, Der W m α → m = n → Der W top α := by
    intro m α h
    induction h
    case opBase h1 h2 _ =>
      rintro rfl; rw [hn] at h1; cases h1
      exact chain_base hc h2
    case opPre t _ h1 h2 _ ih =>
      rintro rfl; rw [hn] at h1; cases h1
      have hb := mem_bodies.2 (.inl ⟨_, h2, rfl⟩)
      obtain ⟨l, g1, g2⟩ := chain_body hc hb
      exact g2 _ (.cons g1 (.term (ht _ hb t (by simp [OpBody.toks]))) (ih rfl))
    case opPost t _ h1 h2 _ ih =>
      rintro rfl; rw [hn] at h1; cases h1
      have hb := mem_bodies.2 (.inr (.inl ⟨_, h2, rfl⟩))
      obtain ⟨l, g1, g2⟩ := chain_body hc hb
      exact g2 _ (.cons g1 (ih rfl) (.term (ht _ hb t (by simp [OpBody.toks]))))
    case opBin t _ _ h1 h2 _ _ ih ih' =>
      rintro rfl; rw [hn] at h1; cases h1
      have hb := mem_bodies.2 (.inr (.inr (.inl ⟨_, h2, rfl⟩)))
      obtain ⟨l, g1, g2⟩ := chain_body hc hb
      exact g2 _ (.cons g1.1 (ih rfl) (.cons g1.2 (.term (ht _ hb t (by simp [OpBody.toks]))) (ih' rfl)))
    case opTern t u _ _ _ h1 h2 _ _ _ ih ih' ih'' =>
      rintro rfl; rw [hn] at h1; cases h1
      have hb := mem_bodies.2 (.inr (.inr (.inr (.inl ⟨_, h2, rfl⟩))))
      obtain ⟨l, ⟨g1, g1', g1'', g1'''⟩, g2⟩ := chain_body hc hb
      exact g2 _ (.cons g1 (ih rfl) (.cons g1' (.term (ht _ hb t (by simp [OpBody.toks]))) (.cons g1'' (ih' rfl)
        (.cons g1''' (.term (ht _ hb u (by simp [OpBody.toks]))) (ih'' rfl)))))
    case opParen t u _ h1 h2 _ ih =>
      rintro rfl; rw [hn] at h1; cases h1
      have hb := mem_bodies.2 (.inr (.inr (.inr (.inr ⟨_, h2, rfl⟩))))
      obtain ⟨l, ⟨g1, g1'⟩, g2⟩ := chain_body hc hb
      exact g2 _ (.cons g1 (.term (ht _ hb t (by simp [OpBody.toks]))) (.cons g1' (ih rfl) (.term (ht _ hb u (by simp [OpBody.toks])))))
    all_goals (rintro rfl; simp_all)
  exact key _ _ h rfl

theorem Wf.toks (hw : Wf W) {n : Nat} {o : OpItem} (hn : W.node n = some (.op o)) : ∀ b ∈ o.bodies, ∀ t ∈ b.toks, W.node t = some .term := by
  have h := hw.opToks n o hn
  intro b hb t ht
  rcases mem_bodies.1 hb with ⟨t, ht, rfl⟩ | ⟨t, ht, rfl⟩ | ⟨t, ht, rfl⟩ | ⟨p, ht, rfl⟩ | ⟨p, ht, rfl⟩ <;>
    simp only [OpBody.toks, List.mem_cons, List.not_mem_nil, or_false] at ht
  · subst ht; exact h.1 _ (by simp [*])
  · subst ht; exact h.1 _ (by simp [*])
  · subst ht; exact h.1 _ (by simp [*])
  · rcases ht with rfl | rfl
    · exact (h.2 p (by simp [*])).1
    · exact (h.2 p (by simp [*])).2
  · rcases ht with rfl | rfl
    · exact (h.2 p (by simp [*])).1
    · exact (h.2 p (by simp [*])).2

end Verif.Grammar
