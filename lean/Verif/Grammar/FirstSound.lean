import Verif.Grammar.FirstLemmas
import Verif.Grammar.R2e

/-!
# Soundness of the FIRST computation: lemmas
-/

namespace Verif.Grammar

variable {W : World} {F : Sets}

/-- The number of nodes for the given alternatives of an operator item. -/
def offs (bs : List OpBody) : Nat := (bs.map fun b => 1 + b.size).sum

/-- The nodes that are visited. -/
inductive Good (W : World) : Nat → Prop
  | parsed {n} : n < W.parsed → (∀ i s, W.node n = some (.evolve i s) → n ∈ W.rules) → Good W n
  | loopC {i c a} : i < W.parsed → (∀ j s, W.node i ≠ some (.evolve j s)) → (∃ it, W.node i = some it) → W.node c = some (.cons i a) →
      W.node a = some (.alt W.zero c) → Good W c
  | loopA {i c a} : i < W.parsed → (∀ j s, W.node i ≠ some (.evolve j s)) → (∃ it, W.node i = some it) → W.node c = some (.cons i a) →
      W.node a = some (.alt W.zero c) → Good W a
  | chain {p o top pre bs} : W.node p = some (.op o) → ChainAt W top o.base o.bodies top → W.parsed ≤ top → o.bodies = pre ++ bs → bs ≠ [] →
      ChainAt W top o.base bs (top + offs pre) → Good W (top + offs pre)
  | body {p o top pre b rest j} : W.node p = some (.op o) → ChainAt W top o.base o.bodies top → W.parsed ≤ top → o.bodies = pre ++ b :: rest →
      BodyAt W top b (top + offs pre + 1) → j < b.size → Good W (top + offs pre + 1 + j)

theorem good_top {p top : Nat} {o : OpItem} (hw : Wf W) (hp : W.node p = some (.op o)) (hc : ChainAt W top o.base o.bodies top)
    (ht : o.bodies ≠ [] → W.parsed ≤ top) : Good W top := by
  by_cases e : o.bodies = []
  · rw [e] at hc; cases hc
    obtain ⟨s, hs⟩ := hw.opBase p o hp
    exact .parsed (parsed_of hw hs (by simp) (by simp)) (by simp [hs])
  · exact Good.chain (pre := []) hp hc (ht e) rfl e hc

theorem good_part (hw : Wf W) {n m : Nat} (hn : n < W.parsed) (hp : Part W n m) (hno : ∀ o, W.node n ≠ some (.op o)) : Good W m := by
  have := part_lt hw hn hp hno
  exact .parsed (by omega) fun i s h => absurd h (hw.parts n m i s hp)

theorem good_tok (hw : Wf W) {t : Nat} (ht : W.node t = some .term) : Good W t :=
  .parsed (parsed_of hw ht (by simp) (by simp)) (by simp [ht])

/-! ### Every item derives something -/

theorem productive_parsed (hw : Wf W) : ∀ n, n < W.parsed → (∃ it, W.node n = some it) → ∃ α, Der W n α := by
  intro n
  induction n using Nat.strongRecOn with
  | ind n ih =>
  intro hn ⟨it, hit⟩
  have sub : ∀ {m}, Part W n m → (∀ o, W.node n ≠ some (.op o)) → ∃ α, Der W m α := by
    intro m hp hno
    have := part_lt hw hn hp hno
    exact ih m this (by omega) (hw.valid n m hp)
  have hsym : ∀ {s}, W.node s = some .sym → Der W s [s] := fun h => .sym h
  cases it with
  | zero => exact ⟨_, .zero hit⟩
  | term => exact ⟨_, .term hit⟩
  | sym => exact ⟨_, .sym hit⟩
  | plus i => obtain ⟨α, h⟩ := sub (.plus hit) (by simp [hit]); exact ⟨_, .plus1 hit h⟩
  | star i => exact ⟨_, .star0 hit⟩
  | action i => cases i with
    | none => exact ⟨_, .action0 hit⟩
    | some i => obtain ⟨α, h⟩ := sub (.action hit) (by simp [hit]); exact ⟨_, .action hit h⟩
  | alt l r => obtain ⟨α, h⟩ := sub (.altL hit) (by simp [hit]); exact ⟨_, .altL hit h⟩
  | cons l r =>
    obtain ⟨α, h⟩ := sub (.consL hit) (by simp [hit])
    obtain ⟨β, h'⟩ := sub (.consR hit) (by simp [hit])
    exact ⟨_, .cons hit h h'⟩
  | evolve i s => obtain ⟨α, h⟩ := sub (.evolve hit) (by simp [hit]); exact ⟨_, .evolve hit h⟩
  | tryc t c => obtain ⟨α, h⟩ := sub (.tryL hit) (by simp [hit]); exact ⟨_, .tryL hit h⟩
  | nonterm s => exact ⟨_, .nonterm hit (hsym (hw.symbols _ _ (.inl hit)))⟩
  | annot i => obtain ⟨α, h⟩ := sub (.annot hit) (by simp [hit]); exact ⟨_, .annot hit h⟩
  | cond i => obtain ⟨α, h⟩ := sub (.cond hit) (by simp [hit]); exact ⟨_, .cond hit h⟩
  | op o =>
    obtain ⟨s, hs⟩ := hw.opBase n o hit
    exact ⟨_, .opBase hit (.nonterm hs (hsym (hw.symbols _ _ (.inl hs))))⟩
  | inlined s => cases s with
    | none => exact absurd hit (hw.inlined n)
    | some s => exact ⟨_, .inlined hit (hsym (hw.symbols _ _ (.inr (.inl hit))))⟩

theorem productive_top (hw : Wf W) {p top : Nat} {o : OpItem} {bs : List OpBody} {k : Nat} (hp : W.node p = some (.op o))
    (hc : ChainAt W top o.base bs k) : ∃ α, Der W k α := by
  obtain ⟨s, hs⟩ := hw.opBase p o hp
  exact ⟨_, chain_base hc (.nonterm hs (.sym (hw.symbols _ _ (.inl hs))))⟩

/-- The parts of a visited sequence are visited and derive something. -/
theorem good_cons (hw : Wf W) {n l r : Nat} (hg : Good W n) (hn : W.node n = some (.cons l r)) :
    (Good W l ∧ ∃ α, Der W l α) ∧ (Good W r ∧ ∃ α, Der W r α) := by
  cases hg with
  | parsed h _ =>
    have hl := part_lt hw h (.consL hn) (by simp [hn])
    have hr := part_lt hw h (.consR hn) (by simp [hn])
    exact ⟨⟨good_part hw h (.consL hn) (by simp [hn]), productive_parsed hw _ (by omega) (hw.valid _ _ (.consL hn))⟩,
      ⟨good_part hw h (.consR hn) (by simp [hn]), productive_parsed hw _ (by omega) (hw.valid _ _ (.consR hn))⟩⟩
  | loopC h1 h2 h3 h4 h5 =>
    rw [hn] at h4; cases h4
    exact ⟨⟨.parsed h1 fun j s h => absurd h (h2 j s), productive_parsed hw _ h1 h3⟩,
      ⟨.loopA h1 h2 h3 hn h5, [], .altL h5 (.zero hw.zero)⟩⟩
  | loopA h1 h2 h3 h4 h5 => rw [hn] at h5; cases h5
  | @chain p o top pre bs h1 h2 h3 h4 h5 h6 =>
    cases bs with
    | nil => exact absurd rfl h5
    | cons b bs => obtain ⟨r', g, _⟩ := h6; rw [hn] at g; cases g
  | @body p o top pre b rest j h1 h2 h3 h4 h5 h6 =>
    have htk := hw.toks h1 b (by rw [h4]; simp)
    have gt := good_top hw h1 h2 (fun _ => h3)
    have pt := productive_top hw h1 h2
    have tok : ∀ {t}, t ∈ b.toks → Good W t ∧ ∃ α, Der W t α := fun ht => ⟨good_tok hw (htk _ ht), _, .term (htk _ ht)⟩
    have gb : ∀ j, j < b.size → Good W (top + offs pre + 1 + j) := fun j hj => .body h1 h2 h3 h4 h5 hj
    cases b with
    | pre t =>
      simp only [OpBody.size] at h6
      obtain rfl : j = 0 := by omega
      simp only [Nat.add_zero] at hn
      rw [show W.node _ = _ from h5] at hn; cases hn
      exact ⟨tok (by simp [OpBody.toks]), gt, pt⟩
    | post t =>
      simp only [OpBody.size] at h6
      obtain rfl : j = 0 := by omega
      simp only [Nat.add_zero] at hn
      rw [show W.node _ = _ from h5] at hn; cases hn
      exact ⟨⟨gt, pt⟩, tok (by simp [OpBody.toks])⟩
    | bin t =>
      obtain ⟨e0, e1⟩ := h5
      obtain ⟨α, hα⟩ := pt
      have d1 := Der.cons e1 (.term (htk t (by simp [OpBody.toks]))) hα
      simp only [OpBody.size] at h6 gb
      obtain rfl | rfl : j = 0 ∨ j = 1 := by omega
      · simp only [Nat.add_zero] at hn
        rw [e0] at hn; cases hn
        exact ⟨⟨gt, _, hα⟩, gb 1 (by omega), _, d1⟩
      · rw [e1] at hn; cases hn
        exact ⟨tok (by simp [OpBody.toks]), gt, _, hα⟩
    | tern t u =>
      obtain ⟨e0, e1, e2, e3⟩ := h5
      obtain ⟨α, hα⟩ := pt
      have d3 := Der.cons e3 (.term (htk u (by simp [OpBody.toks]))) hα
      have d2 := Der.cons e2 hα d3
      have d1 := Der.cons e1 (.term (htk t (by simp [OpBody.toks]))) d2
      simp only [OpBody.size] at h6 gb
      obtain rfl | rfl | rfl | rfl : j = 0 ∨ j = 1 ∨ j = 2 ∨ j = 3 := by omega
      · simp only [Nat.add_zero] at hn
        rw [e0] at hn; cases hn
        exact ⟨⟨gt, _, hα⟩, gb 1 (by omega), _, d1⟩
      · rw [e1] at hn; cases hn
        exact ⟨tok (by simp [OpBody.toks]), gb 2 (by omega), _, d2⟩
      · rw [e2] at hn; cases hn
        exact ⟨⟨gt, _, hα⟩, gb 3 (by omega), _, d3⟩
      · rw [e3] at hn; cases hn
        exact ⟨tok (by simp [OpBody.toks]), gt, _, hα⟩
    | paren t u =>
      obtain ⟨e0, e1⟩ := h5
      obtain ⟨α, hα⟩ := pt
      have d1 := Der.cons e1 hα (.term (htk u (by simp [OpBody.toks])))
      simp only [OpBody.size] at h6 gb
      obtain rfl | rfl : j = 0 ∨ j = 1 := by omega
      · simp only [Nat.add_zero] at hn
        rw [e0] at hn; cases hn
        exact ⟨tok (by simp [OpBody.toks]), gb 1 (by omega), _, d1⟩
      · rw [e1] at hn; cases hn
        exact ⟨⟨gt, _, hα⟩, tok (by simp [OpBody.toks])⟩

theorem good_alt (hw : Wf W) {n l r : Nat} (hg : Good W n) (hn : W.node n = some (.alt l r)) : Good W l ∧ Good W r := by
  cases hg with
  | parsed h _ => exact ⟨good_part hw h (.altL hn) (by simp [hn]), good_part hw h (.altR hn) (by simp [hn])⟩
  | loopC h1 h2 h3 h4 h5 => rw [hn] at h4; cases h4
  | loopA h1 h2 h3 h4 h5 =>
    rw [hn] at h5; cases h5
    exact ⟨.parsed (parsed_of hw hw.zero (by simp) (by simp)) (by simp [hw.zero]), .loopC h1 h2 h3 h4 hn⟩
  | @chain p o top pre bs h1 h2 h3 h4 h5 h6 =>
    cases bs with
    | nil => exact absurd rfl h5
    | cons b bs =>
      obtain ⟨r', g1, g2, g3, g4⟩ := h6
      rw [hn] at g1; cases g1
      refine ⟨.body (j := 0) h1 h2 h3 h4 g2 (by cases b <;> simp [OpBody.size]), ?_⟩
      by_cases e : bs = []
      · subst e; cases g4
        obtain ⟨s, hs⟩ := hw.opBase p o h1
        exact .parsed (parsed_of hw hs (by simp) (by simp)) (by simp [hs])
      · have hr := g3 e
        have e1 : r = top + offs (pre ++ [b]) := by rw [hr]; simp [offs]; omega
        rw [e1] at g4 ⊢
        exact .chain h1 h2 h3 (by rw [h4]; simp) e g4
  | @body p o top pre b rest j h1 h2 h3 h4 h5 h6 =>
    exfalso
    cases b with
    | pre t =>
      simp only [OpBody.size] at h6
      obtain rfl : j = 0 := by omega
      simp only [Nat.add_zero] at hn
      rw [show W.node _ = _ from h5] at hn; cases hn
    | post t =>
      simp only [OpBody.size] at h6
      obtain rfl : j = 0 := by omega
      simp only [Nat.add_zero] at hn
      rw [show W.node _ = _ from h5] at hn; cases hn
    | bin t =>
      obtain ⟨e0, e1⟩ := h5
      simp only [OpBody.size] at h6
      obtain rfl | rfl : j = 0 ∨ j = 1 := by omega
      · simp only [Nat.add_zero] at hn
        rw [e0] at hn; cases hn
      · rw [e1] at hn; cases hn
    | tern t u =>
      obtain ⟨e0, e1, e2, e3⟩ := h5
      simp only [OpBody.size] at h6
      obtain rfl | rfl | rfl | rfl : j = 0 ∨ j = 1 ∨ j = 2 ∨ j = 3 := by omega
      · simp only [Nat.add_zero] at hn
        rw [e0] at hn; cases hn
      · rw [e1] at hn; cases hn
      · rw [e2] at hn; cases hn
      · rw [e3] at hn; cases hn
    | paren t u =>
      obtain ⟨e0, e1⟩ := h5
      simp only [OpBody.size] at h6
      obtain rfl | rfl : j = 0 ∨ j = 1 := by omega
      · simp only [Nat.add_zero] at hn
        rw [e0] at hn; cases hn
      · rw [e1] at hn; cases hn

/-- Nodes that are neither sequences nor choices were made by the parser. -/
theorem good_parsed (hw : Wf W) {n : Nat} {it : Item} (hg : Good W n) (hn : W.node n = some it) (h1 : ∀ l r, it ≠ .cons l r) (h2 : ∀ l r, it ≠ .alt l r) :
    n < W.parsed ∧ ∀ i s, W.node n = some (.evolve i s) → n ∈ W.rules := by
  have hp := parsed_of hw hn h1 h2
  refine ⟨hp, fun i s e => ?_⟩
  cases hg with
  | parsed _ h => exact h i s e
  | loopC _ _ _ h _ => rw [e] at h; cases h
  | loopA _ _ _ _ h => rw [e] at h; cases h
  | chain _ _ h => omega
  | body _ _ h => omega

/-! ### `reducesToEpsilon` on the parts of visited sequences -/

theorem touchAll_append {pre : List OpBody} {b : OpBody} {rest : List OpBody} {k m : Nat} (h : m ∈ touchAll (pre ++ b :: rest) k) :
    m < k + offs pre ∨ m = k + offs pre ∨ m ∈ b.touch (k + offs pre + 1) ∨ k + offs pre + 1 + b.size ≤ m := by
  induction pre generalizing k with
  | nil =>
    simp only [List.nil_append, touchAll, List.mem_cons, List.mem_append, offs, List.map_nil, List.sum_nil, Nat.add_zero] at h ⊢
    rcases h with h | h | h
    · exact .inr (.inl h)
    · exact .inr (.inr (.inl h))
    · exact .inr (.inr (.inr (touchAll_ge h)))
  | cons a pre ih =>
    simp only [List.cons_append, touchAll, List.mem_cons, List.mem_append] at h
    have ho : offs (a :: pre) = 1 + a.size + offs pre := by simp [offs]
    rw [ho]
    rcases h with h | h | h
    · exact .inl (by omega)
    · have := touch_range h; exact .inl (by omega)
    · have := ih h
      rw [show k + 1 + a.size + offs pre = k + (1 + a.size + offs pre) by omega] at this
      exact this

theorem leads_nodup (hl : LeadOk W) {p : Nat} {o : OpItem} (hp : W.node p = some (.op o)) : (o.bodies.map OpBody.lead).Nodup := by
  have h := hl.op p o hp
  simp only [OpItem.bodies, List.map_reverse, List.map_append, List.map_map]
  refine (List.reverse_perm _).nodup_iff.2 ?_
  have e : ∀ (g : Nat → OpBody), (∀ t, (g t).lead = t) → ∀ l : List Nat, l.map (OpBody.lead ∘ g) = l := by
    intro g hg l
    induction l with
    | nil => rfl
    | cons a l ih => simp [hg, ih]
  rw [e OpBody.pre (fun _ => rfl), e OpBody.post (fun _ => rfl), e OpBody.bin (fun _ => rfl)]
  exact h

theorem top_false (hw : Wf W) (hl : LeadOk W) (ho : OpsOk W) (hF : Sound W F) {p top : Nat} {o : OpItem} (hp : W.node p = some (.op o))
    (hc : ChainAt W top o.base o.bodies top) (ht : W.parsed ≤ top) (hne : o.bodies ≠ []) {v : List Nat} (hv : ∀ m ∈ v, W.parsed ≤ m ∧ m ∉ touchAll o.bodies top)
    {f : Nat} {x : Bool} {v' : List Nat} (h : r2e W F f top v = some (x, v')) : x = false := by
  obtain ⟨s, hs⟩ := hw.opBase p o hp
  have hsym := hw.symbols _ _ (.inl hs)
  have htk := hw.toks hp
  have hterm : ∀ t ∈ o.bodies.map OpBody.lead, W.node t = some .term := by
    intro t ht
    obtain ⟨b, hb, rfl⟩ := List.mem_map.1 ht
    exact htk b hb _ (by cases b <;> simp [OpBody.toks, OpBody.lead])
  refine r2e_chain hs hsym (fun hz => ho p o hp (.nonterm hs (hF.zero hw hz))) (parsed_of hw hs (by simp) (by simp))
    (parsed_of hw hsym (by simp) (by simp)) o.bodies top v f x v' hc hne ht (by simp) (fun m hm => .inl (hv m hm).1)
    (fun m hm hmv => (hv m hmv).2 hm) (leads_nodup hl hp) (fun t ht => ?_) h
  have hlt := parsed_of hw (hterm t ht) (by simp) (by simp)
  exact ⟨hterm t ht, hlt, fun hm => by have := (hv t hm).1; omega⟩

theorem reduces_r2e {n : Nat} {b : Bool} (h : reduces W F n = some b) : ∃ f v', r2e W F f n [] = some (b, v') := by
  unfold reduces at h
  obtain ⟨⟨b', v'⟩, h1, h2⟩ := Option.map_eq_some_iff.1 h
  cases h2
  exact ⟨_, _, h1⟩

theorem reduces_parsed (hw : Wf W) (hl : LeadOk W) (hF : Sound W F) {n : Nat} (hn : n < W.parsed) (h : reduces W F n = some true) : Nullable W n := by
  obtain ⟨f, v', h1⟩ := reduces_r2e h
  exact (r2e_sound hw hl hF f n [] true v' hn h1 (by simp)).1 rfl

theorem r2e_tok_cons {f t k r : Nat} {b : Bool} {v' : List Nat} (h : r2e W F f k [] = some (b, v')) (hk : W.node k = some (.cons t r)) (ht : W.node t = some .term) : b = false := by
  obtain ⟨f', bl, v1, h1, h2⟩ := r2e_cons h (by simp) hk
  have hne : t ≠ k := by rintro rfl; rw [hk] at ht; cases ht
  obtain ⟨rfl, rfl⟩ := (r2e_const h1 (by simp [hne])).1 ht
  rcases h2 with ⟨_, rfl, _⟩ | ⟨h2, _⟩
  · rfl
  · cases h2

theorem reduces_cons (hw : Wf W) (hl : LeadOk W) (ho : OpsOk W) (hF : Sound W F) {n l r : Nat} (hg : Good W n) (hn : W.node n = some (.cons l r)) :
    (reduces W F l = some true → Nullable W l) ∧ (reduces W F r = some true → Nullable W r) := by
  cases hg with
  | parsed h _ =>
    have h1 := part_lt hw h (.consL hn) (by simp [hn])
    have h2 := part_lt hw h (.consR hn) (by simp [hn])
    exact ⟨reduces_parsed hw hl hF (by omega), reduces_parsed hw hl hF (by omega)⟩
  | loopC h1 h2 h3 h4 h5 =>
    rw [hn] at h4; cases h4
    exact ⟨reduces_parsed hw hl hF h1, fun _ => .altL h5 (.zero hw.zero)⟩
  | loopA h1 h2 h3 h4 h5 => rw [hn] at h5; cases h5
  | @chain p o top pre bs h1 h2 h3 h4 h5 h6 =>
    cases bs with
    | nil => exact absurd rfl h5
    | cons b bs => obtain ⟨r', g, _⟩ := h6; rw [hn] at g; cases g
  | @body p o top pre b rest j h1 h2 h3 h4 h5 h6 =>
    have hne : o.bodies ≠ [] := by rw [h4]; simp
    have htk := hw.toks h1 b (by rw [h4]; simp)
    have htop : reduces W F top = some true → Nullable W top := by
      intro h
      obtain ⟨f, v', h⟩ := reduces_r2e h
      have := top_false hw hl ho hF h1 h2 h3 hne (by simp) h
      cases this
    have tok : ∀ {t}, t ∈ b.toks → reduces W F t = some true → Nullable W t := by
      intro t ht h
      exact reduces_parsed hw hl hF (parsed_of hw (htk t ht) (by simp) (by simp)) h
    have tokc : ∀ {t k r}, t ∈ b.toks → W.node k = some (.cons t r) → reduces W F k = some true → Nullable W k := by
      intro t k r ht hk h
      obtain ⟨f, v', h⟩ := reduces_r2e h
      cases r2e_tok_cons h hk (htk t ht)
    have topc : ∀ {k r}, W.node k = some (.cons top r) → W.parsed ≤ k → k ∉ touchAll o.bodies top → reduces W F k = some true → Nullable W k := by
      intro k r hk hkp hkt h
      obtain ⟨f, v', h⟩ := reduces_r2e h
      obtain ⟨f', bl, v1, g1, g2⟩ := r2e_cons h (by simp) hk
      have := top_false hw hl ho hF h1 h2 h3 hne (v := [k]) (by simpa using ⟨hkp, hkt⟩) g1
      subst this
      rcases g2 with ⟨_, g2, _⟩ | ⟨g2, _⟩ <;> cases g2
    cases b with
    | pre t =>
      simp only [OpBody.size] at h6
      obtain rfl : j = 0 := by omega
      simp only [Nat.add_zero] at hn
      rw [show W.node _ = _ from h5] at hn; cases hn
      exact ⟨tok (by simp [OpBody.toks]), htop⟩
    | post t =>
      simp only [OpBody.size] at h6
      obtain rfl : j = 0 := by omega
      simp only [Nat.add_zero] at hn
      rw [show W.node _ = _ from h5] at hn; cases hn
      exact ⟨htop, tok (by simp [OpBody.toks])⟩
    | bin t =>
      obtain ⟨e0, e1⟩ := h5
      simp only [OpBody.size] at h6
      obtain rfl | rfl : j = 0 ∨ j = 1 := by omega
      · simp only [Nat.add_zero] at hn
        rw [e0] at hn; cases hn
        exact ⟨htop, tokc (t := t) (by simp [OpBody.toks]) e1⟩
      · rw [e1] at hn; cases hn
        exact ⟨tok (by simp [OpBody.toks]), htop⟩
    | tern t u =>
      obtain ⟨e0, e1, e2, e3⟩ := h5
      simp only [OpBody.size] at h6
      obtain rfl | rfl | rfl | rfl : j = 0 ∨ j = 1 ∨ j = 2 ∨ j = 3 := by omega
      · simp only [Nat.add_zero] at hn
        rw [e0] at hn; cases hn
        exact ⟨htop, tokc (t := t) (by simp [OpBody.toks]) e1⟩
      · rw [e1] at hn; cases hn
        refine ⟨tok (by simp [OpBody.toks]), topc e2 (by omega) fun hm => ?_⟩
        rw [h4] at hm
        have := touchAll_append hm
        simp only [OpBody.touch, OpBody.size, List.mem_cons, List.not_mem_nil, or_false] at this
        omega
      · rw [e2] at hn; cases hn
        exact ⟨htop, tokc (t := u) (by simp [OpBody.toks]) e3⟩
      · rw [e3] at hn; cases hn
        exact ⟨tok (by simp [OpBody.toks]), htop⟩
    | paren t u =>
      obtain ⟨e0, e1⟩ := h5
      simp only [OpBody.size] at h6
      obtain rfl | rfl : j = 0 ∨ j = 1 := by omega
      · simp only [Nat.add_zero] at hn
        rw [e0] at hn; cases hn
        refine ⟨tok (by simp [OpBody.toks]), topc e1 (by omega) fun hm => ?_⟩
        rw [h4] at hm
        have := touchAll_append hm
        simp only [OpBody.touch, OpBody.size, List.mem_cons, List.not_mem_nil, or_false] at this
        omega
      · rw [e1] at hn; cases hn
        exact ⟨htop, tok (by simp [OpBody.toks])⟩

/-! ### The sets stay right -/

theorem Ok.mono {m n e : Nat} (h : ∀ α, Der W m α → Der W n α) (he : Ok W m e) : Ok W n e := by
  rcases he with ⟨h1, h2⟩ | ⟨h1, γ, h2⟩
  · exact .inl ⟨h1, h _ h2⟩
  · exact .inr ⟨h1, γ, h _ h2⟩

theorem merge_sound {b : Bool} {n m : Nat} {c : Comp} (hc : Sound W c.sets) (h : ∀ e, Ok W m e → passes W b e = true → Ok W n e) :
    Sound W (mergeFirst W b n m c).sets := by
  intro d e hd
  rcases mem_mergeFirst.1 hd with h1 | ⟨h1, h2, h3⟩
  · exact hc d e h1
  · simp only at h1 h2 h3; subst h1
    exact h e (hc _ _ h2) h3

theorem searchRule_some {s r : Nat} (h : W.searchRule s = some r) : r ∈ W.rules ∧ ∃ i, W.node r = some (.evolve i s) := by
  unfold World.searchRule at h
  refine ⟨List.mem_of_find?_eq_some h, ?_⟩
  have := List.find?_some h
  cases e : W.node r with
  | none => rw [e] at this; cases this
  | some it =>
    rw [e] at this
    cases it <;> simp_all

theorem der_evolve {n i s : Nat} (hn : W.node n = some (.evolve i s)) {α : List Nat} (h : Der W n α) : Der W i α := by
  cases h <;> simp_all

theorem symbol_sound {b : Bool} {n s : Nat} {c : Comp} (hs : W.node s = some .sym) (hc : Sound W c.sets) (h : ∀ α, Der W s α → Der W n α) :
    Sound W (firstOfSymbol W b n s c).sets := by
  unfold firstOfSymbol
  have h1 := merge_sound (b := b) hc (fun e he _ => he.mono h)
  cases e : W.searchRule s with
  | none => simpa [e] using h1
  | some r =>
    obtain ⟨g1, i, g2⟩ := searchRule_some e
    exact merge_sound h1 fun e he _ => he.mono fun α hd => h _ (.expand hs g1 g2 (der_evolve g2 hd))

theorem enter_sound {go : List Nat → Nat → Comp → Option Comp} {n : Nat} (hgo : ∀ V c c', Sound W c.sets → go V n c = some c' → Sound W c'.sets)
    {V : List Nat} {c c' : Comp} (hc : Sound W c.sets) (h : enter go V n c = some c') : Sound W c'.sets := by
  unfold enter at h
  split at h
  · cases h; exact hc
  · exact hgo _ _ _ hc h

theorem firstGo_sound (hw : Wf W) (hl : LeadOk W) (ho : OpsOk W) : ∀ (f : Nat) (b : Bool) (V : List Nat) (n : Nat) (c c' : Comp), Good W n →
    Sound W c.sets → firstGo W f b V n c = some c' → Sound W c'.sets := by
  intro f
  induction f with
  | zero => intro b V n c c' _ _ h; cases h
  | succ f ih =>
    intro b V n c c' hg hc h
    have ent : ∀ {b : Bool} {m : Nat} {c c' : Comp}, Good W m → Sound W c.sets → enter (firstGo W f b) V m c = some c' → Sound W c'.sets :=
      fun hm hc h => enter_sound (fun V c c' hc h => ih _ V _ c c' hm hc h) hc h
    cases hn : W.node n with
    | none => simp [firstGo, hn] at h
    | some it =>
      simp only [firstGo, hn] at h
      -- nodes with one part that is dispatched directly
      have dir : ∀ {k : Nat}, Good W k → (∀ α, Der W k α → Der W n α) → (firstGo W f b V k c).map (mergeFirst W b n k) = some c' → Sound W c'.sets := by
        intro k hk hd h
        obtain ⟨c1, h1, rfl⟩ := Option.map_eq_some_iff.1 h
        exact merge_sound (ih _ _ _ _ _ hk hc h1) fun e he _ => he.mono hd
      have via : ∀ {k : Nat}, Good W k → (∀ α, Der W k α → Der W n α) → (enter (firstGo W f b) V k c).map (mergeFirst W b n k) = some c' → Sound W c'.sets := by
        intro k hk hd h
        obtain ⟨c1, h1, rfl⟩ := Option.map_eq_some_iff.1 h
        exact merge_sound (ent hk hc h1) fun e he _ => he.mono hd
      have two : ∀ {l r : Nat}, Good W l → Good W r → (∀ α, Der W l α → Der W n α) → (∀ α, Der W r α → Der W n α) →
          ((enter (firstGo W f b) V l c).bind fun c => (enter (firstGo W f b) V r c).map fun c => mergeFirst W b n r (mergeFirst W b n l c)) = some c' →
          Sound W c'.sets := by
        intro l r gl gr dl dr h
        obtain ⟨c1, h1, h2⟩ := Option.bind_eq_some_iff.1 h
        obtain ⟨c2, h3, rfl⟩ := Option.map_eq_some_iff.1 h2
        exact merge_sound (merge_sound (ent gr (ent gl hc h1) h3) fun e he _ => he.mono dl) fun e he _ => he.mono dr
      have good : ∀ {m}, (∀ l r, it ≠ .cons l r) → (∀ l r, it ≠ .alt l r) → Part W n m → (∀ o, W.node n ≠ some (.op o)) → Good W m := by
        intro m h1 h2 hp hno
        exact good_part hw (good_parsed hw hg hn h1 h2).1 hp hno
      cases it with
      | zero => cases h; exact hc
      | sym => cases h; exact hc
      | term => cases h; exact hc
      | nonterm s => cases h; exact symbol_sound (hw.symbols _ _ (.inl hn)) hc fun α => .nonterm hn
      | inlined s => cases s with
        | none => cases h; exact hc
        | some s => cases h; exact symbol_sound (hw.symbols _ _ (.inr (.inl hn))) hc fun α => .inlined hn
      | plus i =>
        obtain ⟨k, a, e1, e2, e3⟩ := hw.bnf.plus n i hn
        simp only [e1] at h
        have hp := (good_parsed hw hg hn (by simp) (by simp)).1
        have hlt := part_lt hw hp (.plus hn) (by simp [hn])
        exact dir (.loopC (by omega) (fun j s => hw.parts n i j s (.plus hn)) (hw.valid _ _ (.plus hn)) e2 e3)
          (fun α hd => (plus_iff hn).2 ((loop_iff hw.zero e2 e3).1.1 hd)) h
      | star i =>
        obtain ⟨k, a, e1, e2, e3⟩ := hw.bnf.star n i hn
        simp only [e1] at h
        have hp := (good_parsed hw hg hn (by simp) (by simp)).1
        have hlt := part_lt hw hp (.star hn) (by simp [hn])
        exact dir (.loopA (by omega) (fun j s => hw.parts n i j s (.star hn)) (hw.valid _ _ (.star hn)) e2 e3)
          (fun α hd => (star_iff hn).2 ((loop_iff hw.zero e2 e3).2.1 hd)) h
      | op o =>
        obtain ⟨k, e1, e2, e3⟩ := hw.bnf.op n o hn
        simp only [e1] at h
        exact dir (good_top hw hn e2 e3) (fun α hd => op_fw hn e2 (hw.toks hn) hd) h
      | annot i => exact via (good (by simp) (by simp) (.annot hn) (by simp [hn])) (fun α => .annot hn) h
      | cond i => exact via (good (by simp) (by simp) (.cond hn) (by simp [hn])) (fun α => .cond hn) h
      | action i => cases i with
        | none => cases h; exact hc
        | some i => exact dir (good (by simp) (by simp) (.action hn) (by simp [hn])) (fun α => .action hn) h
      | tryc l r => cases r with
        | none => exact dir (good (by simp) (by simp) (.tryL hn) (by simp [hn])) (fun α => .tryL hn) h
        | some r =>
          exact two (good (by simp) (by simp) (.tryL hn) (by simp [hn])) (good (by simp) (by simp) (.tryR hn) (by simp [hn]))
            (fun α => .tryL hn) (fun α => .tryR hn) h
      | alt l r =>
        have ga := good_alt hw hg hn
        exact two ga.1 ga.2 (fun α => .altL hn) (fun α => .altR hn) h
      | evolve i s =>
        have hp := good_parsed hw hg hn (by simp) (by simp)
        obtain ⟨c1, h1, rfl⟩ := Option.map_eq_some_iff.1 h
        have gi := good (by simp) (by simp) (.evolve hn) (by simp [hn])
        refine merge_sound (merge_sound (ent gi hc h1) fun e he _ => he.mono fun α => .evolve hn) fun e he _ => he.mono fun α hd => ?_
        exact .expand (hw.symbols n s (.inr (.inr ⟨i, hn⟩))) (hp.2 i s hn) hn (der_evolve hn hd)
      | cons l r =>
        obtain ⟨⟨gl, _⟩, gr, β, hβ⟩ := good_cons hw hg hn
        obtain ⟨c1, h1, h⟩ := Option.bind_eq_some_iff.1 h
        have s1 := ent gr hc h1
        obtain ⟨er, h2, h⟩ := Option.bind_eq_some_iff.1 h
        obtain ⟨c2, h3, h⟩ := Option.bind_eq_some_iff.1 h
        have s2 := ent gl s1 h3
        have s3 : Sound W (mergeFirst W (b || !er) n l c2).sets := by
          refine merge_sound s2 fun e he hp => ?_
          rcases he with ⟨e1, e2⟩ | ⟨e1, γ, e2⟩
          · cases er with
            | false => rw [Bool.not_false, Bool.or_true] at hp; simp [passes, e1] at hp
            | true => exact .inl ⟨e1, (Der.cons hn e2 ((reduces_cons hw hl ho s1 hg hn).2 h2) : Der W n ([] ++ []))⟩
          · exact .inr ⟨e1, γ ++ β, (Der.cons hn e2 hβ : Der W n (e :: γ ++ β))⟩
        obtain ⟨el, h4, h⟩ := Option.bind_eq_some_iff.1 h
        cases el with
        | false => cases h; exact s3
        | true =>
          have nl := (reduces_cons hw hl ho s3 hg hn).1 h4
          simp only [if_true] at h
          obtain ⟨c4, h5, rfl⟩ := Option.map_eq_some_iff.1 h
          exact merge_sound (ent gr s3 h5) fun e he _ => he.mono fun α hd => (Der.cons hn nl hd : Der W n ([] ++ α))

theorem firstPass_sound (hw : Wf W) (hl : LeadOk W) (ho : OpsOk W) (f : Nat) : ∀ (rs : List Nat), (∀ r ∈ rs, r ∈ W.rules) → ∀ (c c' : Comp),
    Sound W c.sets → firstPass W f rs c = some c' → Sound W c'.sets := by
  intro rs
  induction rs with
  | nil => intro _ c c' hc h; cases h; exact hc
  | cons r rs ih =>
    intro hrs c c' hc h
    obtain ⟨c1, h1, h2⟩ := Option.bind_eq_some_iff.1 h
    have hr := hrs r (by simp)
    have s1 := enter_sound (fun V c c' hc h => firstGo_sound hw hl ho f false V r c c' (.parsed (hw.rules r hr).1 fun _ _ _ => hr) hc h) hc h1
    exact ih (fun r hr => hrs r (by simp [hr])) c1 c' s1 h2

theorem firstLoop_sound (hw : Wf W) (hl : LeadOk W) (ho : OpsOk W) (f : Nat) : ∀ (k : Nat) (F₀ F : Sets), Sound W F₀ → firstLoop W f k F₀ = some F → Sound W F := by
  intro k
  induction k with
  | zero => intro F₀ F _ h; simp [firstLoop] at h
  | succ k ih =>
    intro F₀ F hF h
    rw [firstLoop] at h
    cases e : firstPass W f W.rules ⟨F₀, false⟩ with
    | none => rw [e] at h; cases h
    | some c =>
      rw [e] at h
      simp only at h
      have hs := firstPass_sound hw hl ho f W.rules (fun _ => id) ⟨F₀, false⟩ c hF e
      split at h
      · exact ih _ _ hs h
      · cases h; exact hs

theorem init_sound (hw : Wf W) : Sound W (initFirst W) := by
  intro n e h
  simp only [initFirst, List.mem_cons, List.mem_map, Prod.mk.injEq] at h
  rcases h with ⟨rfl, rfl⟩ | ⟨t, ht, rfl, rfl⟩
  · exact .inl ⟨hw.zero, .zero hw.zero⟩
  · exact .inr ⟨hw.terminals _ ht, [], .term (hw.terminals _ ht)⟩

theorem computeFirst_sound (hw : Wf W) (hl : LeadOk W) (ho : OpsOk W) {f k : Nat} (h : computeFirst W f k = some F) : Sound W F :=
  firstLoop_sound hw hl ho f k _ _ (init_sound hw) h

end Verif.Grammar
