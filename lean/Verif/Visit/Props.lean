import Verif.Visit.Lemmas
import Verif.Vars.DeclProps

/-!
# Visitors: C80-C82
-/

namespace Verif.Visit

open Verif.Vars

/-! ## C80: every node is visited once -/

/-- C80 (partial): on every tree a parser function returns, whatever the tests say, the default visitor visits each node exactly once, parents before the nodes
below.  Missing: operator rules (below), members of one name and different types in a symbol's rules (C74). -/
theorem C80_visits_partial (W : World) (hk : ∀ s r, r ∈ W.G.rules s → Kinded r.item) (hg : ∀ s, Agree W.G s) {d : Nat} (hs : ∀ s, ∃ ms, steps W.G d s = some ms)
    {f s : Nat} {st : St} {t : Tree} {p n : Nat} (h : parse W f s st = some (some t, p, n)) :
    ∃ F l, (∀ f', F ≤ f' → visit W.G d f' t = some l) ∧ l.Nodup ∧ (l.Pairwise fun p q => ¬ q <+: p) ∧ ∀ p, p ∈ l ↔ ∃ u, At t p u := by
  obtain ⟨hsane, x, y, vars, ht⟩ := (exec_fine W hk f).2 s st t p n h
  obtain ⟨F, l, hF, hv⟩ := visit_some hg hs _ (Nat.le_refl _) ht hsane
  exact ⟨F, l, hF, nodup_of_before hv.order, hv.order, hv.mem⟩

/-- C80 (partial): the visit method of a symbol with one ordinary rule and consistent names visits the node members of the structure, each once. -/
theorem C80_members_partial (G : Grammar) {f s : Nat} {r : Rule} {ms : List Struct} {vs : List Decl} (hr : G.rules s = [r]) (ho : r.item ≠ .op)
    (hc : Consistent G r false) (h : structs G f s = some ms) (hv : steps G f s = some vs) :
    ∃ m, ms = [m] ∧ (vs.map (·.ident)).Nodup ∧ ∀ x, x ∈ vs.map (·.ident) ↔ x ∈ (m.members.filter (·.kind = .node)).map (·.ident) := by
  simp only [structs, hr, structLoop, ruleStructs, if_neg ho, Option.bind_eq_some_iff, Option.map_eq_some_iff] at h
  obtain ⟨p, ⟨v, hv1, rfl⟩, q, hq, rfl⟩ := h
  cases hq
  simp only [steps, hr, allVisited, hv1, Option.bind_some, Option.map_some, Option.some.injEq, List.append_nil] at hv
  subst hv
  refine ⟨_, rfl, ?_, ?_⟩
  · exact nodup_idents hc (fun d hd => ⟨(has_iff hv1 d).2 (stepLoop_mem hd).1, (stepLoop_mem hd).2.1⟩) stepLoop_nodup
  · intro x
    simp only [List.mem_map, List.mem_filter, decide_eq_true_eq]
    constructor
    · rintro ⟨d, hd, rfl⟩
      obtain ⟨h1, h2, h3, _⟩ := stepLoop_mem hd
      rcases memberLoop_has (names := []) h1 h2 with h | ⟨m, hm, hn⟩
      · simp at h
      · obtain ⟨h4, h5, _⟩ := memberLoop_mem hm
        have hsame := (hc m d ((has_iff hv1 m).2 h4) ((has_iff hv1 d).2 h1) h5 h2).1 hn
        exact ⟨m, ⟨hm, by rw [hsame.2.1, h3]⟩, (same_ident hn hsame).1⟩
    · rintro ⟨m, ⟨hm, hmk⟩, rfl⟩
      obtain ⟨h1, h2, _⟩ := memberLoop_mem hm
      rcases stepLoop_has (names := []) h1 h2 hmk with h | ⟨d, hd, hn⟩
      · simp at h
      · obtain ⟨h4, h5, h6, _⟩ := stepLoop_mem hd
        have hsame := (hc d m ((has_iff hv1 d).2 h4) ((has_iff hv1 m).2 h1) h5 h2).1 hn
        exact ⟨d, hd, (same_ident hn hsame).1⟩

/-- `(x=b | 0) #y=b #y=b -> a; B -> b`. -/
def visitG : Grammar where
  rules s := if s = 0 then [{ item := .cons (.cons (.alt (.ann { kind := .node, name := "x", type := "b" } (.sym 1)) .zero)
      (.ann { kind := .node, seq := true, name := "y", type := "b" } (.sym 1))) (.ann { kind := .node, seq := true, name := "y", type := "b" } (.sym 1)) }]
    else if s = 1 then [{ item := .ann { kind := .tok, name := "z" } (.tok 2) }] else []

def visitW : World where
  G := visitG
  toks p := if p < 3 then 2 else 0
  eof := 0
  oracle _ := true
  depth := 10

def visitTree : Tree := .node 0 0 2 [("x", false, [.node 1 0 0 [("z", false, [.tok 0])]]),
  ("y", true, [.node 1 1 1 [("z", false, [.tok 1])], .node 1 2 2 [("z", false, [.tok 2])]])]

/-- A tree of four nodes. -/
example : ((parse visitW 20 0 { pos := 0, asked := 0 }).bind fun r => r.1.bind (visit visitG 9 9)) =
      some [[], [("x", false, 0)], [("y", true, 0)], [("y", true, 1)]] ∧
    visit visitG 9 9 visitTree = some [[], [("x", false, 0)], [("y", true, 0)], [("y", true, 1)]] := ⟨by decide +kernel, by decide +kernel⟩

example : (∀ s r, r ∈ visitG.rules s → Kinded r.item) ∧ (∀ s, Agree visitG s) ∧ ∀ s, ∃ ms, steps visitG 9 s = some ms := by
  refine ⟨?_, ?_, ?_⟩
  · intro s r h
    simp only [visitG] at h
    split at h
    · simp only [List.mem_singleton] at h; subst h; simp [Kinded]
    · split at h
      · simp only [List.mem_singleton] at h; subst h; simp [Kinded]
      · simp at h
  · intro s r hr q hq d e hd he _ _ hn
    have all : ∀ r ∈ visitG.rules s, ∀ d, Has visitG r d → d = { kind := .node, name := "x", type := "b" } ∨
        d = { kind := .node, seq := true, name := "y", type := "b" } ∨ d = { kind := .tok, name := "z" } := by
      intro r hr d hd
      simp only [visitG] at hr
      split at hr
      · simp only [List.mem_singleton] at hr; subst hr
        rw [has_iff (f := 9) (v := [{ kind := .node, name := "x", type := "b" }, { kind := .node, seq := true, name := "y", type := "b" },
          { kind := .node, seq := true, name := "y", type := "b" }]) rfl] at hd
        simp only [List.nil_append, List.mem_cons, List.not_mem_nil, or_false] at hd
        rcases hd with h | h | h
        · exact Or.inl h
        · exact Or.inr (Or.inl h)
        · exact Or.inr (Or.inl h)
      · split at hr
        · simp only [List.mem_singleton] at hr; subst hr
          rw [has_iff (f := 9) (v := [{ kind := .tok, name := "z" }]) rfl] at hd
          simp only [List.nil_append, List.mem_cons, List.not_mem_nil, or_false] at hd
          exact Or.inr (Or.inr hd)
        · simp at hr
    rcases all r hr d hd with rfl | rfl | rfl <;> rcases all q hq e he with rfl | rfl | rfl <;> first | (exact ⟨rfl, rfl, fun _ => rfl⟩) | (exact absurd hn (by decide))
  · intro s
    by_cases h0 : s = 0
    · subst h0; exact ⟨_, rfl⟩
    · by_cases h1 : s = 1
      · subst h1; exact ⟨_, rfl⟩
      · refine ⟨[], ?_⟩
        simp [steps, visitG, h0, h1, allVisited, stepLoop]

/-- C80 for the operands of operators: for each structure of an operator rule except the base there is one visit method, and it visits the operands of that
structure in order. -/
theorem C80_operands (G : Grammar) {f s : Nat} {r : Rule} {ms : List Struct} (hr : G.rules s = [r]) (ho : r.item = .op) (h : structs G f s = some ms) :
    opSteps = (ms.filter fun m => m.pre ≠ "").map fun m => (m.pre, operands m.pre) := by
  simp only [structs, hr, structLoop, ruleStructs, if_pos ho, Option.bind_some, Option.map_some, Option.some.injEq] at h
  subst h
  rfl

/-- C80 fails for operator rules: node members declared in brackets are part of the structure for prefix operators, but none of the visit methods visits them. -/
theorem C80_fails_operator (G : Grammar) {f s : Nat} {r : Rule} {ms : List Struct} {d : Decl} (hr : G.rules s = [r]) (ho : r.item = .op) (hd : d ∈ r.decls)
    (ht : d.temp = false) (hn : d.name ∉ ["first", "second", "third"]) (h : structs G f s = some ms) :
    (∃ m ∈ ms, m.pre = "Prefix" ∧ d.name ∈ m.members.map (·.name)) ∧ isOp G s = true ∧ ∀ x ∈ opSteps, d.name ∉ x.2 := by
  simp only [structs, hr, structLoop, ruleStructs, if_pos ho, Option.bind_some, Option.map_some, Option.some.injEq] at h
  subst h
  refine ⟨⟨_, List.mem_append_left _ (List.mem_cons_of_mem _ List.mem_cons_self), rfl, ?_⟩, by simp [isOp, hr, ho], ?_⟩
  · rcases memberLoop_has (names := []) hd ht with h | ⟨m, hm, he⟩
    · simp at h
    · exact List.mem_map.2 ⟨m, hm, he⟩
  · simp only [List.mem_cons, List.not_mem_nil, or_false, not_or] at hn
    intro x hx
    simp only [opSteps, List.mem_cons, List.not_mem_nil, or_false] at hx
    rcases hx with rfl | rfl | rfl | rfl <;> simp [hn]

/-- Such a rule: `expr [ member node x: atom; ] -> ...`. -/
example : ∃ (G : Grammar) (r : Rule) (d : Decl), G.rules 0 = [r] ∧ r.item = .op ∧ d ∈ r.decls ∧ d.kind = .node ∧ d.temp = false ∧
    d.name ∉ ["first", "second", "third"] ∧ structs G 9 0 ≠ none :=
  ⟨⟨fun _ => [⟨[{ kind := .node, name := "x", type := "atom" }], .op⟩], fun _ => false⟩, ⟨[{ kind := .node, name := "x", type := "atom" }], .op⟩,
    { kind := .node, name := "x", type := "atom" }, rfl, rfl, List.mem_cons_self, rfl, rfl, by decide, by decide⟩

/-! ## C81: the name of the parameter -/

/-- A node member. -/
def NodeMember (d : Decl) : Prop := d.temp = false ∧ d.kind = .node

/-- If the brackets of a rule declare a node member, then the first declaration in them is one. -/
def NodesFirst (r : Rule) : Prop := (∃ d ∈ r.decls, NodeMember d) → ∃ d, r.decls.head? = some d ∧ NodeMember d

theorem initVisited_inlined (G : Grammar) : ∀ (f : Nat) (i : Item) (v : List Decl), initVisited G f i = some v → ∀ q, Inlines G q i →
    ∀ d, q.decls.head? = some d → d ∈ v := by
  intro f
  induction f with
  | zero => intro i v h; simp [initVisited] at h
  | succ f ih =>
    intro i v h q hq d hd
    cases hq with
    | here hr =>
      simp only [initVisited, hr, Option.map_eq_some_iff] at h
      obtain ⟨w, hw, rfl⟩ := h
      refine List.mem_append_left _ ?_
      cases hdl : q.decls with
      | nil => rw [hdl] at hd; simp at hd
      | cons x xs => rw [hdl] at hd; cases hd; simp
    | inl hr ha =>
      simp only [initVisited, hr, Option.map_eq_some_iff] at h
      obtain ⟨w, hw, rfl⟩ := h
      exact List.mem_append_right _ (ih _ _ hw q ha d hd)
    | consL ha =>
      simp only [initVisited, Option.bind_eq_some_iff, Option.map_eq_some_iff] at h
      obtain ⟨a, h1, b, h2, rfl⟩ := h
      exact List.mem_append_left _ (ih _ _ h1 q ha d hd)
    | consR ha =>
      simp only [initVisited, Option.bind_eq_some_iff, Option.map_eq_some_iff] at h
      obtain ⟨a, h1, b, h2, rfl⟩ := h
      exact List.mem_append_right _ (ih _ _ h2 q ha d hd)
    | altL ha =>
      simp only [initVisited, Option.bind_eq_some_iff, Option.map_eq_some_iff] at h
      obtain ⟨a, h1, b, h2, rfl⟩ := h
      exact List.mem_append_left _ (ih _ _ h1 q ha d hd)
    | altR ha =>
      simp only [initVisited, Option.bind_eq_some_iff, Option.map_eq_some_iff] at h
      obtain ⟨a, h1, b, h2, rfl⟩ := h
      exact List.mem_append_right _ (ih _ _ h2 q ha d hd)
    | tried ha =>
      simp only [initVisited, Option.bind_eq_some_iff, Option.map_eq_some_iff] at h
      obtain ⟨a, h1, b, h2, rfl⟩ := h
      exact List.mem_append_left _ (ih _ _ h1 q ha d hd)
    | caught ha =>
      simp only [initVisited, Option.bind_eq_some_iff, Option.map_eq_some_iff] at h
      obtain ⟨a, h1, b, h2, rfl⟩ := h
      exact List.mem_append_right _ (ih _ _ h2 q ha d hd)
    | star ha => simp only [initVisited] at h; exact ih _ _ h q ha d hd
    | plus ha => simp only [initVisited] at h; exact ih _ _ h q ha d hd
    | act ha => simp only [initVisited] at h; exact ih _ _ h q ha d hd
    | cond ha => simp only [initVisited] at h; exact ih _ _ h q ha d hd
    | recover ha => simp only [initVisited] at h; exact ih _ _ h q ha d hd

theorem allSeen_sub {G : Grammar} {f : Nat} : ∀ {rs : List Rule} {v w : List Decl}, allSeen G f rs = some v → allVisited G f rs = some w → ∀ d ∈ v, d ∈ w
  | [], v, w, h, _, d, hd => by simp only [allSeen, Option.some.injEq] at h; subst h; simp at hd
  | r :: t, v, w, h, h', d, hd => by
    simp only [allSeen, Option.bind_eq_some_iff, Option.map_eq_some_iff] at h
    simp only [allVisited, Option.bind_eq_some_iff, Option.map_eq_some_iff] at h'
    obtain ⟨a, h1, b, h2, rfl⟩ := h
    obtain ⟨a', h1', b', h2', rfl⟩ := h'
    obtain ⟨a'', h3, hsub⟩ := initVisited_sub G f _ _ h1
    rw [h1'] at h3
    cases h3
    simp only [List.mem_append] at hd ⊢
    rcases hd with (hd | hd) | hd
    · exact Or.inl (Or.inl (List.mem_of_mem_take hd))
    · exact Or.inl (Or.inr (hsub d hd))
    · exact Or.inr (allSeen_sub h2 h2' d hd)

theorem allSeen_has {G : Grammar} {f : Nat} : ∀ {rs : List Rule} {v : List Decl}, allSeen G f rs = some v →
    (∀ r ∈ rs, NodesFirst r ∧ ∀ q, Inlines G q r.item → NodesFirst q) → ∀ r ∈ rs, ∀ d, Has G r d → NodeMember d → ∃ e ∈ v, NodeMember e
  | [], _, _, _, r, hr, _, _, _ => by simp at hr
  | r :: t, v, h, hf, r', hr', d, hd, hn => by
    simp only [allSeen, Option.bind_eq_some_iff, Option.map_eq_some_iff] at h
    obtain ⟨a, h1, b, h2, rfl⟩ := h
    rcases List.mem_cons.1 hr' with rfl | hr'
    · obtain ⟨hf1, hf2⟩ := hf _ List.mem_cons_self
      rcases hd with hd | hd | ⟨q, hq, hd⟩
      · obtain ⟨e, he, hen⟩ := hf1 ⟨d, hd, hn⟩
        refine ⟨e, List.mem_append_left _ (List.mem_append_left _ ?_), hen⟩
        cases hdl : r'.decls with
        | nil => rw [hdl] at he; simp at he
        | cons x xs => rw [hdl] at he; cases he; simp
      · exact ⟨d, List.mem_append_left _ (List.mem_append_right _ (initVisited_annotates G f _ _ h1 d hd)), hn⟩
      · obtain ⟨e, he, hen⟩ := hf2 q hq ⟨d, hd, hn⟩
        exact ⟨e, List.mem_append_left _ (List.mem_append_right _ (initVisited_inlined G f _ _ h1 q hq e he)), hen⟩
    · obtain ⟨e, he, hen⟩ := allSeen_has h2 (fun r hr => hf r (List.mem_cons_of_mem _ hr)) r' hr' d hd hn
      exact ⟨e, List.mem_append_right _ he, hen⟩

/-- C81 (partial): for an ordinary symbol, a named parameter is used; and if in all brackets concerned node members are declared first, a used parameter has a
name.  Missing: other declarations before node members (below). -/
theorem C81_named_partial (G : Grammar) {f s : Nat} {b : Bool} {vs : List Decl} (ho : isOp G s = false) (h : hasMembers G f s = some b) (hv : steps G f s = some vs) :
    (b = true → vs ≠ []) ∧ ((∀ r ∈ G.rules s, NodesFirst r ∧ ∀ q, Inlines G q r.item → NodesFirst q) → vs ≠ [] → b = true) := by
  simp only [hasMembers, ho, Bool.false_eq_true, if_false, Option.map_eq_some_iff] at h
  simp only [steps, Option.map_eq_some_iff] at hv
  obtain ⟨v, hv1, rfl⟩ := h
  obtain ⟨w, hw, rfl⟩ := hv
  constructor
  · intro hb
    rw [List.any_eq_true] at hb
    obtain ⟨d, hd, hdn⟩ := hb
    simp only [Bool.and_eq_true, Bool.not_eq_true', decide_eq_true_eq] at hdn
    rcases stepLoop_has (names := []) (allSeen_sub hv1 hw d hd) hdn.1 hdn.2 with h | ⟨m, hm, _⟩
    · simp at h
    · exact List.ne_nil_of_mem hm
  · intro hf hne
    obtain ⟨d, hd⟩ := List.exists_mem_of_ne_nil _ hne
    obtain ⟨h1, h2, h3, _⟩ := stepLoop_mem hd
    obtain ⟨r, hr, hrd⟩ := (allVisited_mem hw d).1 h1
    obtain ⟨e, he, hen⟩ := allSeen_has hv1 hf r hr d hrd ⟨h2, h3⟩
    rw [List.any_eq_true]
    exact ⟨e, he, by simp [hen.1, hen.2]⟩

/-- C81 for operators: each of the visit methods uses the parameter, and it is named. -/
theorem C81_operator (G : Grammar) {f s : Nat} (h : isOp G s = true) : hasMembers G f s = some true ∧ ∀ x ∈ opSteps, x.2 ≠ [] := by
  refine ⟨by simp [hasMembers, h], ?_⟩
  simp [opSteps]

example : isOp ⟨fun _ => [⟨[], .op⟩], fun _ => false⟩ 0 = true := rfl

/-- `a [ member node x: b; member token t; ] -> y=b`. -/
def namedR : Rule where
  decls := [{ kind := .node, name := "x", type := "b" }, { kind := .tok, name := "t" }]
  item := .ann { kind := .node, name := "y", type := "b" } (.sym 1)

/-- Hypotheses met: the first declaration is a node member. -/
example : NodesFirst namedR ∧ (∀ q, Inlines ⟨fun s => if s = 0 then [namedR] else [], fun _ => false⟩ q namedR.item → NodesFirst q) ∧
    hasMembers ⟨fun s => if s = 0 then [namedR] else [], fun _ => false⟩ 9 0 = some true :=
  ⟨fun _ => ⟨_, rfl, rfl, rfl⟩, fun q h => (by unfold namedR at h; cases h), rfl⟩

/-- C81 fails where a node member is declared after something else: `a [ member token t; member node x: b; ] -> ...` gives a method whose parameter has no name
and whose body visits `node->x`. -/
theorem C81_fails_second : ∃ (G : Grammar) (r : Rule), G.rules 0 = [r] ∧ isOp G 0 = false ∧ hasMembers G 9 0 = some false ∧
    steps G 9 0 = some [{ kind := .node, name := "x", type := "b" }] :=
  ⟨⟨fun _ => [⟨[{ kind := .tok, name := "t" }, { kind := .node, name := "x", type := "b" }], .atom (.tok 1)⟩], fun _ => false⟩,
    ⟨[{ kind := .tok, name := "t" }, { kind := .node, name := "x", type := "b" }], .atom (.tok 1)⟩, rfl, rfl, rfl, rfl⟩

/-! ## C82: the debug visitor -/

/-- C82 (partial): on every tree a parser function returns, the debug visitor prints each node once without label, indented by its depth, parents first; each node below
the root once more with the name of the member it is in, indented as its parent; and the indentation is the same afterwards.  Missing: as in C80. -/
theorem C82_debug_partial (W : World) (hk : ∀ s r, r ∈ W.G.rules s → Kinded r.item) (hg : ∀ s, Agree W.G s) {d : Nat} (hs : ∀ s, ∃ ms, steps W.G d s = some ms)
    {f s : Nat} {st : St} {t : Tree} {p n : Nat} (h : parse W f s st = some (some t, p, n)) (ind : Int) :
    ∃ F ls, (∀ f', F ≤ f' → debug W.G d f' [] ind t = some (ls, ind)) ∧
      (((ls.filter fun l => l.label.isNone).map (·.path)).Nodup ∧ ((ls.filter fun l => l.label.isNone).map (·.path)).Pairwise (fun p q => ¬ q <+: p) ∧
        (∀ p, p ∈ (ls.filter fun l => l.label.isNone).map (·.path) ↔ ∃ u, At t p u) ∧ ∀ l ∈ ls, l.label = none → l.indent = ind + l.path.length) ∧
      (((ls.filter fun l => l.label.isSome).map (·.path)).Nodup ∧
        (∀ p, p ∈ (ls.filter fun l => l.label.isSome).map (·.path) ↔ p ≠ [] ∧ ∃ u, At t p u) ∧
        ∀ l ∈ ls, l.label ≠ none → ∃ p x, l.path = p ++ [x] ∧ l.label = some (label x) ∧ l.indent = ind + p.length) := by
  obtain ⟨hsane, x, y, vars, ht⟩ := (exec_fine W hk f).2 s st t p n h
  obtain ⟨F, l, hF, hv⟩ := visit_some hg hs _ (Nat.le_refl _) ht hsane
  have hnd := nodup_of_before hv.order
  -- the lines do not depend on the fuel
  obtain ⟨ls, h1, ho, hp, hfit⟩ := (debug_some W.G d (F + 1)).1 t l [] ind (hF _ (by omega))
  have hall : ∀ f', F + 1 ≤ f' → debug W.G d f' [] ind t = some (ls, ind) := by
    intro f' hf'
    have mono := debug_mono W.G d (F + 1)
    exact mono.1 f' hf' _ _ _ _ h1
  have hown : (own ls).map (·.path) = l := by rw [ho, List.map_map]; simp [Function.comp_def]
  have hl0 : ∃ l', l = [] :: l' := by
    have hv1 := hF (F + 1) (by omega)
    subst ht
    simp only [visit, Option.bind_eq_some_iff, Option.map_eq_some_iff] at hv1
    obtain ⟨_, _, l', _, rfl⟩ := hv1
    exact ⟨l', rfl⟩
  obtain ⟨l', rfl⟩ := hl0
  refine ⟨F + 1, ls, hall, ⟨?_, ?_, ?_, ?_⟩, ?_, ?_, ?_⟩
  · have e := hnd; rw [← hown] at e; exact e
  · have e := hv.order; rw [← hown] at e; exact e
  · intro p
    have e := hv.mem p; rw [← hown] at e; exact e
  · intro ln hln hlab
    have hmem : ln ∈ own ls := List.mem_filter.2 ⟨hln, by rw [hlab]; rfl⟩
    rw [ho] at hmem
    obtain ⟨q, _, rfl⟩ := List.mem_map.1 hmem
    simp
  · have e := (hp.nodup_iff).2 (by
      simp only [List.tail_cons, List.nil_append, List.map_id']
      exact (List.nodup_cons.1 hnd).2)
    exact e
  · intro q
    have e : q ∈ (named ls).map (·.path) ↔ q ∈ l' := by
      rw [hp.mem_iff]; simp
    refine Iff.trans e ?_
    rw [← hv.mem q, List.mem_cons]
    constructor
    · intro hq
      refine ⟨?_, Or.inr hq⟩
      rintro rfl
      exact (List.nodup_cons.1 hnd).1 hq
    · rintro ⟨h1, h2 | h2⟩
      · exact absurd h2 h1
      · exact h2
  · intro ln hln hlab
    obtain ⟨q, z, h1, h2, h3⟩ := hfit ln (List.mem_filter.2 ⟨hln, by rwa [Option.isSome_iff_ne_none]⟩)
    exact ⟨q, z, by simpa using h1, h2, h3⟩

/-- The lines for the tree above. -/
example : debug visitG 9 9 [] 0 visitTree = some ([⟨0, none, []⟩, ⟨0, some "x", [("x", false, 0)]⟩, ⟨0, some "y[]", [("y", true, 0)]⟩, ⟨0, some "y[]", [("y", true, 1)]⟩,
    ⟨1, none, [("x", false, 0)]⟩, ⟨1, none, [("y", true, 0)]⟩, ⟨1, none, [("y", true, 1)]⟩], 0) := by decide +kernel

end Verif.Visit
