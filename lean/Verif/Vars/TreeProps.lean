import Verif.Vars.TreeSound

/-!
# Properties C78 and C79: the syntax tree
-/

namespace Verif.Vars

/-- C78 (partial): whenever a parser function succeeds, whatever the tests say, its node is a node for the tokens read: kind, first and last token, and each
member holds what its annotations met, sequences in the order of the text.  Missing: annotations below `try` (see `C78_fails_rollback`), operator rules
(C50), arguments that are nodes. -/
theorem C78_tree_partial (W : World) (hG : ∀ s r, r ∈ W.G.rules s → TryPlain r.item) {f s : Nat} {st : St} {t : Tree} {p n : Nat}
    (h : parse W f s st = some (some t, p, n)) : Built W.G W.toks W.eof (.node s t) st.pos p :=
  (sound W hG f).2 s st t p n h

/-- `#x=A (#y=b | 0) #x=A -> s; z=B -> b`. -/
def exampleG : Grammar where
  rules s := if s = 0 then [{ item := .cons (.cons (.ann { kind := .tok, seq := true, name := "x" } (.tok 1))
      (.alt (.ann { kind := .node, seq := true, name := "y", type := "b" } (.sym 1)) .zero)) (.ann { kind := .tok, seq := true, name := "x" } (.tok 1)) }]
    else if s = 1 then [{ item := .ann { kind := .tok, name := "z" } (.tok 2) }] else []
  start s := s == 0

def exampleW (toks : List Nat) (answers : List Bool) : World where
  G := exampleG
  toks p := toks.getD p 0
  eof := 0
  oracle n := answers.getD n true
  depth := 10

/-- A parse that meets the hypotheses. -/
example : ∃ t n, parse (exampleW [1, 2, 1] []) 20 0 { pos := 0, asked := 0 } = some (some t, 3, n) ∧
    t = .node 0 0 2 [("x", true, [.tok 0, .tok 2]), ("y", true, [.node 1 1 1 [("z", false, [.tok 1])]])] := ⟨_, _, rfl, rfl⟩

example : ∀ s r, r ∈ exampleG.rules s → TryPlain r.item := by
  intro s r h
  simp only [exampleG] at h
  split at h
  · simp only [List.mem_singleton] at h; subst h; simp [TryPlain]
  · split at h
    · simp only [List.mem_singleton] at h; subst h; simp [TryPlain]
    · simp at h

/-- `try/rollback(#x=A B) catch(#x=A C) -> s`. -/
def rollbackG : Grammar where
  rules s := if s = 0 then [{ item := (.rollback (.cons (.ann { kind := .tok, seq := true, name := "x" } (.tok 1)) (.atom (.tok 2)))
    (.cons (.ann { kind := .tok, seq := true, name := "x" } (.tok 1)) (.atom (.tok 3)))) }] else []

/-- C78 fails: what a `try` that was given up has put into the members stays there: for `A C` the sequence has the token `A` twice, which no instance of
the rule has. -/
theorem C78_fails_rollback : ∃ (toks : Nat → Nat) (t : Tree) (n : Nat),
    parse { G := rollbackG, toks := toks, eof := 0, oracle := fun _ => true, depth := 10 } 20 0 { pos := 0, asked := 0 } = some (some t, 2, n) ∧
    t = .node 0 0 1 [("x", true, [.tok 0, .tok 0])] ∧ ¬ Built rollbackG toks 0 (.node 0 t) 0 2 := by
  refine ⟨fun p => [1, 3].getD p 0, .node 0 0 1 [("x", true, [.tok 0, .tok 0])], 1, rfl, rfl, ?_⟩
  intro h
  generalize hz : (0 : Int) = z at h
  generalize ho : (1 : Int) = o at h
  cases h with
  | @node i j s r ev vars hr hb hs hh =>
    simp only [rollbackG, if_true, List.mem_singleton] at hr
    subst hr
    have h1 := hh.1 "x" true _ List.mem_cons_self
    have h2 := (fine hb).1
    have h3 := h2.sublist (collected_sublist ev "x" true)
    rw [← h1] at h3
    cases h3 with
    | cons _ s1 _ h4 =>
      cases h4 with
      | cons l2 s2 _ _ =>
        have := s1.2
        have := s2.1
        omega

/-- A value inside another one. -/
inductive Inside : Tree → Tree → Prop
  | self {t} : Inside t t
  | member {t d s a b vars n q v} : (n, q, v) ∈ vars → d ∈ v → Inside t d → Inside t (.node s a b vars)

/-- C79 (partial): in the tree of a successful parse each node's range is sensible, and the values of each of its members lie inside this range, in order and
without overlap.  Missing as in C78. -/
theorem C79_nesting_partial (W : World) (hG : ∀ s r, r ∈ W.G.rules s → TryPlain r.item) {f s : Nat} {st : St} {t : Tree} {p n : Nat}
    (h : parse W f s st = some (some t, p, n)) : Spans t st.pos p ∧
    ∀ s' a b vars, Inside (.node s' a b vars) t → a ≤ b + 1 ∧ ∀ m q v, (m, q, v) ∈ vars → Ordered v a (b + 1) := by
  have hb := (sound W hG f).2 s st t p n h
  refine ⟨(fine hb).1, ?_⟩
  clear h
  have key : ∀ x y : Tree, Inside x y → ∀ (s : Nat) (i j : Nat), Built W.G W.toks W.eof (.node s y) i j → ∀ s' a b vars, x = .node s' a b vars →
      a ≤ b + 1 ∧ ∀ m q v, (m, q, v) ∈ vars → Ordered v a (b + 1) := by
    intro x y hi
    induction hi with
    | self =>
      intro s i j hb s' a b vars hx
      subst hx
      have hf := fine hb
      cases hb with
      | node hr hb hs hh =>
        have h1 := hf.2
        refine ⟨by omega, fun m q v hv => ?_⟩
        rw [hh.1 m q v hv, Int.sub_add_cancel]
        exact (fine hb).1.sublist (collected_sublist _ _ _)
    | @member d s a b vars n q v hv hd hin ih =>
      intro s0 i j hb s' a' b' vars' hx
      cases hb with
      | @node _ _ _ r ev _ hr hb hs hh =>
        have h1 := hh.1 n q v hv
        rw [h1] at hd
        have h2 := (collected_sublist ev n q).subset hd
        obtain ⟨⟨dd, d'⟩, hp, rfl⟩ := List.mem_map.1 h2
        have h3 := (fine hb).2 _ hp
        cases d' with
        | tok k =>
          subst hx
          cases hin
        | node s1 a1 b1 v1 =>
          obtain ⟨i', j', h4⟩ := h3
          exact ih s1 i' j' h4 s' a' b' vars' hx
  exact fun s' a b vars hi => key _ _ hi s _ _ hb s' a b vars rfl

example : Inside (.node 1 1 1 [("z", false, [.tok 1])]) (.node 0 0 2 [("x", true, [.tok 0, .tok 2]), ("y", true, [.node 1 1 1 [("z", false, [.tok 1])]])]) :=
  .member (n := "y") (q := true) (.tail _ (.head _)) (List.mem_singleton.2 rfl) .self

/-- C79 fails with annotations below `try`: the values overlap. -/
theorem C79_fails_rollback : ∃ (toks : Nat → Nat) (a b : Int) (v : List Tree) (n : Nat),
    parse { G := rollbackG, toks := toks, eof := 0, oracle := fun _ => true, depth := 10 } 20 0 { pos := 0, asked := 0 } =
      some (some (.node 0 a b [("x", true, v)]), 2, n) ∧ ¬ Ordered v a (b + 1) := by
  refine ⟨fun p => [1, 3].getD p 0, 0, 1, [.tok 0, .tok 0], 1, rfl, ?_⟩
  intro h3
  cases h3 with
  | cons _ s1 _ h4 =>
    cases h4 with
    | cons l2 s2 _ _ =>
      have := s1.2
      have := s2.1
      omega

end Verif.Vars
