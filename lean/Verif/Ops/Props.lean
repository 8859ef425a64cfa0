import Verif.Ops.Main

/-!
# C50, C66: the trees of operator expressions

The full claim of C50 is: for each run of operators and operands (`r.Fits false`, `r.Small`), the function ends with the nodes of the one expression that is
written so and in accordance with priorities and associativity (`parse r pos = some st`, `st.root = some w`, `Shows st.heap t w pos U`, where
`t.Ok ∧ t.write .stop = r`).  It is false where a ternary operator does not get all that was read before it (`C50_fails_ternary`, `C50_fails_chain`), and where
a postfix operator follows the third operand of one (`C50_fails_postfix`).
-/

namespace Verif.Ops

/-- Each run is written by exactly one expression that is in accordance with priorities and associativity (ternary operators included): what the nodes should
be is determined. -/
theorem C50_determined (r : Run) (h : r.Fits false) : ∃ t : Tree, t.Ok ∧ t.write .stop = r ∧ ∀ u : Tree, u.Ok → u.write .stop = r → u = t := by
  obtain ⟨t, e⟩ := run_total (fs := []) (o := none) r h
  obtain ⟨h1, h2⟩ := run_sound r e trivial fun u hu => by cases hu
  refine ⟨t, h1, h2, fun u hu he => ?_⟩
  have := run_of_write hu
  rw [he, e] at this
  cases this
  rfl

/-- Partial: for each expression in accordance with priorities and associativity in which no right operand starts with a ternary operator's first operand and
no third operand with that of a postfix operator, the nodes are those of the expression; no node is used twice, and the span of each node is the tokens of
its expression. -/
theorem C50_tree_partial (t : Tree) (hok : t.Ok) (hsm : t.Small) (hpl : t.Plain) (pos : Int) : ∃ st w U, parse (t.write .stop) pos = some st ∧
    st.root = some w ∧ Shows st.heap t w pos U ∧ U.Nodup ∧ st.pos = pos + t.size :=
  parse_tree hok hsm hpl pos

/-- Partial: without ternary operators, for each run there is exactly one expression that is written so and is in accordance with priorities and
associativity, and its nodes are made. -/
theorem C50_run_partial (r : Run) (h : r.Fits false) (hs : r.Small) (hn : r.NoTern) (pos : Int) : ∃ t : Tree, t.Ok ∧ t.write .stop = r ∧
    (∀ u : Tree, u.Ok → u.write .stop = r → u = t) ∧ ∃ st w U, parse r pos = some st ∧ st.root = some w ∧ Shows st.heap t w pos U ∧ U.Nodup := by
  obtain ⟨t, h1, h2, h3⟩ := C50_determined r h
  have hs' : t.Small := ((small_write t).1 (by rw [h2]; exact hs)).1
  have hp : t.Plain := (leftTern_write t (k := .stop) (by rw [h2]; exact hn)).2.2
  obtain ⟨st, w, U, e1, e2, e3, e4, _⟩ := parse_tree h1 hs' hp pos
  exact ⟨t, h1, h2, h3, st, w, U, by rw [← h2]; exact e1, e2, e3, e4⟩

/-- The tokens of a run. -/
def Run.tokens : Run → Nat
  | .stop => 0
  | .base n k => n + k.tokens
  | .pre _ k => 1 + k.tokens
  | .paren i k => 2 + i.tokens + k.tokens
  | .post _ k => 1 + k.tokens
  | .bin _ k => 1 + k.tokens
  | .tern _ i k => 2 + i.tokens + k.tokens

theorem tokens_write (t : Tree) : ∀ k : Run, (t.write k).tokens = t.size + k.tokens := by
  induction t with
  | base n => intro k; rfl
  | paren t ih => intro k; simp only [Tree.write, Run.tokens, Tree.size, ih]; omega
  | pre o t ih => intro k; simp only [Tree.write, Run.tokens, Tree.size, ih]; omega
  | post o t ih => intro k; simp only [Tree.write, Run.tokens, Tree.size, ih]; omega
  | bin o l r ihl ihr => intro k; simp only [Tree.write, Run.tokens, Tree.size, ihl, ihr]; omega
  | tern o l m r ihl ihm ihr => intro k; simp only [Tree.write, Run.tokens, Tree.size, ihl, ihm, ihr]; omega

/-- Partial (no ternary operators): the node that is returned starts with the first token and ends with the last token of the expression, all of its tokens
are consumed. -/
theorem C66_span_partial (r : Run) (h : r.Fits false) (hs : r.Small) (hn : r.NoTern) (pos : Int) : ∃ st w x, parse r pos = some st ∧ st.root = some w ∧
    st.heap[w]? = some x ∧ x.start = pos ∧ x.stop = pos + r.tokens - 1 ∧ st.pos = pos + r.tokens := by
  obtain ⟨t, h1, h2, _⟩ := C50_determined r h
  have hs' : t.Small := ((small_write t).1 (by rw [h2]; exact hs)).1
  have hp : t.Plain := (leftTern_write t (k := .stop) (by rw [h2]; exact hn)).2.2
  obtain ⟨st, w, U, e1, e2, ⟨_, x, e3, e4, e5⟩, _, e6⟩ := parse_tree h1 hs' hp pos
  have ht : r.tokens = t.size := by rw [← h2, tokens_write]; rfl
  exact ⟨st, w, x, by rw [← h2]; exact e1, e2, e3, e4, by rw [ht]; exact e5, by rw [ht]; exact e6⟩

/-! ### Cases -/

def plus : Op := ⟨1, 10, 1⟩
def times : Op := ⟨2, 20, 1⟩
def power : Op := ⟨3, 30, 0⟩
def assign : Op := ⟨4, 2, 0⟩
def minus : Op := ⟨5, 25, 1⟩
def incr : Op := ⟨6, 40, 1⟩
def cond : Op := ⟨7, 5, 0⟩

/-- `a + b * c + (d = - e ^ f ++)` -/
def sample : Run :=
  .base 1 (.bin plus (.base 1 (.bin times (.base 1 (.bin plus (.paren (.base 1 (.bin assign (.pre minus (.base 1 (.bin power (.base 1 (.post incr .stop))))))) .stop))))))

def sampleTree : Tree :=
  .bin plus (.bin plus (.base 1) (.bin times (.base 1) (.base 1)))
    (.paren (.bin assign (.base 1) (.pre minus (.bin power (.base 1) (.post incr (.base 1))))))

example : sample.Fits false ∧ sample.Small ∧ sample.NoTern ∧ sampleTree.write .stop = sample := by
  refine ⟨?_, ?_, ?_, rfl⟩ <;> simp [sample, Run.Fits, Run.Small, Run.NoTern, plus, times, power, assign, minus, incr]

example : sampleTree.Ok := by
  simp [sampleTree, Tree.Ok, Tree.leftEdge, Tree.rightEdge, First, plus, times, power, assign, minus, incr]

/-- `a + b ? c = d : e` is plain: the sum is all that is before `?`. -/
def condTree : Tree := .tern cond (.bin plus (.base 1) (.base 1)) (.bin assign (.base 1) (.base 1)) (.base 1)

example : condTree.Ok ∧ condTree.Small ∧ condTree.Plain := by
  refine ⟨?_, ?_, ?_⟩ <;> simp [condTree, Tree.Ok, Tree.Small, Tree.Plain, Tree.leftEdge, Tree.rightEdge, Tree.leftTern, Tree.leftPost, First, plus, assign, cond]

example : parse (condTree.write .stop) 0 = some
    { root := some 3, stack := [(6 + 1, operand), (3, 5)], pos := 9
      heap := [⟨.base, ⟨0, 0, 0⟩, none, none, none, 0, 0⟩, ⟨.bin, plus, some 0, some 2, none, 0, 2⟩, ⟨.base, ⟨0, 0, 0⟩, none, none, none, 2, 2⟩,
        ⟨.tern, cond, some 1, some 5, some 7, 0, 8⟩, ⟨.base, ⟨0, 0, 0⟩, none, none, none, 4, 4⟩, ⟨.bin, assign, some 4, some 6, none, 4, 6⟩,
        ⟨.base, ⟨0, 0, 0⟩, none, none, none, 6, 6⟩, ⟨.base, ⟨0, 0, 0⟩, none, none, none, 8, 8⟩] } := by decide +kernel

/-! ### Failures -/

/-- `a ? b : c ++` -/
def postTree : Tree := .tern cond (.base 1) (.base 1) (.post incr (.base 1))

/-- A postfix operator on the third operand of a ternary operator becomes its first operand (the reference is taken as if the node were a binary one), though
it binds more tightly: the third operand stays without it, the first operand is lost. -/
theorem C50_fails_postfix : postTree.Ok ∧ postTree.Small ∧ ∃ st w x, parse (postTree.write .stop) 0 = some st ∧ st.root = some w ∧ st.heap[w]? = some x ∧
    (∃ p y, x.first = some p ∧ st.heap[p]? = some y ∧ y.kind = .post ∧ y.first = x.third) ∧ ∀ s F, ¬ Shows st.heap postTree w s F := by
  refine ⟨by simp [postTree, Tree.Ok, Tree.leftEdge, Tree.rightEdge, First, cond, incr], by simp [postTree, Tree.Small, cond, incr],
    { root := some 1, stack := [(4, operand), (1, 5)], pos := 6
      heap := [⟨.base, ⟨0, 0, 0⟩, none, none, none, 0, 0⟩, ⟨.tern, cond, some 4, some 2, some 3, 0, 5⟩, ⟨.base, ⟨0, 0, 0⟩, none, none, none, 2, 2⟩,
        ⟨.base, ⟨0, 0, 0⟩, none, none, none, 4, 4⟩, ⟨.post, incr, some 3, none, none, 4, 5⟩] },
    1, ⟨.tern, cond, some 4, some 2, some 3, 0, 5⟩, by decide +kernel, rfl, rfl, ⟨4, _, rfl, rfl, rfl, rfl⟩, fun s F h => ?_⟩
  obtain ⟨⟨c, d, e, G, G', G'', _, ⟨x, h1, _, _, _, _, h2⟩, _, _, ⟨c', G3, _, ⟨y, h3, h4, _⟩, _⟩, _⟩, _⟩ := h
  cases h1
  cases h2
  cases h3
  cases h4

/-- `a = b ? c : d`, with a ternary operator that binds more tightly than `=` -/
def rightTree : Tree := .bin assign (.base 1) (.tern cond (.base 1) (.base 1) (.base 1))

/-- A ternary operator that does not get all that was read before it: the part between `?` and `:` is read on as its second operand by the loop, which does not
know `:` and ends there.  No third operand is read, the token `:` and what follows are left. -/
theorem C50_fails_ternary : rightTree.Ok ∧ rightTree.Small ∧ ∃ st w, parse (rightTree.write .stop) 0 = some st ∧ st.root = some w ∧
    st.pos < rightTree.size ∧ (∃ x ∈ st.heap, x.kind = .tern ∧ x.third = none) ∧ ∀ s F, ¬ Shows st.heap rightTree w s F := by
  refine ⟨by simp [rightTree, Tree.Ok, Tree.leftEdge, Tree.rightEdge, First, cond, assign], by simp [rightTree, Tree.Small, cond, assign],
    { root := some 1, stack := [(4, operand), (3, 5), (1, 2)], pos := 5
      heap := [⟨.base, ⟨0, 0, 0⟩, none, none, none, 0, 0⟩, ⟨.bin, assign, some 0, some 3, none, 0, 4⟩, ⟨.base, ⟨0, 0, 0⟩, none, none, none, 2, 2⟩,
        ⟨.tern, cond, some 2, some 4, none, 2, 4⟩, ⟨.base, ⟨0, 0, 0⟩, none, none, none, 4, 4⟩] },
    1, by decide +kernel, rfl, by decide +kernel, ⟨_, List.mem_cons_of_mem _ (List.mem_cons_of_mem _ (List.mem_cons_of_mem _ List.mem_cons_self)), rfl, rfl⟩, fun s F h => ?_⟩
  obtain ⟨⟨c, d, G, G', _, ⟨x, h1, _, _, _, h2⟩, _, ⟨c', d', e', G1, G2, G3, _, ⟨y, h3, _, _, _, _, h4⟩, _⟩, _⟩, _⟩ := h
  cases h1
  cases h2
  cases h3
  cases h4

/-- `a ? b : c ? d : e` with a right-associative operator -/
def chainTree : Tree := .tern cond (.base 1) (.base 1) (.tern cond (.base 1) (.base 1) (.base 1))

/-- The usual chain of ternary operators is not read either. -/
theorem C50_fails_chain : chainTree.Ok ∧ chainTree.Small ∧ ∃ st, parse (chainTree.write .stop) 0 = some st ∧ st.pos < chainTree.size ∧
    ∃ x ∈ st.heap, x.kind = .tern ∧ x.third = none := by
  refine ⟨by simp [chainTree, Tree.Ok, Tree.leftEdge, Tree.rightEdge, First, cond], by simp [chainTree, Tree.Small, cond],
    { root := some 1, stack := [(5, operand), (4, 5), (1, 5)], pos := 7
      heap := [⟨.base, ⟨0, 0, 0⟩, none, none, none, 0, 0⟩, ⟨.tern, cond, some 0, some 2, some 4, 0, 6⟩, ⟨.base, ⟨0, 0, 0⟩, none, none, none, 2, 2⟩,
        ⟨.base, ⟨0, 0, 0⟩, none, none, none, 4, 4⟩, ⟨.tern, cond, some 3, some 5, none, 4, 6⟩, ⟨.base, ⟨0, 0, 0⟩, none, none, none, 6, 6⟩] },
    by decide +kernel, by decide +kernel, ⟨.tern, cond, some 3, some 5, none, 4, 6⟩, by decide +kernel, rfl, rfl⟩

end Verif.Ops
