import Verif.Grammar.Check
import Verif.Grammar.Term

/-!
# Properties of nullability and the FIRST sets

`Wf W` is what the parser and the rewriting guarantee (`C43_rewriting`); `OpsOk`, `BareOk` and `LeadOk` restrict the grammar, see
Spec.lean.  The negations below show what goes wrong without them.
-/

namespace Verif.Grammar

variable {W : World} {F : Sets}

/-! ### C34 -/

/-- With the final FIRST sets `reducesToEpsilon` always has an answer, and answers yes for every item that can be empty.  (Rules
themselves are never asked about.) -/
theorem C34_nullable_partial (hw : Wf W) (ho : OpsOk W) (hb : BareOk W) {f k : Nat} (hF : computeFirst W f k = some F) {n : Nat} {it : Item}
    (hn : W.node n = some it) (hne : ∀ i s, it ≠ .evolve i s) (h : Nullable W n) : reduces W F n = some true := by
  obtain ⟨b, hr⟩ := reduces_total (F := F) hw ⟨it, hn⟩
  obtain ⟨hq, hi⟩ := computeFirst_quiet hF
  rcases (nz_first hw hq hi (nz_of_null ho hb h rfl)).2 with ⟨i, s, h⟩ | h
  · rw [hn] at h; cases h; exact absurd rfl (hne i s)
  · rw [hr, reduces_of_says h hr]

/-- For the items as written: the answer is yes exactly for those that can be empty, if no item starts both sides of a choice. -/
theorem C34_exact_partial (hw : Wf W) (ho : OpsOk W) (hb : BareOk W) (hl : LeadOk W) {f k : Nat} (hF : computeFirst W f k = some F) {n : Nat} {it : Item}
    (hn : W.node n = some it) (hne : ∀ i s, it ≠ .evolve i s) (hp : n < W.parsed) :
    ∃ b, reduces W F n = some b ∧ (b = true ↔ Nullable W n) := by
  obtain ⟨b, hr⟩ := reduces_total (F := F) hw ⟨it, hn⟩
  refine ⟨b, hr, fun h => ?_, fun h => ?_⟩
  · subst h; exact reduces_parsed hw hl (computeFirst_sound hw hl ho hF) hp hr
  · have := C34_nullable_partial hw ho hb hF hn hne h
    rw [hr] at this; exact Option.some.inj this

/-- `?A` (14) and the `*` (11) can be empty, the sequences around them cannot. -/
example : reduces sampleList sampleFirst 14 = some true ∧ reduces sampleList sampleFirst 11 = some true ∧
    reduces sampleList sampleFirst 16 = some false ∧ reduces sampleList sampleFirst 12 = some false := by decide +kernel

example : ∃ b, reduces sampleList sampleFirst 14 = some b ∧ (b = true ↔ Nullable sampleList 14) :=
  C34_exact_partial sample_wf sample_lead.2 sample_bare sample_lead.1 sample_first (it := .alt 1 0) (by decide +kernel) (by simp) (by decide +kernel)

example : Nullable sampleList 14 := .altR (by decide +kernel : sampleList.node 14 = some (.alt 1 0)) (.zero (by decide +kernel))

/-- `(A | A) -> x`. -/
def twiceA : World := {
  heap := [.zero, .term, .alt 1 1, .sym, .evolve 2 3], parsed := 5, rules := [4], zero := 0, terminals := [1], start := [3], bnf := fun _ => none }

/-- A token that starts two alternatives makes the choice count as possibly empty, although it is not. -/
theorem C34_fails_shared_token : Wf twiceA ∧ OpsOk twiceA ∧ BareOk twiceA ∧ ∃ F, computeFirst twiceA 20 5 = some F ∧ reduces twiceA F 2 = some true ∧ ¬ Nullable twiceA 2 := by
  have ho : OpsOk twiceA := by
    intro n o h
    have := List.mem_of_getElem? h
    simp [twiceA] at this
  refine ⟨wf_of_wfB (by decide +kernel), ho, bareOk_of_none ho (of_noBare (by decide +kernel)), (computeFirst twiceA 20 5).getD [], by decide +kernel, by decide +kernel, fun h => ?_⟩
  have := null_of_nullOk (nb := fun n => n = 0) (by decide +kernel) h
  simp at this

/-- `([: code :] | A) -> x;  x B -> y`. -/
def bareAction : World := {
  heap := [.zero, .term, .action none, .alt 2 1, .sym, .evolve 3 4, .nonterm 4, .term, .cons 6 7, .sym, .evolve 8 9], parsed := 11, rules := [5, 10], zero := 0,
  terminals := [1, 7], start := [9], bnf := fun _ => none }

/-- A symbol that can be empty by a bare action alone does not count as possibly empty. -/
theorem C34_fails_bare_action : Wf bareAction ∧ OpsOk bareAction ∧ LeadOk bareAction ∧
    ∃ F, computeFirst bareAction 20 5 = some F ∧ Nullable bareAction 6 ∧ reduces bareAction F 6 = some false := by
  have hw : Wf bareAction := wf_of_wfB (by decide +kernel)
  have h := of_leadB (nb := fun n => [0, 2, 3, 4, 5, 6].contains n) (S := starts bareAction (fun n => [0, 2, 3, 4, 5, 6].contains n) 4) hw (by decide +kernel)
  refine ⟨hw, h.2, h.1, (computeFirst bareAction 20 5).getD [], by decide +kernel, ?_, by decide +kernel⟩
  exact .nonterm (s := 4) (by decide +kernel) (.expand (r := 5) (i := 3) (by decide +kernel) (by decide +kernel) (by decide +kernel)
    (.altL (l := 2) (r := 1) (by decide +kernel) (.action0 (by decide +kernel))))

/-! ### C35 -/

/-- Every declared token that can start an item of the grammar (a rule or a part of one) is in the FIRST set of the item. -/
theorem C35_tokens_partial (hw : Wf W) (ho : OpsOk W) (hb : BareOk W) {f k : Nat} (hF : computeFirst W f k = some F) {n t : Nat} {γ : List Nat}
    (hn : Occurs W n) (ht : t ∈ W.terminals) (hd : Der W n (t :: γ)) : (n, t) ∈ F := by
  obtain ⟨hq, hi⟩ := computeFirst_quiet hF
  exact tok_first hw hq hi ho hb hd rfl (hw.terminals t ht) (hi _ (by simp [initFirst]; exact .inr ht)) (.inl (occurs_seen hw hq hn))

/-- The same for symbols. -/
theorem C35_symbols_partial (hw : Wf W) (ho : OpsOk W) (hb : BareOk W) {f k : Nat} (hF : computeFirst W f k = some F) {s t : Nat} {γ : List Nat}
    (hs : W.node s = some .sym) (ht : t ∈ W.terminals) (hd : Der W s (t :: γ)) : (s, t) ∈ F := by
  obtain ⟨hq, hi⟩ := computeFirst_quiet hF
  exact tok_first hw hq hi ho hb hd rfl (hw.terminals t ht) (hi _ (by simp [initFirst]; exact .inr ht)) (.inr hs)

/-- The FIRST set of a symbol that can be empty has the end marker. -/
theorem C35_empty_partial (hw : Wf W) (hb : BareOk W) {f k : Nat} (hF : computeFirst W f k = some F) {s : Nat} (hs : W.node s = some .sym)
    (hd : Nullable W s) : (s, W.zero) ∈ F := by
  obtain ⟨hq, hi⟩ := computeFirst_quiet hF
  exact (nz_first hw hq hi (hb s hs hd)).1 rfl (.inr hs)

theorem sample_starts : Der sampleList 13 [2, 3, 6] := by
  have hi : Der sampleList 6 [2] := .expand (r := 17) (i := 16) (by decide +kernel) (by decide +kernel) (by decide +kernel)
    (.cons (l := 14) (r := 15) (α := []) (β := [2]) (by decide +kernel) (.altR (l := 1) (r := 0) (by decide +kernel) (.zero (by decide +kernel)))
      (.nonterm (s := 7) (by decide +kernel) (.expand (r := 22) (i := 19) (by decide +kernel) (by decide +kernel) (by decide +kernel)
        (.opBase (o := { base := 20, pre := [4], bin := [21] }) (by decide +kernel) (.nonterm (s := 18) (by decide +kernel)
          (.expand (r := 23) (i := 2) (by decide +kernel) (by decide +kernel) (by decide +kernel) (.term (by decide +kernel))))))))
  exact .evolve (i := 12) (s := 5) (by decide +kernel) (.cons (l := 8) (r := 11) (α := [2]) (β := [3, 6]) (by decide +kernel)
    (.nonterm (s := 6) (by decide +kernel) hi) (.starS (i := 10) (α := [3, 6]) (β := []) (by decide +kernel)
      (.cons (l := 3) (r := 9) (α := [3]) (β := [6]) (by decide +kernel) (.term (by decide +kernel))
        (.nonterm (s := 6) (by decide +kernel) (.sym (by decide +kernel)))) (.star0 (i := 10) (by decide +kernel))))

example : (13, 2) ∈ sampleFirst :=
  C35_tokens_partial sample_wf sample_lead.2 sample_bare sample_first (.rule (by decide +kernel)) (by decide +kernel) sample_starts

/-- The end marker is missing from the FIRST set of an item that can be empty if something that cannot be empty follows it: here the item
`?A` (14) in `?A expr -> item`.  (The analyses ask `reducesToEpsilon`, not the FIRST sets of such items.) -/
theorem C35_fails_nested_empty : Occurs sampleList 14 ∧ Nullable sampleList 14 ∧ (14, sampleList.zero) ∉ sampleFirst := by
  refine ⟨.part (.part (.rule (r := 17) (by decide +kernel)) (.evolve (i := 16) (s := 6) (by decide +kernel))) (.consL (l := 14) (r := 15) (by decide +kernel)),
    .altR (by decide +kernel : sampleList.node 14 = some (.alt 1 0)) (.zero (by decide +kernel)), by decide +kernel⟩

/-- `EOF -> x`, where the token is not declared; `globalSystem.terminals` does not have it when the FIRST sets are computed. -/
def undeclared : World := {
  heap := [.zero, .term, .sym, .evolve 1 2], parsed := 4, rules := [3], zero := 0, terminals := [], start := [2], bnf := fun _ => none }

/-- The FIRST set of a token that is not declared is empty, and so are those of all items that start with it only. -/
theorem C35_fails_undeclared : Wf undeclared ∧ Der undeclared 2 [1] ∧ ∃ F, computeFirst undeclared 20 5 = some F ∧ (2, 1) ∉ F := by
  refine ⟨wf_of_wfB (by decide +kernel), .expand (r := 3) (i := 1) (by decide +kernel) (by decide +kernel) (by decide +kernel) (.term (by decide +kernel)),
    (computeFirst undeclared 20 5).getD [], by decide +kernel, by decide +kernel⟩

/-! ### C36 -/

/-- Every element of a FIRST set belongs there: the end marker only if the item can be empty, a token only if it starts some form derived
from the item.  This covers the nodes made by the rewriting, too. -/
theorem C36_sound_partial (hw : Wf W) (ho : OpsOk W) (hl : LeadOk W) {f k : Nat} (hF : computeFirst W f k = some F) {n e : Nat} (h : (n, e) ∈ F) :
    (e = W.zero ∧ Nullable W n) ∨ (W.node e = some .term ∧ ∃ γ, Der W n (e :: γ)) := by
  rcases computeFirst_sound hw hl ho hF n e h with ⟨h1, h2⟩ | h
  · exact .inl ⟨hw.oneZero e h1, h2⟩
  · exact .inr h

/-- FIRST(item) = {A, B, MINUS} in the sample. -/
example : ∃ γ, Der sampleList 6 (4 :: γ) := by
  rcases C36_sound_partial sample_wf sample_lead.2 sample_lead.1 sample_first (n := 6) (e := 4) (by decide +kernel) with ⟨h, _⟩ | ⟨_, h⟩
  · exact absurd h (by decide +kernel)
  · exact h

example : (List.range 40).filter (fun e => (6, e) ∈ sampleFirst) = [1, 2, 4] := by decide +kernel

/-- `B -> prim`, and `expr` with prefix operator `MINUS` (1) and binary operators `MINUS` and `PLUS` (9). -/
def sharedMinus : World := rewrite {
  heap := [.zero, .term, .sym, .sym, .term, .op { base := 6, pre := [1], bin := [1, 9] }, .nonterm 2, .evolve 5 3, .evolve 4 2, .term], parsed := 0,
  rules := [7, 8], zero := 0, terminals := [1, 4, 9], start := [3], bnf := fun _ => none } [5]

/-- If a token is both a prefix and a binary operator, the FIRST set of the expression also gets the binary operators, though no expression
starts with `PLUS`. -/
theorem C36_fails_shared_operator : Wf sharedMinus ∧ OpsOk sharedMinus ∧ BareOk sharedMinus ∧
    ∃ F, computeFirst sharedMinus 200 9 = some F ∧ (3, 9) ∈ F ∧ ¬ ∃ γ, Der sharedMinus 3 (9 :: γ) := by
  have ho : OpsOk sharedMinus := by
    intro n o hn h
    have h1 := List.mem_of_getElem? hn
    simp [sharedMinus, rewrite, addBnf, World.node, bnfOp, opNodes, OpItem.bodies, OpBody.nodes] at h1
    subst h1
    have := null_of_nullOk (nb := fun n => n = 0) (by decide +kernel) h
    simp at this
  refine ⟨wf_of_wfB (by decide +kernel), ho, bareOk_of_none ho (of_noBare (by decide +kernel)), (computeFirst sharedMinus 200 9).getD [], by decide +kernel,
    by decide +kernel, ?_⟩
  rintro ⟨γ, h⟩
  have := lead_of_leadsOk (nb := fun n => n = 0) (L := fun n => if n = 0 then [] else if n = 9 then [9] else if n = 1 then [1] else if n = 4 then [4] else
    if n = 2 ∨ n = 6 ∨ n = 8 then [2, 4] else if n ≥ 10 ∧ sharedMinus.node n = some (.cons 9 10) then [9] else [1, 2, 3, 4]) (by decide +kernel) h
  simp at this

/-! ### C38 -/

/-- The computation of the FIRST sets ends: neither the recursion (`f`) nor the number of rounds (`k`) is unbounded. -/
theorem C38_first (hw : Wf W) (ht : W.terminals.Nodup) {f k : Nat} (hf : enough W ≤ f) (hk : W.heap.length * W.heap.length < k) :
    ∃ F, computeFirst W f k = some F := firstLoop_total hw hf k _ (init_bounded hw ht) (by omega)

/-- The computation of the FOLLOW sets ends, whatever the FIRST sets are. -/
theorem C38_follow (hw : Wf W) {eof : Nat} (he : W.node eof = some .term) {f k : Nat} (hf : enough W ≤ f)
    (hk : W.heap.length * W.heap.length + 1 < k) : ∃ S, computeFollow W F eof f k = some S :=
  followLoop_first hw hf (initFollow_bounded hw he) hk

example : ∃ F, computeFirst sampleList (enough sampleList) 3000 = some F := C38_first sample_wf (by decide +kernel) (Nat.le_refl _) (by decide +kernel)

example : ∃ S, computeFollow sampleList sampleFirst 24 (enough sampleList) 3000 = some S :=
  C38_follow sample_wf (by decide +kernel) (Nat.le_refl _) (by decide +kernel)

end Verif.Grammar
