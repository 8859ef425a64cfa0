import Verif.Grammar.FollowSound
import Verif.Grammar.FirstProps

/-!
# Properties of the FOLLOW sets

The conditions are those of FirstProps.lean.
-/

namespace Verif.Grammar

variable {W : World} {F S : Sets}

/-- C37: if a declared token follows a symbol in a form derived from some symbol, it is in the FOLLOW set of the former, and if a symbol
ends a form derived from a start symbol with a rule, the end of the input is in its FOLLOW set. -/
theorem C37_follow_partial (hw : Wf W) (ho : OpsOk W) (hb : BareOk W) {eof f k f' k' : Nat} (he : W.node eof = some .term)
    (hF : computeFirst W f k = some F) (hS : computeFollow W F eof f' k' = some S) {s : Nat} (hs : W.node s = some .sym) :
    (∀ s₀ t α β, W.node s₀ = some .sym → t ∈ W.terminals → Der W s₀ (α ++ s :: t :: β) → (s, t) ∈ S) ∧
    (∀ s₀ r i α, s₀ ∈ W.start → r ∈ W.rules → W.node r = some (.evolve i s₀) → Der W s₀ (α ++ [s]) → (s, eof) ∈ S) := by
  obtain ⟨hq, hi⟩ := computeFirst_quiet hF
  obtain ⟨hq', hi'⟩ := followLoop_quiet _ _ _ hS
  refine ⟨fun s₀ t α β h0 ht hd => ?_, fun s₀ r i α h0 hr hn hd => ?_⟩
  · exact (follow_complete hw hq hi ho hb hq' (derB_of_der hw hd) (.inr h0)).1 α s t β rfl hs ht
  · exact (follow_complete hw hq hi ho hb hq' (derB_of_der hw hd) (.inr (hw.symbols r s₀ (.inr (.inr ⟨i, hn⟩))))).2 α s eof rfl hs he
      (hi' _ (mem_initFollow hr hn h0))

def sampleFollow : Sets := (computeFollow sampleList sampleFirst 24 200 20).getD []

theorem sample_follow : computeFollow sampleList sampleFirst 24 200 20 = some sampleFollow := by decide +kernel

/-- In the sample `item COMMA item` is derived from `list`: `COMMA` (3) and the end (24) are in FOLLOW(item). -/
theorem sample_pair : Der sampleList 5 [6, 3, 6] :=
  .expand (r := 13) (i := 12) (by decide +kernel) (by decide +kernel) (by decide +kernel)
    (.cons (l := 8) (r := 11) (α := [6]) (β := [3, 6]) (by decide +kernel) (.nonterm (s := 6) (by decide +kernel) (.sym (by decide +kernel)))
      (.starS (i := 10) (α := [3, 6]) (β := []) (by decide +kernel)
        (.cons (l := 3) (r := 9) (α := [3]) (β := [6]) (by decide +kernel) (.term (by decide +kernel))
          (.nonterm (s := 6) (by decide +kernel) (.sym (by decide +kernel)))) (.star0 (i := 10) (by decide +kernel))))

example : (6, 3) ∈ sampleFollow ∧ (6, 24) ∈ sampleFollow := by
  have h := C37_follow_partial sample_wf sample_lead.2 sample_bare (by decide +kernel) sample_first sample_follow (s := 6) (by decide +kernel)
  exact ⟨h.1 5 3 [] [6] (by decide +kernel) (by decide +kernel) sample_pair,
    h.2 5 13 12 [6, 3] (by decide +kernel) (by decide +kernel) (by decide +kernel) sample_pair⟩

/-- FOLLOW(expr) = FOLLOW(item) = {COMMA, EOF}, FOLLOW(prim) = {COMMA, PLUS, EOF}. -/
example : (List.range 40).filter (fun e => (7, e) ∈ sampleFollow) = [3, 24] ∧ (List.range 40).filter (fun e => (18, e) ∈ sampleFollow) = [3, 21, 24] := by
  decide +kernel

/-- C62: the FOLLOW sets of symbols have nothing else: every element follows the symbol in a form derived from some symbol, or is the end
of the input and the symbol ends a form derived from a start symbol. -/
theorem C62_sound_partial (hw : Wf W) (ho : OpsOk W) (hl : LeadOk W) {eof f k f' k' : Nat} (hF : computeFirst W f k = some F)
    (hS : computeFollow W F eof f' k' = some S) {s e : Nat} (hs : W.node s = some .sym) (h : (s, e) ∈ S) :
    (∃ s₀ α β, W.node s₀ = some .sym ∧ Der W s₀ (α ++ s :: e :: β)) ∨ (e = eof ∧ ∃ s₀ α, s₀ ∈ W.start ∧ Der W s₀ (α ++ [s])) := by
  rcases computeFollow_sound hw hl ho (computeFirst_sound hw hl ho hF) hS s e h with ⟨s₀, α, β, h1, h2⟩ | ⟨rfl, s₀, α, h1, h2⟩
  · exact .inl ⟨s₀, α, β, h1, by simpa using h2 [s] (.sym hs)⟩
  · exact .inr ⟨rfl, s₀, α, h1, h2 [s] (.sym hs)⟩

/-- `PLUS` (21) follows `prim` (18). -/
example : ∃ s₀ α β, sampleList.node s₀ = some .sym ∧ Der sampleList s₀ (α ++ 18 :: 21 :: β) := by
  rcases C62_sound_partial sample_wf sample_lead.2 sample_lead.1 sample_first sample_follow (s := 18) (e := 21) (by decide +kernel) (by decide +kernel) with h | ⟨h, _⟩
  · exact h
  · exact absurd h (by decide)

/-- `([: code :] | A) -> x;  y x B -> z;  A -> y`. -/
def bareFollow : World := {
  heap := [.zero, .term, .action none, .alt 2 1, .sym, .evolve 3 4, .nonterm 4, .term, .cons 6 7, .sym, .sym, .nonterm 9, .cons 11 8, .evolve 12 10, .evolve 1 9, .term],
  parsed := 16, rules := [5, 13, 14], zero := 0, terminals := [1, 7], start := [10], bnf := fun _ => none }

/-- A symbol that can be empty by a bare action alone hides what follows it: `y B` is derived from `z`, but `B` (7) is not in
FOLLOW(y) (9). -/
theorem C37_fails_bare_action : Wf bareFollow ∧ OpsOk bareFollow ∧ LeadOk bareFollow ∧ Der bareFollow 10 [9, 7] ∧
    ∃ F S, computeFirst bareFollow 20 9 = some F ∧ computeFollow bareFollow F 15 20 9 = some S ∧ (9, 7) ∉ S := by
  have hw : Wf bareFollow := wf_of_wfB (by decide +kernel)
  have h := of_leadB (nb := fun n => [0, 2, 3, 4, 5, 6].contains n) (S := starts bareFollow (fun n => [0, 2, 3, 4, 5, 6].contains n) 6) hw (by decide +kernel)
  refine ⟨hw, h.2, h.1, ?_, (computeFirst bareFollow 20 9).getD [], (computeFollow bareFollow ((computeFirst bareFollow 20 9).getD []) 15 20 9).getD [],
    by decide +kernel, by decide +kernel, by decide +kernel⟩
  exact .expand (r := 13) (i := 12) (by decide +kernel) (by decide +kernel) (by decide +kernel)
    (.cons (l := 11) (r := 8) (α := [9]) (β := [7]) (by decide +kernel) (.nonterm (s := 9) (by decide +kernel) (.sym (by decide +kernel)))
      (.cons (l := 6) (r := 7) (α := []) (β := [7]) (by decide +kernel)
        (.nonterm (s := 4) (by decide +kernel) (.expand (r := 5) (i := 3) (by decide +kernel) (by decide +kernel) (by decide +kernel)
          (.altL (l := 2) (r := 1) (by decide +kernel) (.action0 (by decide +kernel)))))
        (.term (by decide +kernel))))

/-- The forms derived from the items of a grammar without recursion and loops are among those of a table. -/
def formsOk (W : World) (L : Nat → List (List Nat)) : Bool := (List.range W.heap.length).all fun n =>
  let sub : Nat → Bool := fun m => (L m).all (L n).contains
  match W.node n with
  | none => true
  | some .zero => (L n).contains []
  | some .term => (L n).contains [n]
  | some .sym => (L n).contains [n] && W.rules.all fun r => match W.node r with
    | some (.evolve i s) => s != n || sub i
    | _ => true
  | some (.evolve i _) => sub i
  | some (.nonterm s) => sub s
  | some (.inlined (some s)) => sub s
  | some (.inlined none) => true
  | some (.cons l r) => (L l).all fun α => (L r).all fun β => (L n).contains (α ++ β)
  | some (.alt l r) => sub l && sub r
  | some (.action none) => (L n).contains []
  | some (.action (some i)) => sub i
  | some (.cond i) => sub i
  | some (.annot i) => sub i
  | some (.tryc l none) => sub l
  | some (.tryc l (some r)) => sub l && sub r
  | some (.plus _) => false
  | some (.star _) => false
  | some (.op _) => false

theorem mem_of_formsOk {L : Nat → List (List Nat)} (h : formsOk W L = true) {n : Nat} {α : List Nat} (hd : Der W n α) : α ∈ L n := by
  have at' : ∀ {n it}, W.node n = some it → _ := fun {n it} hn => List.all_eq_true.1 h n (List.mem_range.2 (lt_of_node hn))
  induction hd with
  | zero hn => have := at' hn; simpa [hn] using this
  | term hn => have := at' hn; simpa [hn] using this
  | sym hn => have := at' hn; simp only [hn, Bool.and_eq_true] at this; simpa using this.1
  | expand hn hr hi _ ih =>
    have := at' hn
    simp only [hn, Bool.and_eq_true] at this
    have := List.all_eq_true.1 this.2 _ hr
    simp only [hi, bne_self_eq_false, Bool.false_or] at this
    simpa using List.all_eq_true.1 this _ ih
  | evolve hn _ ih => have := at' hn; simp only [hn] at this; simpa using List.all_eq_true.1 this _ ih
  | nonterm hn _ ih => have := at' hn; simp only [hn] at this; simpa using List.all_eq_true.1 this _ ih
  | inlined hn _ ih => have := at' hn; simp only [hn] at this; simpa using List.all_eq_true.1 this _ ih
  | cons hn _ _ ih1 ih2 =>
    have := at' hn; simp only [hn] at this
    simpa using List.all_eq_true.1 (List.all_eq_true.1 this _ ih1) _ ih2
  | altL hn _ ih => have := at' hn; simp only [hn, Bool.and_eq_true] at this; simpa using List.all_eq_true.1 this.1 _ ih
  | altR hn _ ih => have := at' hn; simp only [hn, Bool.and_eq_true] at this; simpa using List.all_eq_true.1 this.2 _ ih
  | action0 hn => have := at' hn; simpa [hn] using this
  | action hn _ ih => have := at' hn; simp only [hn] at this; simpa using List.all_eq_true.1 this _ ih
  | cond hn _ ih => have := at' hn; simp only [hn] at this; simpa using List.all_eq_true.1 this _ ih
  | annot hn _ ih => have := at' hn; simp only [hn] at this; simpa using List.all_eq_true.1 this _ ih
  | @tryL n l r α hn _ ih =>
    have := at' hn
    cases r with
    | none => simp only [hn] at this; simpa using List.all_eq_true.1 this _ ih
    | some r => simp only [hn, Bool.and_eq_true] at this; simpa using List.all_eq_true.1 this.1 _ ih
  | tryR hn _ ih => have := at' hn; simp only [hn, Bool.and_eq_true] at this; simpa using List.all_eq_true.1 this.2 _ ih
  | plus1 hn => have := at' hn; simp [hn] at this
  | plusS hn => have := at' hn; simp [hn] at this
  | star0 hn => have := at' hn; simp [hn] at this
  | starS hn => have := at' hn; simp [hn] at this
  | opBase hn => have := at' hn; simp [hn] at this
  | opPre hn => have := at' hn; simp [hn] at this
  | opPost hn => have := at' hn; simp [hn] at this
  | opBin hn => have := at' hn; simp [hn] at this
  | opTern hn => have := at' hn; simp [hn] at this
  | opParen hn => have := at' hn; simp [hn] at this

/-- `A -> y;  y (C | C) B -> z`, with 4 `y`, 5 `z`, 2 `B`, 3 `C`. -/
def twiceFollow : World := {
  heap := [.zero, .term, .term, .term, .sym, .sym, .alt 3 3, .cons 6 2, .nonterm 4, .cons 8 7, .evolve 9 5, .evolve 1 4, .term],
  parsed := 13, rules := [10, 11], zero := 0, terminals := [1, 2, 3], start := [5], bnf := fun _ => none }

/-- A token that starts two alternatives makes the choice count as possibly empty, so what follows the choice is put into the FOLLOW set
of the symbol before it: `B` is in FOLLOW(y), but `y B` is a part of no derived form. -/
theorem C62_fails_shared_token : Wf twiceFollow ∧ OpsOk twiceFollow ∧ BareOk twiceFollow ∧
    ∃ F S, computeFirst twiceFollow 20 9 = some F ∧ computeFollow twiceFollow F 12 20 9 = some S ∧ (4, 2) ∈ S ∧
      ∀ s₀ α β, twiceFollow.node s₀ = some .sym → ¬ Der twiceFollow s₀ (α ++ 4 :: 2 :: β) := by
  have ho : OpsOk twiceFollow := by
    intro n o h
    have := List.mem_of_getElem? h
    simp [twiceFollow] at this
  refine ⟨wf_of_wfB (by decide +kernel), ho, bareOk_of_none ho (of_noBare (by decide +kernel)), (computeFirst twiceFollow 20 9).getD [],
    (computeFollow twiceFollow ((computeFirst twiceFollow 20 9).getD []) 12 20 9).getD [], by decide +kernel, by decide +kernel, by decide +kernel, ?_⟩
  intro s₀ α β hs hd
  have hm := mem_of_formsOk (L := fun n => [[[]], [[1]], [[2]], [[3]], [[4], [1]], [[5], [4, 3, 2], [1, 3, 2]], [[3]], [[3, 2]], [[4], [1]], [[4, 3, 2], [1, 3, 2]],
    [[4, 3, 2], [1, 3, 2]], [[1]], [[12]]].getD n []) (by decide +kernel) hd
  have hs' : s₀ < 13 := lt_of_node hs
  have : ∀ n < 13, ∀ ω ∈ (fun n => [[[]], [[1]], [[2]], [[3]], [[4], [1]], [[5], [4, 3, 2], [1, 3, 2]], [[3]], [[3, 2]], [[4], [1]], [[4, 3, 2], [1, 3, 2]],
    [[4, 3, 2], [1, 3, 2]], [[1]], [[12]]].getD n [] : Nat → List (List Nat)) n, ∀ k, ω[k]? = some 4 → ω[k + 1]? ≠ some 2 := by
    have : ∀ n < 13, ∀ ω ∈ (fun n => [[[]], [[1]], [[2]], [[3]], [[4], [1]], [[5], [4, 3, 2], [1, 3, 2]], [[3]], [[3, 2]], [[4], [1]], [[4, 3, 2], [1, 3, 2]],
      [[4, 3, 2], [1, 3, 2]], [[1]], [[12]]].getD n [] : Nat → List (List Nat)) n, ∀ k < ω.length, ω[k]? = some 4 → ω[k + 1]? ≠ some 2 := by decide +kernel
    intro n hn ω hω k hk
    exact this n hn ω hω k (List.getElem?_eq_some_iff.1 hk).1 hk
  exact this s₀ hs' _ hm α.length (by simp) (by rw [List.getElem?_append_right (by omega)]; simp)

end Verif.Grammar
