import Verif.Grammar.WfCheck
import Verif.Grammar.FirstComplete
import Verif.Grammar.FirstSound
import Verif.Grammar.BnfProps

/-!
# Decision procedures for the other conditions, and a sample grammar
-/

namespace Verif.Grammar

variable {W : World}

/-- `nb` marks at least the items that can be empty. -/
def nullOk (W : World) (nb : Nat → Bool) : Bool := (List.range W.heap.length).all fun n => match W.node n with
  | some .zero => nb n
  | some (.action none) => nb n
  | some (.star _) => nb n
  | some (.nonterm s) => !nb s || nb n
  | some (.inlined (some s)) => !nb s || nb n
  | some (.action (some i)) => !nb i || nb n
  | some (.cond i) => !nb i || nb n
  | some (.annot i) => !nb i || nb n
  | some (.plus i) => !nb i || nb n
  | some (.op o) => !nb o.base || nb n
  | some (.cons l r) => !(nb l && nb r) || nb n
  | some (.alt l r) => !(nb l || nb r) || nb n
  | some (.tryc l none) => !nb l || nb n
  | some (.tryc l (some r)) => !(nb l || nb r) || nb n
  | some (.evolve i s) => (!nb i || nb n) && (!nb i || nb s)
  | _ => true

theorem null_of_nullOk {nb : Nat → Bool} (h : nullOk W nb = true) {n : Nat} (hn : Nullable W n) : nb n = true := by
  have at' : ∀ {n it}, W.node n = some it → _ := fun {n it} (hn : W.node n = some it) =>
    (List.all_eq_true.1 h) n (List.mem_range.2 (by
      unfold World.node at hn
      rcases Nat.lt_or_ge n W.heap.length with h' | h'
      · exact h'
      · rw [List.getElem?_eq_none h'] at hn; cases hn))
  unfold Nullable at hn
  generalize hα : ([] : List Nat) = α at hn
  induction hn with
  | zero hn => simpa [hn] using at' hn
  | term => cases hα
  | sym => cases hα
  | expand hn hr hnr _ ih => have := at' hnr; simp [hnr, ih hα] at this; exact this.2
  | evolve hn _ ih => have := at' hn; simp [hn, ih hα] at this; exact this.1
  | nonterm hn _ ih => have := at' hn; simpa [hn, ih hα] using this
  | inlined hn _ ih => have := at' hn; simpa [hn, ih hα] using this
  | cons hn _ _ ih1 ih2 =>
    obtain ⟨h1, h2⟩ := List.append_eq_nil_iff.1 hα.symm
    have := at' hn; simpa [hn, ih1 h1.symm, ih2 h2.symm] using this
  | altL hn _ ih => have := at' hn; simpa [hn, ih hα] using this
  | altR hn _ ih => have := at' hn; simpa [hn, ih hα] using this
  | action0 hn => simpa [hn] using at' hn
  | action hn _ ih => have := at' hn; simpa [hn, ih hα] using this
  | cond hn _ ih => have := at' hn; simpa [hn, ih hα] using this
  | annot hn _ ih => have := at' hn; simpa [hn, ih hα] using this
  | tryL hn _ ih => rename_i r _ _; cases r <;> · have := at' hn; simpa [hn, ih hα] using this
  | tryR hn _ ih => have := at' hn; simpa [hn, ih hα] using this
  | plus1 hn _ ih => have := at' hn; simpa [hn, ih hα] using this
  | plusS hn _ _ ih _ =>
    obtain ⟨h1, h2⟩ := List.append_eq_nil_iff.1 hα.symm
    have := at' hn; simpa [hn, ih h1.symm] using this
  | star0 hn => simpa [hn] using at' hn
  | starS hn => simpa [hn] using at' hn
  | opBase hn _ ih => have := at' hn; simpa [hn, ih hα] using this
  | opPre => cases hα
  | opPost => simp at hα
  | opBin => simp at hα
  | opTern => simp at hα
  | opParen => cases hα

/-- `S n` contains at least the items `n` may start with. -/
def startOk (W : World) (nb : Nat → Bool) (S : Nat → List Nat) : Bool := (List.range W.heap.length).all fun n =>
  let sub := fun m => (S m).all (S n).contains
  (S n).contains n && match W.node n with
  | some (.nonterm s) => sub s
  | some (.inlined (some s)) => sub s
  | some (.action (some i)) => sub i
  | some (.cond i) => sub i
  | some (.annot i) => sub i
  | some (.plus i) => sub i
  | some (.cons l r) => sub l && (!nb l || sub r)
  | some (.alt l r) => sub l && sub r
  | some (.tryc l none) => sub l
  | some (.tryc l (some r)) => sub l && sub r
  | _ => true

theorem starts_of_startOk {nb : Nat → Bool} {S : Nat → List Nat} (h0 : nullOk W nb = true) (h : startOk W nb S = true) {n m : Nat}
    (hn : Starts W n m) (hlt : n < W.heap.length) (hc : ∀ n it, W.node n = some it → (∀ m ∈ it.parts, m < W.heap.length) ∧
      ∀ s, it = .nonterm s ∨ it = .inlined (some s) → s < W.heap.length) : m ∈ S n := by
  have at' := fun n (hn : n < W.heap.length) => (List.all_eq_true.1 h) n (List.mem_range.2 hn)
  have sub : ∀ {k n}, (S k).all (S n).contains = true → m ∈ S k → m ∈ S n := by
    intro k n h hm
    have := List.all_eq_true.1 h m hm
    simpa using this
  induction hn with
  | refl => have := at' _ hlt; simp only [Bool.and_eq_true] at this; simpa using this.1
  | consL hn _ ih =>
    have := at' _ hlt; simp only [hn, Bool.and_eq_true] at this
    exact sub this.2.1 (ih ((hc _ _ hn).1 _ (by simp [Item.parts])) sub)
  | consR hn hl _ ih =>
    have := at' _ hlt; simp only [hn, Bool.and_eq_true, null_of_nullOk h0 hl, Bool.not_true, Bool.false_or] at this
    exact sub this.2.2 (ih ((hc _ _ hn).1 _ (by simp [Item.parts])) sub)
  | altL hn _ ih =>
    have := at' _ hlt; simp only [hn, Bool.and_eq_true] at this
    exact sub this.2.1 (ih ((hc _ _ hn).1 _ (by simp [Item.parts])) sub)
  | altR hn _ ih =>
    have := at' _ hlt; simp only [hn, Bool.and_eq_true] at this
    exact sub this.2.2 (ih ((hc _ _ hn).1 _ (by simp [Item.parts])) sub)
  | action hn _ ih =>
    have := at' _ hlt; simp only [hn, Bool.and_eq_true] at this
    exact sub this.2 (ih ((hc _ _ hn).1 _ (by simp [Item.parts])) sub)
  | cond hn _ ih =>
    have := at' _ hlt; simp only [hn, Bool.and_eq_true] at this
    exact sub this.2 (ih ((hc _ _ hn).1 _ (by simp [Item.parts])) sub)
  | annot hn _ ih =>
    have := at' _ hlt; simp only [hn, Bool.and_eq_true] at this
    exact sub this.2 (ih ((hc _ _ hn).1 _ (by simp [Item.parts])) sub)
  | plus hn _ ih =>
    have := at' _ hlt; simp only [hn, Bool.and_eq_true] at this
    exact sub this.2 (ih ((hc _ _ hn).1 _ (by simp [Item.parts])) sub)
  | tryL hn _ ih =>
    rename_i r _ _
    cases r with
    | none =>
      have := at' _ hlt; simp only [hn, Bool.and_eq_true] at this
      exact sub this.2 (ih ((hc _ _ hn).1 _ (by simp [Item.parts])) sub)
    | some r =>
      have := at' _ hlt; simp only [hn, Bool.and_eq_true] at this
      exact sub this.2.1 (ih ((hc _ _ hn).1 _ (by simp [Item.parts])) sub)
  | tryR hn _ ih =>
    have := at' _ hlt; simp only [hn, Bool.and_eq_true] at this
    exact sub this.2.2 (ih ((hc _ _ hn).1 _ (by simp [Item.parts])) sub)
  | nonterm hn _ ih =>
    have := at' _ hlt; simp only [hn, Bool.and_eq_true] at this
    exact sub this.2 (ih ((hc _ _ hn).2 _ (.inl rfl)) sub)
  | inlined hn _ ih =>
    have := at' _ hlt; simp only [hn, Bool.and_eq_true] at this
    exact sub this.2 (ih ((hc _ _ hn).2 _ (.inr rfl)) sub)

/-- The conditions on choices and sequences, with nothing in common at all. -/
def leadB (W : World) (nb : Nat → Bool) (S : Nat → List Nat) : Bool := nullOk W nb && startOk W nb S && (List.range W.heap.length).all fun n =>
  let apart := fun l r => (S l).all fun m => !(S r).contains m
  match W.node n with
  | some (.alt l r) => W.parsed ≤ n || apart l r
  | some (.tryc l (some r)) => W.parsed ≤ n || apart l r
  | some (.cons l r) => W.parsed ≤ n || !nb l || apart l r
  | some (.op o) => !nb o.base && decide (o.pre ++ o.post ++ o.bin ++ o.tern.map (·.1) ++ o.paren.map (·.1)).Nodup
  | _ => true

theorem of_leadB (hw : Wf W) {nb : Nat → Bool} {S : Nat → List Nat} (h : leadB W nb S = true) : LeadOk W ∧ OpsOk W := by
  simp only [leadB, Bool.and_eq_true] at h
  obtain ⟨⟨h1, h2⟩, h3⟩ := h
  have lt : ∀ {n it}, W.node n = some it → n < W.heap.length := by
    intro n it hn
    unfold World.node at hn
    rcases Nat.lt_or_ge n W.heap.length with h' | h'
    · exact h'
    · rw [List.getElem?_eq_none h'] at hn; cases hn
  have at' := fun n (hn : n < W.heap.length) => (List.all_eq_true.1 h3) n (List.mem_range.2 hn)
  have hc : ∀ n it, W.node n = some it → (∀ m ∈ it.parts, m < W.heap.length) ∧
      ∀ s, it = .nonterm s ∨ it = .inlined (some s) → s < W.heap.length := by
    intro n it hn
    constructor
    · intro m hm
      obtain ⟨it', h⟩ := hw.valid n m (part_iff.2 ⟨it, hn, hm⟩)
      exact lt h
    · rintro s (rfl | rfl)
      · exact lt (hw.symbols n s (.inl hn))
      · exact lt (hw.symbols n s (.inr (.inl hn)))
  have apart : ∀ {n l r m it}, W.node n = some it → l ∈ it.parts → r ∈ it.parts → ((S l).all fun m => !(S r).contains m) = true → Starts W l m → Starts W r m → False := by
    intro n l r m it hn hl hr h g1 g2
    have e1 := starts_of_startOk h1 h2 g1 ((hc n it hn).1 l hl) hc
    have e2 := starts_of_startOk h1 h2 g2 ((hc n it hn).1 r hr) hc
    have := List.all_eq_true.1 h m e1
    simp [e2] at this
  refine ⟨⟨?_, ?_, ?_, ?_⟩, ?_⟩
  · intro n l r m hp hn g1 g2
    have := at' n (lt hn)
    simp only [hn, Bool.or_eq_true, decide_eq_true_eq] at this
    rcases this with h | h
    · omega
    · exact (apart hn (by simp [Item.parts]) (by simp [Item.parts]) h g1 g2).elim
  · intro n l r m hp hn g1 g2
    have := at' n (lt hn)
    simp only [hn, Bool.or_eq_true, decide_eq_true_eq] at this
    rcases this with h | h
    · omega
    · exact (apart hn (by simp [Item.parts]) (by simp [Item.parts]) h g1 g2).elim
  · intro n l r m hp hn hl g1 g2
    have := at' n (lt hn)
    simp only [hn, Bool.or_eq_true, decide_eq_true_eq, null_of_nullOk h1 hl] at this
    rcases this with (h | h) | h
    · omega
    · simp at h
    · exact (apart hn (by simp [Item.parts]) (by simp [Item.parts]) h g1 g2).elim
  · intro n o hn
    have := at' n (lt hn)
    simp only [hn, Bool.and_eq_true, decide_eq_true_eq] at this
    exact this.2
  · intro n o hn hnull
    have := at' n (lt hn)
    simp only [hn, Bool.and_eq_true, null_of_nullOk h1 hnull] at this
    simp at this

/-- `L n` contains at least what forms derived from `n` can start with. -/
def leadsOk (W : World) (nb : Nat → Bool) (L : Nat → List Nat) : Bool := nullOk W nb && (List.range W.heap.length).all fun n =>
  let sub := fun m => (L m).all (L n).contains
  match W.node n with
  | some .term => (L n).contains n
  | some .sym => (L n).contains n
  | some (.nonterm s) => sub s
  | some (.inlined (some s)) => sub s
  | some (.action (some i)) => sub i
  | some (.cond i) => sub i
  | some (.annot i) => sub i
  | some (.plus i) => sub i
  | some (.star i) => sub i
  | some (.evolve i s) => sub i && (L i).all (L s).contains
  | some (.cons l r) => sub l && (!nb l || sub r)
  | some (.alt l r) => sub l && sub r
  | some (.tryc l none) => sub l
  | some (.tryc l (some r)) => sub l && sub r
  | some (.op o) => sub o.base && !nb n && o.pre.all (L n).contains && o.paren.all fun p => (L n).contains p.1
  | _ => true

theorem lead_of_leadsOk {nb : Nat → Bool} {L : Nat → List Nat} (h : leadsOk W nb L = true) {n x : Nat} {γ : List Nat}
    (hn : Der W n (x :: γ)) : x ∈ L n := by
  simp only [leadsOk, Bool.and_eq_true] at h
  obtain ⟨h0, h⟩ := h
  have at' : ∀ {n it}, W.node n = some it → _ := fun {n it} (hn : W.node n = some it) =>
    (List.all_eq_true.1 h) n (List.mem_range.2 (by
      unfold World.node at hn
      rcases Nat.lt_or_ge n W.heap.length with h' | h'
      · exact h'
      · rw [List.getElem?_eq_none h'] at hn; cases hn))
  have sub : ∀ {k n x}, (L k).all (L n).contains = true → x ∈ L k → x ∈ L n := by
    intro k n x h hm
    have := List.all_eq_true.1 h x hm
    simpa using this
  generalize hα : x :: γ = α at hn
  induction hn generalizing x γ with
  | zero => cases hα
  | term hn => cases hα; have := at' hn; simp only [hn] at this; simpa using this
  | sym hn => cases hα; have := at' hn; simp only [hn] at this; simpa using this
  | expand hn hr hnr _ ih => have := at' hnr; simp only [hnr, Bool.and_eq_true] at this; exact sub this.2 (ih hα)
  | evolve hn _ ih => have := at' hn; simp only [hn, Bool.and_eq_true] at this; exact sub this.1 (ih hα)
  | nonterm hn _ ih => have := at' hn; simp only [hn] at this; exact sub this (ih hα)
  | inlined hn _ ih => have := at' hn; simp only [hn] at this; exact sub this (ih hα)
  | @cons n l r α β hn hl _ ih1 ih2 =>
    have := at' hn; simp only [hn, Bool.and_eq_true] at this
    cases α with
    | nil => rw [null_of_nullOk h0 hl] at this; exact sub (by simpa using this.2) (ih2 hα)
    | cons y α => cases hα; exact sub this.1 (ih1 rfl)
  | altL hn _ ih => have := at' hn; simp only [hn, Bool.and_eq_true] at this; exact sub this.1 (ih hα)
  | altR hn _ ih => have := at' hn; simp only [hn, Bool.and_eq_true] at this; exact sub this.2 (ih hα)
  | action0 => cases hα
  | action hn _ ih => have := at' hn; simp only [hn] at this; exact sub this (ih hα)
  | cond hn _ ih => have := at' hn; simp only [hn] at this; exact sub this (ih hα)
  | annot hn _ ih => have := at' hn; simp only [hn] at this; exact sub this (ih hα)
  | tryL hn _ ih =>
    rename_i r _ _
    cases r with
    | none => have := at' hn; simp only [hn] at this; exact sub this (ih hα)
    | some r => have := at' hn; simp only [hn, Bool.and_eq_true] at this; exact sub this.1 (ih hα)
  | tryR hn _ ih => have := at' hn; simp only [hn, Bool.and_eq_true] at this; exact sub this.2 (ih hα)
  | plus1 hn _ ih => have := at' hn; simp only [hn] at this; exact sub this (ih hα)
  | @plusS n i α β hn _ _ ih1 ih2 =>
    cases α with
    | nil => exact ih2 hα
    | cons y α => cases hα; have := at' hn; simp only [hn] at this; exact sub this (ih1 rfl)
  | star0 => cases hα
  | @starS n i α β hn _ _ ih1 ih2 =>
    cases α with
    | nil => exact ih2 hα
    | cons y α => cases hα; have := at' hn; simp only [hn] at this; exact sub this (ih1 rfl)
  | opBase hn _ ih => have := at' hn; simp only [hn, Bool.and_eq_true] at this; exact sub this.1.1.1 (ih hα)
  | opPre hn ht => cases hα; have := at' hn; simp only [hn, Bool.and_eq_true] at this; simpa using List.all_eq_true.1 this.1.2 _ ht
  | @opPost n o t α hn _ hd ih =>
    cases α with
    | nil => have := at' hn; simp [hn, null_of_nullOk h0 hd] at this
    | cons y α => cases hα; exact ih rfl
  | @opBin n o t α β hn _ hd _ ih _ =>
    cases α with
    | nil => have := at' hn; simp [hn, null_of_nullOk h0 hd] at this
    | cons y α => cases hα; exact ih rfl
  | @opTern n o t u α β δ hn _ hd _ _ ih _ _ =>
    cases α with
    | nil => have := at' hn; simp [hn, null_of_nullOk h0 hd] at this
    | cons y α => cases hα; exact ih rfl
  | opParen hn ht => cases hα; have := at' hn; simp only [hn, Bool.and_eq_true] at this; simpa using List.all_eq_true.1 this.2 _ ht

/-- No bare actions. -/
def noBare (W : World) : Bool := W.heap.all fun it => it ≠ .action none

theorem of_noBare (h : noBare W = true) : ∀ n, W.node n ≠ some (.action none) := by
  intro n hn
  have := List.all_eq_true.1 h _ (List.mem_of_getElem? hn)
  simp at this

/-- ```
item (COMMA item)* -> list      (5)
?A expr -> item                 (6)
%left PLUS, %pre MINUS, base prim -> expr    (7)
B -> prim                       (18)
```
Tokens: 1 `A`, 2 `B`, 3 `COMMA`, 4 `MINUS`, 21 `PLUS`; 24 is `EOF`. -/
def sampleList : World := rewrite {
  heap := [.zero, .term, .term, .term, .term, .sym, .sym, .sym, .nonterm 6, .nonterm 6, .cons 3 9, .star 10, .cons 8 11, .evolve 12 5,
    .alt 1 0, .nonterm 7, .cons 14 15, .evolve 16 6, .sym, .op { base := 20, pre := [4], bin := [21] }, .nonterm 18, .term, .evolve 19 7,
    .evolve 2 18, .term]
  parsed := 0
  rules := [13, 17, 22, 23]
  zero := 0
  terminals := [1, 2, 3, 4, 21]
  start := [5]
  bnf := fun _ => none } [11, 19]

/-- An over-approximation of what items start with, by iteration. -/
def starts (W : World) (nb : Nat → Bool) : Nat → Nat → List Nat
  | 0, n => [n]
  | k + 1, n => n :: match W.node n with
    | some (.nonterm s) => starts W nb k s
    | some (.inlined (some s)) => starts W nb k s
    | some (.action (some i)) => starts W nb k i
    | some (.cond i) => starts W nb k i
    | some (.annot i) => starts W nb k i
    | some (.plus i) => starts W nb k i
    | some (.cons l r) => starts W nb k l ++ if nb l then starts W nb k r else []
    | some (.alt l r) => starts W nb k l ++ starts W nb k r
    | some (.tryc l none) => starts W nb k l
    | some (.tryc l (some r)) => starts W nb k l ++ starts W nb k r
    | _ => []

/-- The nullable items of the sample (26 and 27.. are made for `*`). -/
def sampleNull (n : Nat) : Bool := [0, 11, 14, 26].contains n

def sampleFirst : Sets := (computeFirst sampleList 200 20).getD []

theorem sample_wf : Wf sampleList := wf_of_wfB (by decide +kernel)

theorem sample_lead : LeadOk sampleList ∧ OpsOk sampleList :=
  of_leadB (nb := sampleNull) (S := fun n => if n = 26 then 25 :: 26 :: starts sampleList sampleNull 6 n else starts sampleList sampleNull 6 n) sample_wf (by decide +kernel)

theorem sample_bare : BareOk sampleList := bareOk_of_none sample_lead.2 (of_noBare (by decide +kernel))

theorem sample_first : computeFirst sampleList 200 20 = some sampleFirst := by decide +kernel

end Verif.Grammar
