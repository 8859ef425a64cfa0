import Verif.Check.Walk
import Verif.Check.InlineProps
import Verif.Grammar.FirstProps
import Verif.Grammar.Elems

/-!
# Undefined symbols and tokens, empty operators
-/

namespace Verif.Check

open Verif.Grammar

variable {W : World} {F : Sets}

theorem env_nil {s : Nat} : env W s = [] ↔ ¬ Defined W s := by
  unfold env
  rw [List.filter_eq_nil_iff]
  constructor
  · rintro h ⟨r, i, hr, hi⟩
    have := h r hr
    simp [hi] at this
  · intro h r hr
    cases hn : W.node r with
    | none => simp
    | some it =>
      cases it with
      | evolve i s' =>
        simp only [decide_eq_true_eq]
        rintro rfl
        exact h ⟨r, i, hr, hn⟩
      | _ => simp

theorem undefSym_zero {s : Nat} : undefSym W s = 0 ↔ Defined W s := by
  unfold undefSym
  split
  · next h => simpa using env_nil.1 h
  · next h => simpa using not_not.1 (fun h' => h (env_nil.2 h'))

/-- The declaration is not of an AST node, or names a symbol that has a rule. -/
def DeclOk (W : World) (D : Decls) (d : Decl) : Prop := d.isNode = true → ∃ s, D.find d.type = some s ∧ Defined W s

theorem undefDecl_zero {D : Decls} {l : List Decl} : undefDecl W D l = 0 ↔ ∀ d ∈ l.head?, DeclOk W D d := by
  cases l with
  | nil => simp [undefDecl]
  | cons d l =>
    simp only [undefDecl, List.head?_cons, Option.mem_def, Option.some.injEq, forall_eq', DeclOk]
    cases d.isNode with
    | false => simp
    | true =>
      simp only [if_true, true_implies]
      cases D.find d.type with
      | none => simp
      | some s => simp [undefSym_zero]

theorem sum_zero {l : List Nat} {g : Nat → Nat} : (l.map g).sum = 0 ↔ ∀ n ∈ l, g n = 0 := by
  induction l with
  | nil => simp
  | cons x l ih => simp [ih]

/-- The symbols used, other than as the base of an operator expression, and the first of each list of declarations. -/
def SymbolsOk (W : World) (D : Decls) (r : Nat) : Prop := (∀ n s, Inside W r n → Mentions W n s → Defined W s) ∧
  ∀ n, Inside W r n → ((∃ i s, W.node n = some (.evolve i s)) ∨ ∃ i, W.node n = some (.annot i)) → ∀ d ∈ (D.decls n).head?, DeclOk W D d

theorem symbols_iff (hw : Wf W) {D : Decls} {r : Nat} (hr : r ∈ W.rules) {f e : Nat} (h : undefinedSymbols W D f r = some e) : e = 0 ↔ SymbolsOk W D r := by
  obtain ⟨l, hl, rfl⟩ := Option.map_eq_some_iff.1 h
  rw [sum_zero]
  constructor
  · intro h0
    constructor
    · rintro n s hn (hs | hs | ⟨rfl, hs⟩)
      · have := h0 s ((walk_mem hl s).2 (.inr ⟨n, hn, .inl hs⟩))
        simpa [undefinedAt, hw.symbols n s (.inl hs), undefSym_zero] using this
      · have := h0 n ((walk_mem hl n).2 (.inl hn))
        simpa [undefinedAt, hs, undefSym_zero] using this
      · have := h0 n ((walk_mem hl n).2 (.inl hn))
        simpa [undefinedAt, hs, undefSym_zero] using this
    · intro n hn hk
      have := h0 n ((walk_mem hl n).2 (.inl hn))
      rcases hk with ⟨i, s, hk⟩ | ⟨i, hk⟩
      · rw [undefinedAt, hk] at this
        exact undefDecl_zero.1 this
      · rw [undefinedAt, hk] at this
        exact undefDecl_zero.1 this
  · rintro ⟨h1, h2⟩ n hn
    rcases (walk_mem hl n).1 hn with h' | ⟨k, hk, hs⟩
    · unfold undefinedAt
      split
      · next e =>
        exact undefSym_zero.2 (h1 n n h' (.inr (.inr ⟨rfl, e⟩)))
      · next s e => exact undefSym_zero.2 (h1 n s h' (.inr (.inl e)))
      · next i s e => exact undefDecl_zero.2 (h2 n h' (.inl ⟨i, s, e⟩))
      · next i e => exact undefDecl_zero.2 (h2 n h' (.inr ⟨i, e⟩))
      · rfl
    · rcases hs with hs | ⟨i, hs⟩
      · have := h1 k n hk (.inl hs)
        simpa [undefinedAt, hw.symbols k n (.inl hs), undefSym_zero] using this
      · have hd : Defined W n := by
          cases hk with
          | refl => exact ⟨r, i, hr, hs⟩
          | part _ _ hp => exact absurd hs (hw.parts _ _ i n hp)
        simpa [undefinedAt, hw.symbols k n (.inr (.inr ⟨i, hs⟩)), undefSym_zero] using hd

/-- C41: what `UndefinedSymbolChecker` accepts, exactly.  `Inside`: the symbols used as bases of operator expressions are not checked; of
each list of declarations only the first is. -/
theorem C41_symbols_partial (hw : Wf W) {D : Decls} {r : Nat} (hr : r ∈ W.rules) {f : Nat} (hf : W.parsed ≤ f) :
    ∃ e, undefinedSymbols W D f r = some e ∧
      (e = 0 ↔ (∀ n s, Inside W r n → Mentions W n s → Defined W s) ∧
        ∀ n, Inside W r n → ((∃ i s, W.node n = some (.evolve i s)) ∨ ∃ i, W.node n = some (.annot i)) → ∀ d ∈ (D.decls n).head?, DeclOk W D d) := by
  obtain ⟨h, i, s, hi⟩ := hw.rules r hr
  obtain ⟨l, hl⟩ := walk_total hw r h ⟨_, hi⟩ f (by omega)
  have : undefinedSymbols W D f r = some ((l.map (undefinedAt W D)).sum) := by rw [undefinedSymbols, hl]; rfl
  exact ⟨_, this, symbols_iff hw hr this⟩

/-- C41: if every symbol used has a rule, and every declared AST node is of such a symbol, nothing is reported. -/
theorem C41_defined_accepted (hw : Wf W) {D : Decls} (h1 : ∀ n s, Occurs W n → Mentions W n s → Defined W s)
    (h2 : ∀ n, Occurs W n → ∀ d ∈ D.decls n, DeclOk W D d) {r : Nat} (hr : r ∈ W.rules) {f : Nat} (hf : W.parsed ≤ f) : undefinedSymbols W D f r = some 0 := by
  obtain ⟨e, he, h0⟩ := C41_symbols_partial (D := D) hw hr hf
  rw [he, h0.2 ⟨fun n s hn => h1 n s (below_occurs hr (inside_below hn)), fun n hn _ d hd => h2 n (below_occurs hr (inside_below hn)) d (List.mem_of_mem_head? hd)⟩]

/-- The tokens used, other than as operators. -/
def TokensOk (W : World) (E : List Nat) (r : Nat) : Prop := ∀ t, Below W r t → W.node t = some .term → t ∈ W.terminals ∨ t ∈ E

theorem tokens_iff (hw : Wf W) {E : List Nat} {r : Nat} {f e : Nat} (h : undefinedTokens W E f r = some e) : e = 0 ↔ TokensOk W E r := by
  obtain ⟨l, hl, rfl⟩ := Option.map_eq_some_iff.1 h
  rw [sum_zero]
  constructor
  · intro h0 t ht hn
    have := h0 t ((walk_mem hl t).2 (.inl (below_inside hw ht (by rw [hn]; simp))))
    exact or_iff_not_imp_left.2 (by simpa [tokenAt, hn] using this)
  · intro h0 n hn
    unfold tokenAt
    split
    · next e =>
      rcases (walk_mem hl n).1 hn with h' | ⟨k, hk, hs⟩
      · rw [if_pos (h0 n (inside_below h') e)]
      · exfalso
        have : W.node n = some .sym := by
          rcases hs with hs | ⟨i, hs⟩
          · exact hw.symbols k n (.inl hs)
          · exact hw.symbols k n (.inr (.inr ⟨i, hs⟩))
        rw [e] at this; cases this
    · rfl

/-- C41: what `UndefinedTokenChecker` accepts, exactly.  The tokens of operators are not checked, and a token named `EOF` (in `E`) is accepted even
if it is not declared. -/
theorem C41_tokens_partial (hw : Wf W) {E : List Nat} {r : Nat} (hr : r ∈ W.rules) {f : Nat} (hf : W.parsed ≤ f) :
    ∃ e, undefinedTokens W E f r = some e ∧ (e = 0 ↔ ∀ t, Below W r t → W.node t = some .term → t ∈ W.terminals ∨ t ∈ E) := by
  obtain ⟨h, i, s, hi⟩ := hw.rules r hr
  obtain ⟨l, hl⟩ := walk_total hw r h ⟨_, hi⟩ f (by omega)
  have : undefinedTokens W E f r = some ((l.map (tokenAt W E)).sum) := by rw [undefinedTokens, hl]; rfl
  exact ⟨_, this, tokens_iff hw this⟩

/-! ### `EmptyOperatorChecker` -/

theorem nz_weak {b : Bool} {n : Nat} (h : NZ W b n) : NZ W false n := by
  induction h with
  | zero hn => exact .zero hn
  | expand hn hr hi h _ => exact .expand hn hr hi h
  | evolve hn _ ih => exact .evolve hn ih
  | nonterm hn _ ih => exact .nonterm hn ih
  | inlined hn _ ih => exact .inlined hn ih
  | consL hn _ _ ih1 ih2 => exact .consL hn ih1 ih2
  | consR hn _ _ ih1 ih2 => exact .consR hn ih1 ih2
  | altL hn _ ih => exact .altL hn ih
  | altR hn _ ih => exact .altR hn ih
  | action0 hn => exact .action0 hn
  | action hn _ ih => exact .action hn ih
  | cond hn _ ih => exact .cond hn ih
  | annot hn _ ih => exact .annot hn ih
  | tryL hn _ ih => exact .tryL hn ih
  | tryR hn _ ih => exact .tryR hn ih
  | plus hn _ ih => exact .plus hn ih
  | star hn => exact .star hn

/-- What is empty without bare actions and operator expressions is explicitly empty. -/
theorem nz_of_quiet (hb : ∀ n, W.node n ≠ some (.action none)) (hop : ∀ n o, W.node n = some (.op o) → ¬ NZ W true o.base) {n : Nat} {α : List Nat}
    (h : Der W n α) (hα : α = []) : NZ W true n := by
  induction h with
  | zero hn => exact .zero hn
  | term => simp at hα
  | sym => simp at hα
  | expand hn hr hnr _ ih => exact .expand hn hr hnr (ih hα)
  | evolve hn _ ih => exact .evolve hn (ih hα)
  | nonterm hn _ ih => exact .nonterm hn (ih hα)
  | inlined hn _ ih => exact .inlined hn (ih hα)
  | cons hn _ _ ih1 ih2 =>
    obtain ⟨h1, h2⟩ := List.append_eq_nil_iff.1 hα
    exact .consL hn (ih1 h1) (nz_weak (ih2 h2))
  | altL hn _ ih => exact .altL hn (ih hα)
  | altR hn _ ih => exact .altR hn (ih hα)
  | action0 hn => exact absurd hn (hb _)
  | action hn _ ih => exact .action hn (ih hα)
  | cond hn _ ih => exact .cond hn (ih hα)
  | annot hn _ ih => exact .annot hn (ih hα)
  | tryL hn _ ih => exact .tryL hn (ih hα)
  | tryR hn _ ih => exact .tryR hn (ih hα)
  | plus1 hn _ ih => exact .plus hn (ih hα)
  | plusS hn _ _ ih1 ih2 => exact .plus hn (ih1 (List.append_eq_nil_iff.1 hα).1)
  | star0 hn => exact .star hn
  | starS hn => exact .star hn
  | opBase hn _ ih => exact absurd (ih hα) (hop _ _ hn)
  | opPre => cases hα
  | opPost => simp at hα
  | opBin => simp at hα
  | opTern => simp at hα
  | opParen => cases hα

theorem reduces_sym {s : Nat} (hs : W.node s = some .sym) : reduces W F s = some (decide ((s, W.zero) ∈ F)) := by
  simp [reduces, r2e, hs]

/-- The symbols of the bases of the operator expressions do not have the end marker in their FIRST sets. -/
def BasesFull (W : World) (F : Sets) : Prop := ∀ n o s, Occurs W n → W.node n = some (.op o) → W.node o.base = some (.nonterm s) → (s, W.zero) ∉ F

theorem emptyOp_ends (hw : Wf W) {n : Nat} (ha : Acc (fun m n => Gen.Visits W n m) n) (hv : ∃ it, W.node n = some it) :
    ∃ f0, ∀ (F : Sets) f, f0 ≤ f → ∃ e, emptyOp W F f n = some e := by
  induction ha with
  | intro n _ ih =>
  obtain ⟨it, hit⟩ := hv
  have leaf : (∀ F f, ∃ e, emptyOp W F (f + 1) n = some e) → ∃ f0, ∀ (F : Sets) f, f0 ≤ f → ∃ e, emptyOp W F f n = some e := by
    refine fun h => ⟨1, fun F f hf => ?_⟩
    obtain ⟨f, rfl⟩ := Nat.exists_eq_add_of_le' hf
    exact h F f
  have one : ∀ i, Part W n i → (∀ o, it ≠ .op o) → (∀ F f, emptyOp W F (f + 1) n = emptyOp W F f i) → ∃ f0, ∀ (F : Sets) f, f0 ≤ f → ∃ e, emptyOp W F f n = some e := by
    intro i hi ho h
    obtain ⟨f0, h0⟩ := ih i (.part hi (by rw [hit]; simpa using ho)) (hw.valid n i hi)
    refine ⟨f0 + 1, fun F f hf => ?_⟩
    obtain ⟨f, rfl⟩ := Nat.exists_eq_add_of_le' (show 1 ≤ f by omega)
    rw [h]
    exact h0 F f (by omega)
  have two : ∀ l r, Part W n l → Part W n r → (∀ o, it ≠ .op o) → (∀ F f, emptyOp W F (f + 1) n = (emptyOp W F f l).bind fun a => (emptyOp W F f r).map (a + ·)) →
      ∃ f0, ∀ (F : Sets) f, f0 ≤ f → ∃ e, emptyOp W F f n = some e := by
    intro l r hl hr ho h
    obtain ⟨f0, h0⟩ := ih l (.part hl (by rw [hit]; simpa using ho)) (hw.valid n l hl)
    obtain ⟨f1, h1⟩ := ih r (.part hr (by rw [hit]; simpa using ho)) (hw.valid n r hr)
    refine ⟨f0 + f1 + 1, fun F f hf => ?_⟩
    obtain ⟨f, rfl⟩ := Nat.exists_eq_add_of_le' (show 1 ≤ f by omega)
    obtain ⟨a, ha⟩ := h0 F f (by omega)
    obtain ⟨b, hb⟩ := h1 F f (by omega)
    exact ⟨a + b, by rw [h, ha, hb]; rfl⟩
  cases it with
  | zero => exact leaf fun F f => ⟨_, by rw [emptyOp, hit]⟩
  | sym => exact leaf fun F f => ⟨_, by rw [emptyOp, hit]⟩
  | term => exact leaf fun F f => ⟨_, by rw [emptyOp, hit]⟩
  | nonterm s => exact leaf fun F f => ⟨_, by rw [emptyOp, hit]⟩
  | plus i => exact one i (.plus hit) (by simp) fun F f => by rw [emptyOp, hit]
  | star i => exact one i (.star hit) (by simp) fun F f => by rw [emptyOp, hit]
  | cond i => exact one i (.cond hit) (by simp) fun F f => by rw [emptyOp, hit]
  | annot i => exact one i (.annot hit) (by simp) fun F f => by rw [emptyOp, hit]
  | evolve i s => exact one i (.evolve hit) (by simp) fun F f => by rw [emptyOp, hit]
  | action i =>
    cases i with
    | none => exact leaf fun F f => ⟨_, by rw [emptyOp, hit]⟩
    | some i => exact one i (.action hit) (by simp) fun F f => by rw [emptyOp, hit]
  | alt l r => exact two l r (.altL hit) (.altR hit) (by simp) fun F f => by rw [emptyOp, hit]
  | cons l r => exact two l r (.consL hit) (.consR hit) (by simp) fun F f => by rw [emptyOp, hit]
  | tryc l r =>
    cases r with
    | none => exact one l (.tryL hit) (by simp) fun F f => by rw [emptyOp, hit]
    | some r => exact two l r (.tryL hit) (.tryR hit) (by simp) fun F f => by rw [emptyOp, hit]
  | op o =>
    obtain ⟨s, hs⟩ := hw.opBase n o hit
    refine leaf fun F f => ⟨if decide ((s, W.zero) ∈ F) then 1 else 0, ?_⟩
    rw [emptyOp, hit]
    simp only [hs]
    rw [reduces_sym (hw.symbols _ _ (.inl hs))]
    rfl
  | inlined s =>
    cases s with
    | none => exact leaf fun F f => ⟨_, by rw [emptyOp, hit]⟩
    | some s =>
      cases hr : W.searchRule s with
      | none => exact leaf fun F f => ⟨0, by rw [emptyOp, hit]; simp only [hr]⟩
      | some r =>
        obtain ⟨hrp, i, s', hri⟩ := hw.rules r (searchRule_some hr).1
        obtain ⟨f0, h0⟩ := ih r (.inlined hit hr) ⟨_, hri⟩
        refine ⟨f0 + 1, fun F f hf => ?_⟩
        obtain ⟨f, rfl⟩ := Nat.exists_eq_add_of_le' (show 1 ≤ f by omega)
        obtain ⟨e, he⟩ := h0 F f (by omega)
        exact ⟨e, by rw [emptyOp, hit]; simp only [hr]; exact he⟩

/-- No error is reported exactly if no base met has the end marker in its FIRST set. -/
theorem emptyOp_ok (hw : Wf W) (hF : BasesFull W F) : ∀ {f n e : Nat}, Occurs W n → emptyOp W F f n = some e → e = 0
  | 0, _, _, _, h => by cases h
  | f + 1, n, e, hn, h => by
    have one : ∀ {i e}, Part W n i → emptyOp W F f i = some e → e = 0 := fun hi h => emptyOp_ok hw hF (.part hn hi) h
    have two : ∀ {l r e}, Part W n l → Part W n r → ((emptyOp W F f l).bind fun a => (emptyOp W F f r).map (a + ·)) = some e → e = 0 := by
      intro l r e hl hr h
      obtain ⟨a, ha, h⟩ := Option.bind_eq_some_iff.1 h
      obtain ⟨b, hb, rfl⟩ := Option.map_eq_some_iff.1 h
      rw [one hl ha, one hr hb]
    unfold emptyOp at h
    split at h
    · cases h
    · simpa using h.symm
    · simpa using h.symm
    · simpa using h.symm
    · simpa using h.symm
    · next o ho =>
      split at h
      · next s hs =>
        rw [reduces_sym (hw.symbols _ _ (.inl hs))] at h
        have := hF n o s hn ho hs
        simp [this] at h
        exact h.symm
      · cases h
    · simpa using h.symm
    · next s hs =>
      split at h
      · simpa using h.symm
      · next r hr => exact emptyOp_ok hw hF (.rule (searchRule_some hr).1) h
    · next hi => exact one (.plus hi) h
    · next hi => exact one (.star hi) h
    · simpa using h.symm
    · next hi => exact one (.action hi) h
    · next hi => exact one (.cond hi) h
    · next hi => exact one (.annot hi) h
    · next hi => exact one (.evolve hi) h
    · next hi => exact one (.tryL hi) h
    · next hi => exact two (.tryL hi) (.tryR hi) h
    · next hi => exact two (.altL hi) (.altR hi) h
    · next hi => exact two (.consL hi) (.consR hi) h

theorem emptyOp_full (hw : Wf W) : ∀ {f n : Nat}, emptyOp W F f n = some 0 → ∀ m o s, Below W n m → W.node m = some (.op o) → W.node o.base = some (.nonterm s) →
    (s, W.zero) ∉ F
  | 0, _, h => by cases h
  | f + 1, n, h => by
    intro m o s hb hm hs
    have one : ∀ {i k}, Below W k m → k = i → emptyOp W F f i = some 0 → (s, W.zero) ∉ F := fun hb e h => emptyOp_full hw h m o s (e ▸ hb) hm hs
    have two : ∀ {l r k}, Below W k m → k = l ∨ k = r → ((emptyOp W F f l).bind fun a => (emptyOp W F f r).map (a + ·)) = some 0 → (s, W.zero) ∉ F := by
      intro l r k hb e h
      obtain ⟨a, ha, h⟩ := Option.bind_eq_some_iff.1 h
      obtain ⟨b, hb', h⟩ := Option.map_eq_some_iff.1 h
      have h0 : a = 0 ∧ b = 0 := by omega
      obtain ⟨rfl, rfl⟩ := h0
      rcases e with e | e
      · exact one hb e ha
      · exact one hb e hb'
    rcases below_cases hb with rfl | ⟨k, hp, hb⟩
    · unfold emptyOp at h
      rw [hm] at h
      simp only [hs] at h
      rw [reduces_sym (hw.symbols _ _ (.inl hs))] at h
      intro h'
      simp [h'] at h
    · obtain ⟨it, hit, hk⟩ := part_iff.1 hp
      unfold emptyOp at h
      rw [hit] at h
      cases it with
      | plus i => exact one hb (by simpa [Item.parts] using hk) h
      | star i => exact one hb (by simpa [Item.parts] using hk) h
      | cond i => exact one hb (by simpa [Item.parts] using hk) h
      | annot i => exact one hb (by simpa [Item.parts] using hk) h
      | evolve i s => exact one hb (by simpa [Item.parts] using hk) h
      | action i =>
        cases i with
        | none => simp [Item.parts] at hk
        | some i => exact one hb (by simpa [Item.parts] using hk) h
      | alt l r => exact two hb (by simpa [Item.parts] using hk) h
      | cons l r => exact two hb (by simpa [Item.parts] using hk) h
      | tryc l r =>
        cases r with
        | none => exact one hb (by simpa [Item.parts] using hk) h
        | some r => exact two hb (by simpa [Item.parts] using hk) h
      | op o' =>
        exfalso
        obtain ⟨s', hs'⟩ := hw.opBase n o' hit
        have hk : k = o'.base := by simpa [Item.parts] using hk
        subst hk
        rcases below_cases hb with rfl | ⟨j, hp, -⟩
        · rw [hm] at hs'; cases hs'
        · obtain ⟨it, hit', hj⟩ := part_iff.1 hp
          rw [hs'] at hit'; cases hit'
          simp [Item.parts] at hj
      | _ => simp [Item.parts] at hk

/-- C41: `EmptyOperatorChecker` reports something exactly if the base of some operator expression can be empty (there being no bare
actions, and choices being decided by what comes first). -/
theorem C41_empty_operator_partial (hw : Wf W) (hb : ∀ n, W.node n ≠ some (.action none)) (hocc : ∀ n o, W.node n = some (.op o) → Occurs W n) (hl : LeadOk W)
    {f1 k1 : Nat} (hF : computeFirst W f1 k1 = some F) {f : Nat} {es : Nat → Nat} (he : ∀ r ∈ W.rules, emptyOp W F f r = some (es r)) :
    (∀ r ∈ W.rules, es r = 0) ↔ OpsOk W := by
  constructor
  · intro h0
    have full : BasesFull W F := by
      intro n o s hn ho hs
      obtain ⟨r, hr, hbl⟩ := occurs_below hn
      exact emptyOp_full hw (by rw [he r hr, h0 r hr]) n o s hbl ho hs
    intro n o hn hnull
    obtain ⟨hq, hi⟩ := computeFirst_quiet hF
    have hop : ∀ n o, W.node n = some (.op o) → ¬ NZ W true o.base := by
      intro n o ho hnz
      obtain ⟨s, hs⟩ := hw.opBase n o ho
      cases hnz with
      | nonterm h h' =>
        rw [hs] at h; cases h
        exact full n o s (hocc n o ho) ho hs ((nz_first hw hq hi h').1 rfl (.inr (hw.symbols _ _ (.inl hs))))
      | zero h => rw [hs] at h; cases h
      | expand h => rw [hs] at h; cases h
      | evolve h => rw [hs] at h; cases h
      | inlined h => rw [hs] at h; cases h
      | consL h => rw [hs] at h; cases h
      | consR h => rw [hs] at h; cases h
      | altL h => rw [hs] at h; cases h
      | altR h => rw [hs] at h; cases h
      | action h => rw [hs] at h; cases h
      | cond h => rw [hs] at h; cases h
      | annot h => rw [hs] at h; cases h
      | tryL h => rw [hs] at h; cases h
      | tryR h => rw [hs] at h; cases h
      | plus h => rw [hs] at h; cases h
      | star h => rw [hs] at h; cases h
    exact hop n o hn (nz_of_quiet hb hop hnull rfl)
  · intro ho r hr
    refine emptyOp_ok hw (F := F) ?_ (.rule hr) (he r hr)
    intro n o s _ hn hs hz
    rcases C36_sound_partial hw ho hl hF hz with ⟨-, h⟩ | ⟨h, -⟩
    · exact ho n o hn (.nonterm hs h)
    · rw [hw.zero] at h; cases h

/-- C41: `EmptyFirstChecker` reports the rule exactly if no sequence derived from its symbol is empty or starts with a declared
token. -/
theorem C41_empty_first_partial (hw : Wf W) (ho : OpsOk W) (hb : BareOk W) (hl : LeadOk W) {f1 k1 : Nat} (hF : computeFirst W f1 k1 = some F)
    {r i s : Nat} (hr : W.node r = some (.evolve i s)) : emptyFirst W F r = 0 ↔ Productive W s := by
  have hs := hw.symbols r s (.inr (.inr ⟨i, hr⟩))
  rw [emptyFirst, hr]
  dsimp only
  constructor
  · intro h
    have : F.of s ≠ [] := by
      intro h'
      rw [if_pos h'] at h
      cases h
    obtain ⟨x, hx⟩ := List.exists_mem_of_ne_nil _ this
    rcases C36_sound_partial hw ho hl hF (mem_of.1 hx) with ⟨-, h⟩ | ⟨h, γ, h'⟩
    · exact .inl h
    · refine .inr ⟨x, γ, ?_, h'⟩
      rcases computeFirst_elems hF (mem_of.1 hx) with e | e
      · rw [e, hw.zero] at h; cases h
      · exact e
  · intro h
    rw [if_neg]
    rintro h'
    have : ∃ x, x ∈ F.of s := by
      rcases h with h | ⟨t, γ, ht, h⟩
      · exact ⟨_, mem_of.2 (C35_empty_partial hw hb hF hs h)⟩
      · exact ⟨_, mem_of.2 (C35_symbols_partial hw ho hb hF hs ht h)⟩
    rw [h'] at this
    obtain ⟨x, hx⟩ := this
    cases hx

end Verif.Check
