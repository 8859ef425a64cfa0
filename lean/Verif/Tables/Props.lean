import Verif.Tables.Model
import Mathlib.Data.List.Nodup
import Mathlib.Data.List.Perm.Basic

/-!
# C44, C45, C46, C65: enumerations, tables, order of the AST structures
-/

namespace Verif.Tables

/-! ### C44 -/

variable {le : Text → Text → Bool}

theorem insertKey_perm (n : Text) : ∀ ms : List Text, (insertKey le n ms).Perm (n :: ms)
  | [] => .refl _
  | m :: ms => by
    unfold insertKey
    split
    · exact .refl _
    · exact ((insertKey_perm n ms).cons m).trans (.swap n m ms)

theorem pushTerminal_mem {ts : List Text} {n x : Text} : x ∈ pushTerminal le ts n ↔ x = n ∨ x ∈ ts := by
  unfold pushTerminal
  split
  · rename_i h
    exact ⟨.inr, fun h' => h'.elim (fun e => e ▸ h) id⟩
  · rw [(insertKey_perm n ts).mem_iff, List.mem_cons]

theorem pushTerminal_nodup {ts : List Text} {n : Text} (h : ts.Nodup) : (pushTerminal le ts n).Nodup := by
  unfold pushTerminal
  split
  · exact h
  · rename_i hn
    exact (insertKey_perm n ts).nodup_iff.2 (List.nodup_cons.2 ⟨hn, h⟩)

theorem foldl_nodup (ds : List Text) : ∀ {ts : List Text}, ts.Nodup → (ds.foldl (pushTerminal le) ts).Nodup := by
  induction ds with
  | nil => exact fun h => h
  | cons d ds ih => exact fun h => ih (pushTerminal_nodup h)

theorem foldl_mem (ds : List Text) {x : Text} : ∀ {ts : List Text}, x ∈ ds.foldl (pushTerminal le) ts ↔ x ∈ ds ∨ x ∈ ts := by
  induction ds with
  | nil => simp
  | cons d ds ih =>
    intro ts
    rw [List.foldl_cons, ih, pushTerminal_mem, List.mem_cons, or_left_comm, or_assoc]

theorem tokens_names (v : Nat) (ts : List Text) : (tokens v ts).map Prod.fst = ts := by
  induction ts generalizing v with
  | nil => rfl
  | cons t ts ih => unfold tokens; split <;> simp [ih]

theorem tokens_values {v : Nat} {ts : List Text} {t : Text} {i : Nat} (h : (t, i) ∈ tokens v ts) : (t = eof ∧ i = 1000) ∨ (t ≠ eof ∧ v ≤ i) := by
  induction ts generalizing v with
  | nil => cases h
  | cons s ts ih =>
    unfold tokens at h
    split at h
    · rename_i hs
      rcases List.mem_cons.1 h with h | h
      · cases h; exact .inl ⟨hs, rfl⟩
      · exact ih h
    · rename_i hs
      rcases List.mem_cons.1 h with h | h
      · cases h; exact .inr ⟨hs, Nat.le_refl _⟩
      · rcases ih h with h | ⟨h1, h2⟩
        · exact .inl h
        · exact .inr ⟨h1, by omega⟩

theorem tokens_inj {v : Nat} {ts : List Text} {s t : Text} {i : Nat} (hv : 1000 < v) (hs : (s, i) ∈ tokens v ts) (ht : (t, i) ∈ tokens v ts) : s = t := by
  induction ts generalizing v with
  | nil => cases hs
  | cons a ts ih =>
    unfold tokens at hs ht
    split at hs
    · rename_i ha
      rw [if_pos ha] at ht
      rcases List.mem_cons.1 hs with h | h <;> rcases List.mem_cons.1 ht with h' | h'
      · cases h; cases h'; rfl
      · cases h
        rcases tokens_values h' with ⟨h1, -⟩ | ⟨-, h1⟩
        · rw [ha, h1]
        · omega
      · cases h'
        rcases tokens_values h with ⟨h1, -⟩ | ⟨-, h1⟩
        · rw [ha, h1]
        · omega
      · exact ih hv h h'
    · rename_i ha
      rw [if_neg ha] at ht
      rcases List.mem_cons.1 hs with h | h <;> rcases List.mem_cons.1 ht with h' | h'
      · cases h; cases h'; rfl
      · cases h
        rcases tokens_values h' with ⟨-, h1⟩ | ⟨-, h1⟩ <;> omega
      · cases h'
        rcases tokens_values h with ⟨-, h1⟩ | ⟨-, h1⟩ <;> omega
      · exact ih (by omega) h h'

/-- C44: each declared token and `EOF` has exactly one number, the numbers are different, `EOF` has 1000 and no other token has. -/
theorem C44_numbering (le : Text → Text → Bool) (decls : List Text) :
    (∀ t, (t ∈ decls ∨ t = eof) ↔ ∃ i, (t, i) ∈ tokenType (terminals le decls)) ∧
    ((tokenType (terminals le decls)).map Prod.fst).Nodup ∧
    (∀ s t i, (s, i) ∈ tokenType (terminals le decls) → (t, i) ∈ tokenType (terminals le decls) → s = t) ∧
    (∀ t i, (t, i) ∈ tokenType (terminals le decls) → (t = eof ↔ i = 1000)) := by
  refine ⟨fun t => ?_, ?_, fun s t i => tokens_inj (by decide), fun t i h => ?_⟩
  · have : t ∈ (tokenType (terminals le decls)).map Prod.fst ↔ t ∈ decls ∨ t = eof := by
      rw [tokenType, tokens_names, terminals, pushTerminal_mem, foldl_mem]
      simp [or_comm]
    rw [← this]
    simp
  · rw [tokenType, tokens_names]
    exact pushTerminal_nodup (foldl_nodup decls List.nodup_nil)
  · rcases tokens_values h with ⟨h1, h2⟩ | ⟨h1, h2⟩
    · simp [h1, h2]
    · exact ⟨fun h => absurd h h1, fun h => by omega⟩

example : tokenType (terminals (fun a b => decide (a ≤ b)) ["ID".toList, "COMMA".toList, "ID".toList]) = [("COMMA".toList, 1001), ("EOF".toList, 1000), ("ID".toList, 1002)] := by
  decide +kernel

/-- `TokenTypeSize` is not more than all tokens: with `EOF` as last token it is the number of another one. -/
theorem C44_fails_size : tokenTypeSize (terminals (fun a b => decide (a ≤ b)) ["A".toList, "B".toList]) = 1001 ∧
    ("A".toList, 1001) ∈ tokenType (terminals (fun a b => decide (a ≤ b)) ["A".toList, "B".toList]) := by decide +kernel

/-! ### C45 -/

/-- The structures that the generated parser makes nodes of: those of the operators for operator symbols, else that of the symbol. -/
def Made (ss : List Sym) (n : Text) : Prop := ∃ s ∈ ss, (s.op = true ∧ ∃ k ∈ ["Prefix", "Postfix", "Binary", "Ternary"], n = String.toList k ++ s.name) ∨ (s.op = false ∧ n = s.name)

theorem kinds_length (ss : List Sym) (i : Nat) : (kinds i ss).length = (table ss).length := by
  induction ss generalizing i with
  | nil => rfl
  | cons s ss ih => unfold kinds table; split <;> simp [ih]

/-- The kind in position `j` has the number `i + j`, and the entry of the table for it is its function, or null for the structure of an operator symbol itself. -/
theorem kinds_table {ss : List Sym} {i j : Nat} {n : Text} {k : Nat} (h : (kinds i ss)[j]? = some (n, k)) :
    k = i + j ∧ ((table ss)[j]? = some (some n) ∨ ((table ss)[j]? = some none ∧ ∃ s ∈ ss, s.op = true ∧ n = s.name)) := by
  induction ss generalizing i j with
  | nil => simp [kinds] at h
  | cons s ss ih =>
    unfold kinds at h
    unfold table
    by_cases hs : s.op = true
    · rw [if_pos hs] at h ⊢
      match j, h with
      | 0, h => simp at h; obtain ⟨rfl, rfl⟩ := h; exact ⟨rfl, .inl rfl⟩
      | 1, h => simp at h; obtain ⟨rfl, rfl⟩ := h; exact ⟨rfl, .inl rfl⟩
      | 2, h => simp at h; obtain ⟨rfl, rfl⟩ := h; exact ⟨rfl, .inl rfl⟩
      | 3, h => simp at h; obtain ⟨rfl, rfl⟩ := h; exact ⟨rfl, .inl rfl⟩
      | 4, h => simp at h; obtain ⟨rfl, rfl⟩ := h; exact ⟨rfl, .inr ⟨rfl, s, by simp, hs, rfl⟩⟩
      | j + 5, h =>
        simp only [List.getElem?_cons_succ] at h ⊢
        obtain ⟨h1, h2⟩ := ih h
        refine ⟨by omega, h2.imp id fun ⟨h2, t, ht, h3⟩ => ⟨h2, t, by simp [ht], h3⟩⟩
    · rw [if_neg hs] at h ⊢
      match j, h with
      | 0, h => simp at h; obtain ⟨rfl, rfl⟩ := h; exact ⟨rfl, .inl rfl⟩
      | j + 1, h =>
        simp only [List.getElem?_cons_succ] at h ⊢
        obtain ⟨h1, h2⟩ := ih h
        refine ⟨by omega, h2.imp id fun ⟨h2, t, ht, h3⟩ => ⟨h2, t, by simp [ht], h3⟩⟩

/-- The position of a structure that nodes are made of. -/
theorem made_pos {ss : List Sym} {n : Text} (h : Made ss n) (i : Nat) : ∃ j, (kinds i ss)[j]? = some (n, i + j) ∧ (table ss)[j]? = some (some n) := by
  induction ss generalizing i with
  | nil => obtain ⟨s, hs, -⟩ := h; cases hs
  | cons s ss ih =>
    obtain ⟨t, ht, h⟩ := h
    unfold kinds table
    rcases List.mem_cons.1 ht with rfl | ht
    · rcases h with ⟨h1, k, hk, rfl⟩ | ⟨h1, rfl⟩
      · rw [if_pos h1, if_pos h1]
        simp only [List.mem_cons, List.not_mem_nil, or_false] at hk
        rcases hk with rfl | rfl | rfl | rfl
        · exact ⟨0, rfl, rfl⟩
        · exact ⟨1, rfl, rfl⟩
        · exact ⟨2, rfl, rfl⟩
        · exact ⟨3, rfl, rfl⟩
      · rw [if_neg (by simp [h1]), if_neg (by simp [h1])]
        exact ⟨0, rfl, rfl⟩
    · split
      · obtain ⟨j, hj, hj'⟩ := ih ⟨t, ht, h⟩ (i + 5)
        exact ⟨j + 5, by simp only [List.getElem?_cons_succ, hj]; simp; omega, by simp only [List.getElem?_cons_succ, hj']⟩
      · obtain ⟨j, hj, hj'⟩ := ih ⟨t, ht, h⟩ (i + 1)
        exact ⟨j + 1, by simp only [List.getElem?_cons_succ, hj]; simp; omega, by simp only [List.getElem?_cons_succ, hj']⟩

/-- What is in the table is made. -/
theorem made_of_table {ss : List Sym} {n : Text} {j : Nat} (h : (table ss)[j]? = some (some n)) : Made ss n := by
  induction ss generalizing j with
  | nil => simp [table] at h
  | cons s ss ih =>
    have lift : Made ss n → Made (s :: ss) n := fun ⟨t, ht, h⟩ => ⟨t, List.mem_cons_of_mem _ ht, h⟩
    unfold table at h
    by_cases hs : s.op = true
    · rw [if_pos hs] at h
      match j, h with
      | 0, h => simp at h; exact ⟨s, List.mem_cons_self, .inl ⟨hs, "Prefix", by simp, h.symm⟩⟩
      | 1, h => simp at h; exact ⟨s, List.mem_cons_self, .inl ⟨hs, "Postfix", by simp, h.symm⟩⟩
      | 2, h => simp at h; exact ⟨s, List.mem_cons_self, .inl ⟨hs, "Binary", by simp, h.symm⟩⟩
      | 3, h => simp at h; exact ⟨s, List.mem_cons_self, .inl ⟨hs, "Ternary", by simp, h.symm⟩⟩
      | 4, h => simp at h
      | j + 5, h =>
        simp only [List.getElem?_cons_succ] at h
        exact lift (ih h)
    · rw [if_neg hs] at h
      match j, h with
      | 0, h => simp at h; exact ⟨s, List.mem_cons_self, .inr ⟨by simpa using hs, h.symm⟩⟩
      | j + 1, h =>
        simp only [List.getElem?_cons_succ] at h
        exact lift (ih h)

theorem kinds_value {ss : List Sym} {i : Nat} {n : Text} {k : Nat} (h : (n, k) ∈ kinds i ss) : i ≤ k ∧ (kinds i ss)[k - i]? = some (n, k) := by
  obtain ⟨j, hj⟩ := List.mem_iff_getElem?.1 h
  obtain ⟨rfl, -⟩ := kinds_table hj
  exact ⟨by omega, by rw [Nat.add_sub_cancel_left]; exact hj⟩

theorem mem_cases {ss : List Sym} {n : Text} : n ∈ cases ss ↔ Made ss n := by
  induction ss with
  | nil => simp [cases, Made]
  | cons s ss ih =>
    unfold cases
    have : Made (s :: ss) n ↔ ((s.op = true ∧ ∃ k ∈ ["Prefix", "Postfix", "Binary", "Ternary"], n = String.toList k ++ s.name) ∨ (s.op = false ∧ n = s.name)) ∨ Made ss n := by
      simp only [Made, List.mem_cons, exists_eq_or_imp]
    rw [this]
    by_cases hs : s.op = true
    · rw [if_pos hs]
      simp only [List.mem_cons, ih, hs, true_and, Bool.true_eq_false, false_and, or_false, List.not_mem_nil, exists_eq_or_imp, exists_eq_left, or_assoc]
    · rw [if_neg hs]
      have hs' : s.op = false := by simpa using hs
      simp [List.mem_cons, ih, hs']

theorem cases_sublist (ss : List Sym) (i : Nat) : (cases ss).Sublist ((kinds i ss).map Prod.fst) := by
  induction ss generalizing i with
  | nil => exact .refl _
  | cons s ss ih =>
    unfold cases kinds
    split
    · exact ((((((ih _).cons _).cons_cons _).cons_cons _).cons_cons _).cons_cons _)
    · exact (ih _).cons_cons _

/-- The value of an enumerator. -/
theorem lookup_iff {l : List (Text × Nat)} (hd : (l.map Prod.fst).Nodup) {n : Text} {k : Nat} : l.lookup n = some k ↔ (n, k) ∈ l := by
  induction l with
  | nil => simp
  | cons a l ih =>
    obtain ⟨m, j⟩ := a
    rw [List.map_cons, List.nodup_cons] at hd
    rw [List.lookup_cons]
    by_cases h : n = m
    · subst h
      simp only [beq_self_eq_true, List.mem_cons, Prod.mk.injEq, true_and, Option.some.injEq]
      refine ⟨fun e => .inl e.symm, fun h => h.elim Eq.symm fun h => absurd (List.mem_map_of_mem (f := Prod.fst) h) hd.1⟩
    · have : (n == m) = false := by simpa using h
      rw [this]
      simp only [List.mem_cons, Prod.mk.injEq, h, false_and, false_or]
      exact ih hd.2

/-- Kinds with the same number are the same. -/
theorem kinds_unique {ss : List Sym} {m n : Text} {k : Nat} (hm : (m, k) ∈ kinds 1000 ss) (hn : (n, k) ∈ kinds 1000 ss) : m = n := by
  have h1 := (kinds_value hm).2
  rw [(kinds_value hn).2] at h1
  simp only [Option.some.injEq, Prod.mk.injEq, and_true] at h1
  exact h1.symm

theorem names_unique {l : List (Text × Nat)} (hd : (l.map Prod.fst).Nodup) {n : Text} {j k : Nat} (hj : (n, j) ∈ l) (hk : (n, k) ∈ l) : j = k := by
  have h1 := (lookup_iff hd).2 hj
  rw [(lookup_iff hd).2 hk] at h1
  exact (Option.some.inj h1).symm

/-- C45: the numbers of the kinds are different and those from 1000 on; there is one for each structure that nodes are made of.  The names of the enumerators
have to be different, else the enumeration is not valid C++. -/
theorem C45_kinds (ss : List Sym) : (kinds 1000 ss).map Prod.snd = List.range' 1000 (kinds 1000 ss).length ∧ ∀ n, Made ss n → ∃ k, (n, k) ∈ kinds 1000 ss := by
  refine ⟨List.ext_getElem? fun j => ?_, fun n hn => ?_⟩
  · rw [List.getElem?_map]
    rcases h : (kinds 1000 ss)[j]? with _ | ⟨n, k⟩
    · have := List.getElem?_eq_none_iff.1 h
      simp [this]
    · have h1 := (List.getElem?_eq_some_iff.1 h).1
      rw [(kinds_table h).1]
      simp [List.getElem?_range', h1]
  · obtain ⟨j, hj, -⟩ := made_pos hn 1000
    exact ⟨_, List.mem_of_getElem? hj⟩

/-- C45: for a node of a kind that nodes are made of, `visitNode` with the table calls the function for this kind; with other kinds, it calls nothing. -/
theorem C45_table {ss : List Sym} (hd : ((kinds 1000 ss).map Prod.fst).Nodup) {n : Text} {k : Nat} (hk : (n, k) ∈ kinds 1000 ss) (m : Text) :
    visitTable ss k = some m ↔ Made ss n ∧ m = n := by
  obtain ⟨h1, h2⟩ := kinds_value hk
  have ht : visitTable ss k = ((table ss)[k - 1000]?).join := by
    unfold visitTable
    rw [if_neg (by omega)]
  constructor
  · intro h
    rw [ht, Option.join_eq_some_iff] at h
    rcases (kinds_table h2).2 with h3 | ⟨h3, -⟩
    · rw [h3] at h
      cases h
      exact ⟨made_of_table h3, rfl⟩
    · rw [h3] at h; cases h
  · rintro ⟨h, rfl⟩
    obtain ⟨j, hj, hj'⟩ := made_pos h 1000
    have := names_unique hd hk (List.mem_of_getElem? hj)
    subst this
    rw [ht, Nat.add_sub_cancel_left, hj']
    rfl

/-- C45: the version with `switch` does the same as the one with the table. -/
theorem C45_switch {ss : List Sym} (hd : ((kinds 1000 ss).map Prod.fst).Nodup) {n : Text} {k : Nat} (hk : (n, k) ∈ kinds 1000 ss) :
    visitSwitch ss k = visitTable ss k := by
  have key : ∀ m, visitSwitch ss k = some m → Made ss m ∧ m = n := by
    intro m h
    have h1 := List.mem_of_find?_eq_some h
    have h2 := List.find?_some h
    rw [beq_iff_eq, lookup_iff hd] at h2
    exact ⟨mem_cases.1 h1, kinds_unique h2 hk⟩
  by_cases h : Made ss n
  · rw [(C45_table hd hk n).2 ⟨h, rfl⟩]
    rcases hs : visitSwitch ss k with _ | m
    · exfalso
      have := List.find?_eq_none.1 hs n (mem_cases.2 h)
      rw [beq_iff_eq, lookup_iff hd] at this
      exact this hk
    · rw [(key m hs).2]
  · have h1 : visitTable ss k = none := by
      rcases ht : visitTable ss k with _ | m
      · rfl
      · exact absurd ((C45_table hd hk m).1 ht).1 h
    rw [h1]
    rcases hs : visitSwitch ss k with _ | m
    · rfl
    · obtain ⟨h2, rfl⟩ := key m hs
      exact absurd h2 h

/-- The symbols for the examples. -/
def syms : List Sym := [⟨"Document".toList, false⟩, ⟨"Expr".toList, true⟩, ⟨"Number".toList, false⟩]

example : ((kinds 1000 syms).map Prod.fst).Nodup ∧ ("TernaryExpr".toList, 1004) ∈ kinds 1000 syms ∧ visitTable syms 1004 = some "TernaryExpr".toList ∧
    ("Expr".toList, 1005) ∈ kinds 1000 syms ∧ visitTable syms 1005 = none ∧ visitSwitch syms 1006 = some "Number".toList := by decide +kernel

/-- The names may be equal: a symbol `binaryExpr` beside operators for `expr`. -/
theorem C45_fails_names : ¬ ((kinds 1000 [⟨"Expr".toList, true⟩, ⟨"BinaryExpr".toList, false⟩]).map Prod.fst).Nodup := by decide +kernel

/-! ### C46 -/

/-- The structures for a symbol. -/
def structsOf (s : Struct) : List Text :=
  if s.op then [s.name ++ "Ast".toList, "Prefix".toList ++ s.name ++ "Ast".toList, "Postfix".toList ++ s.name ++ "Ast".toList, "Binary".toList ++ s.name ++ "Ast".toList,
    "Ternary".toList ++ s.name ++ "Ast".toList]
  else [s.name ++ "Ast".toList]

/-- `a` is in the list, and before each `b`. -/
def Before (l : List Text) (a b : Text) : Prop := ∃ x y, l = x ++ y ∧ a ∈ x ∧ b ∉ x ∧ b ∈ y

/-- Base classes are class names: they do not begin with a space. -/
def BasesOk (ss : List Struct) : Prop := ∀ s ∈ ss, s.base.head? ≠ some ' '

/-- What is in `mGenerated`. -/
def GenOk (g : Gen) : Prop := ∀ t ∈ g.generated, t.head? = some ' '

variable {push : Struct → List Struct → List Struct}

theorem write_out (g : Gen) (s : Struct) : (writeStruct g s).out = g.out ++ structsOf s := by
  unfold writeStruct structsOf
  split <;> rfl

theorem write_to (g : Gen) (s : Struct) : (writeStruct g s).toGenerate = g.toGenerate := by
  unfold writeStruct
  split <;> rfl

theorem write_ok {g : Gen} (s : Struct) (h : GenOk g) : GenOk (writeStruct g s) := by
  unfold writeStruct
  split
  · intro t ht
    simp only [List.mem_cons] at ht
    rcases ht with rfl | rfl | ht
    · rfl
    · rfl
    · exact h t ht
  · exact h

theorem not_generated {g : Gen} {s : Struct} (h : GenOk g) (hb : s.base.head? ≠ some ' ') : s.base ∉ g.generated := fun h' => hb (h _ h')

/-- The first loop: the symbols without base are written, the others are put aside. -/
theorem first_loop (hp : ∀ s l, (push s l).Perm (s :: l)) (ss : List Struct) : ∀ (g : Gen), GenOk g → BasesOk ss →
    (ss.foldl (genAst push false true) g).out = g.out ++ (ss.filter fun s => s.base.isEmpty).flatMap structsOf ∧
    (ss.foldl (genAst push false true) g).toGenerate.Perm (ss.filter (fun s => !s.base.isEmpty) ++ g.toGenerate) ∧
    GenOk (ss.foldl (genAst push false true) g) := by
  induction ss with
  | nil => exact fun g hg _ => ⟨by simp, by simp, hg⟩
  | cons s ss ih =>
    intro g hg hb
    have hb' : BasesOk ss := fun t ht => hb t (by simp [ht])
    have hn := not_generated hg (hb s (by simp))
    rw [List.foldl_cons]
    by_cases h : s.base.isEmpty = true
    · have e : genAst push false true g s = writeStruct g s := by simp [genAst, h]
      rw [e]
      obtain ⟨h1, h2, h3⟩ := ih (writeStruct g s) (write_ok s hg) hb'
      refine ⟨?_, ?_, h3⟩
      · rw [h1, write_out]; simp [h]
      · rw [write_to] at h2; simpa [h] using h2
    · have e : genAst push false true g s = { g with toGenerate := push s g.toGenerate } := by simp [genAst, h, hn]
      rw [e]
      obtain ⟨h1, h2, h3⟩ := ih { g with toGenerate := push s g.toGenerate } hg hb'
      refine ⟨?_, ?_, h3⟩
      · rw [h1]; simp [h]
      · refine h2.trans ?_
        simp only [h, Bool.not_false, List.filter_cons, if_true, List.cons_append]
        exact (((hp s g.toGenerate).append_left _).trans List.perm_middle)

/-- A pass that writes nothing. -/
theorem idle_pass (l : List Struct) : ∀ (g : Gen), GenOk g → (∀ s ∈ l, s.base ≠ [] ∧ s.base.head? ≠ some ' ') → l.foldl (genAst push false false) g = g := by
  induction l with
  | nil => exact fun _ _ _ => rfl
  | cons s l ih =>
    intro g hg h
    have hn := not_generated hg (h s (by simp)).2
    have e : genAst push false false g s = g := by simp [genAst, (h s (by simp)).1, hn]
    rw [List.foldl_cons, e]
    exact ih g hg fun t ht => h t (by simp [ht])

/-- The last pass writes the symbols put aside. -/
theorem force_pass (l : List Struct) : ∀ (g : Gen), (l.foldl (genAst push true false) g).out = g.out ++ l.flatMap structsOf := by
  induction l with
  | nil => simp
  | cons s l ih =>
    intro g
    rw [List.foldl_cons, ih]
    simp [genAst, write_out]

/-- The structures are those of the symbols without base class, then those of the symbols with base class in the order of the set. -/
theorem genAsts_eq (hp : ∀ s l, (push s l).Perm (s :: l)) {ss : List Struct} (hb : BasesOk ss) :
    ∃ L : List Struct, L.Perm (ss.filter fun s => !s.base.isEmpty) ∧ genAsts push ss = (ss.filter fun s => s.base.isEmpty).flatMap structsOf ++ L.flatMap structsOf := by
  obtain ⟨h1, h2, h3⟩ := first_loop hp ss {} (fun t ht => by cases ht) hb
  refine ⟨(ss.foldl (genAst push false true) {}).toGenerate, by simpa using h2, ?_⟩
  have hm : ∀ s ∈ (ss.foldl (genAst push false true) {}).toGenerate, s.base ≠ [] ∧ s.base.head? ≠ some ' ' := by
    intro s hs
    have := h2.mem_iff.1 hs
    simp at this
    exact ⟨this.2, hb s this.1⟩
  have e : pass push false (ss.foldl (genAst push false true) {}) = ss.foldl (genAst push false true) {} := idle_pass (push := push) _ _ h3 hm
  have e' : passes push ((ss.foldl (genAst push false true) {}).toGenerate.length + 1) (ss.foldl (genAst push false true) {}) =
      ss.foldl (genAst push false true) {} := by
    unfold passes
    simp only [e, if_true]
  unfold genAsts
  simp only [e']
  unfold pass
  rw [force_pass, h1]
  simp

/-- C46: each structure is written, as often as there are symbols for it. -/
theorem C46_all (hp : ∀ s l, (push s l).Perm (s :: l)) {ss : List Struct} (hb : BasesOk ss) : (genAsts push ss).Perm (ss.flatMap structsOf) := by
  obtain ⟨L, hL, e⟩ := genAsts_eq hp hb
  rw [e, ← List.flatMap_append]
  refine List.Perm.flatMap_right _ ?_
  refine (hL.append_left _).trans ?_
  exact List.filter_append_perm _ ss

/-- C46, in part: the structure of a base class comes before those derived from it if it has no base class itself.  Missing: base classes with base classes
(see `C46_fails_chain`). -/
theorem C46_order_partial (hp : ∀ s l, (push s l).Perm (s :: l)) {ss : List Struct} (hb : BasesOk ss) (hd : (ss.flatMap structsOf).Nodup) {s t : Struct} (hs : s ∈ ss)
    (ht : t ∈ ss) (ht0 : t.base = []) (hst : s.base ∈ structsOf t) {n : Text} (hn : n ∈ structsOf s) : Before (genAsts push ss) s.base n := by
  obtain ⟨L, hL, e⟩ := genAsts_eq hp hb
  have hd' : (genAsts push ss).Nodup := (C46_all hp hb).nodup_iff.2 hd
  have hs0 : s.base.isEmpty = false := by
    unfold structsOf at hst
    rcases h : s.base with _ | ⟨c, r⟩
    · exfalso; rw [h] at hst; split at hst <;> simp at hst
    · rfl
  have hy : n ∈ L.flatMap structsOf := List.mem_flatMap.2 ⟨s, hL.mem_iff.2 (List.mem_filter.2 ⟨hs, by simp [hs0]⟩), hn⟩
  refine ⟨_, _, e, List.mem_flatMap.2 ⟨t, List.mem_filter.2 ⟨ht, by simp [ht0]⟩, hst⟩, ?_, hy⟩
  rw [e] at hd'
  exact fun h => (List.nodup_append.1 hd').2.2 _ h _ hy rfl

/-- Symbols for the examples: `expr` with base class `NodeAst`, operators `sum` with base class `ExprAst`. -/
def structs : List Struct := [⟨"Expr".toList, "NodeAst".toList, false⟩, ⟨"Node".toList, [], false⟩, ⟨"Sum".toList, "ExprAst".toList, true⟩]

example : BasesOk structs ∧ (structs.flatMap structsOf).Nodup ∧ "NodeAst".toList ∈ structsOf ⟨"Node".toList, [], false⟩ ∧
    genAsts (fun s l => l ++ [s]) structs = ["NodeAst".toList, "ExprAst".toList, "SumAst".toList, "PrefixSumAst".toList, "PostfixSumAst".toList, "BinarySumAst".toList,
      "TernarySumAst".toList] :=
  ⟨by intro s hs; simp [structs] at hs; rcases hs with rfl | rfl | rfl <;> decide, by decide +kernel, by decide, by decide +kernel⟩

example (s : Struct) (l : List Struct) : ((fun s l => l ++ [s]) s l).Perm (s :: l) := List.perm_append_singleton s l

/-- With another order of the set, the structure of the operators comes before that of its base class. -/
theorem C46_fails_chain : genAsts (fun s l => s :: l) structs = ["NodeAst".toList, "SumAst".toList, "PrefixSumAst".toList, "PostfixSumAst".toList, "BinarySumAst".toList,
    "TernarySumAst".toList, "ExprAst".toList] := by decide +kernel

/-! ### C65 -/

/-- C65: for each kind of items of the grammar, the generator's own table has the function for this kind at its number; the numbers are those of the table. -/
theorem C65_dispatch (k : Kind) : k ≠ .item → sTable[k.value]? = some (some k) := by cases k <;> simp [Kind.value, sTable]

/-- The numbers are different. -/
theorem C65_numbers {j k : Kind} (h : j.value = k.value) : j = k := by cases j <;> cases k <;> first | rfl | exact absurd h (by decide)

end Verif.Tables
