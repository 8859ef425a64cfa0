import Verif.Grammar.SymModel

/-!
# C32, C33: symbols, terminals, start symbols, rule lookup
-/

namespace Verif.Grammar

variable {K : Type} [DecidableEq K]

/-! ### Specification -/

/-- How often the name is used as a symbol. -/
def uses (cs : List (Call K)) (name : K) : Nat := cs.countP fun c => match c with | .symbol n => n = name | _ => false

/-- The description given by the first declaration of a terminal. -/
def firstDescr : List (Call K) → K → Option K
  | [], _ => none
  | .pushTerm n d :: cs, name => if n = name then some d else firstDescr cs name
  | _ :: cs, name => firstDescr cs name

/-! ### Lemmas -/

/-- Invariant of the tables after some calls. -/
structure Inv (cs : List (Call K)) (t : Tables K) : Prop where
  symLt : ∀ k n, find t.symbols k = some n → n < t.next
  termLt : ∀ k n, find t.terminals k = some n → n < t.next
  startLt : ∀ n ∈ t.start, n < t.next
  descrLt : ∀ p ∈ t.descr, p.1 < t.next
  symInj : ∀ k k' n, find t.symbols k = some n → find t.symbols k' = some n → k = k'
  termInj : ∀ k k' n, find t.terminals k = some n → find t.terminals k' = some n → k = k'
  kinds : ∀ k k' n, find t.symbols k = some n → find t.terminals k' = some n → False
  used : ∀ k, (∃ n, find t.symbols k = some n) ↔ 0 < uses cs k
  startIff : ∀ k n, find t.symbols k = some n → (n ∈ t.start ↔ uses cs k = 1)
  declared : ∀ k d, firstDescr cs k = some d ↔ ∃ n, find t.terminals k = some n ∧ (n, d) ∈ t.descr
  descrFun : ∀ n d d', (n, d) ∈ t.descr → (n, d') ∈ t.descr → d = d'
  hasDescr : ∀ k n, find t.terminals k = some n → ∃ d, (n, d) ∈ t.descr

theorem find_cons (m : List (K × Nat)) (k k' : K) (n : Nat) :
    find ((k, n) :: m) k' = if k = k' then some n else find m k' := by
  by_cases h : k = k' <;> simp [find, h]

theorem inv_init : Inv ([] : List (Call K)) {} := by
  constructor <;> simp [find, uses, firstDescr]

theorem uses_append (a b : List (Call K)) (k : K) : uses (a ++ b) k = uses a k + uses b k := by simp [uses]

theorem uses_symbol (n k : K) : uses [Call.symbol n] k = if n = k then 1 else 0 := by
  by_cases h : n = k <;> simp [uses, h]

theorem firstDescr_append (a b : List (Call K)) (k : K) : firstDescr (a ++ b) k = (firstDescr a k).or (firstDescr b k) := by
  induction a with
  | nil => simp [firstDescr]
  | cons c cs ih =>
    cases c with
    | symbol n => simpa [firstDescr] using ih
    | term n => simpa [firstDescr] using ih
    | pushTerm n d =>
      by_cases h : n = k
      · simp [firstDescr, h]
      · simpa [firstDescr, h] using ih

theorem inv_call {cs : List (Call K)} {t : Tables K} (h : Inv cs t) (c : Call K) : Inv (cs ++ [c]) (call t c).1 := by
  cases c with
  | symbol name =>
    have hd : ∀ k, firstDescr (cs ++ [Call.symbol name]) k = firstDescr cs k := by
      intro k; simp [firstDescr_append, firstDescr]
    have hu : ∀ k, uses (cs ++ [Call.symbol name]) k = uses cs k + if name = k then 1 else 0 := by
      intro k; rw [uses_append, uses_symbol]
    cases hf : find t.symbols name with
    | none =>
      have hz : uses cs name = 0 := by
        have : ¬ 0 < uses cs name := fun hp => by
          obtain ⟨n, hn⟩ := (h.used name).2 hp
          rw [hf] at hn; cases hn
        omega
      simp only [call, pushSymbol, hf]
      constructor
      · intro k n hk; rw [find_cons] at hk
        split at hk
        · cases hk; simp
        · have := h.symLt k n hk; simp only; omega
      · intro k n hk; have := h.termLt k n hk; simp only; omega
      · intro n hn; simp only [List.mem_cons] at hn
        rcases hn with rfl | hn
        · simp
        · have := h.startLt n hn; simp only; omega
      · intro p hp; have := h.descrLt p hp; simp only; omega
      · intro k k' n hk hk'; rw [find_cons] at hk hk'
        split at hk <;> split at hk'
        · next a b => exact a.symm.trans b
        · cases hk; exact absurd (h.symLt _ _ hk') (by simp)
        · cases hk'; exact absurd (h.symLt _ _ hk) (by simp)
        · exact h.symInj k k' n hk hk'
      · exact h.termInj
      · intro k k' n hk hk'; rw [find_cons] at hk
        split at hk
        · cases hk; exact absurd (h.termLt _ _ hk') (by simp)
        · exact h.kinds k k' n hk hk'
      · intro k; rw [find_cons, hu]
        by_cases hn : name = k
        · simp [hn]
        · simp only [hn, if_false]; simpa using h.used k
      · intro k n hk; rw [find_cons] at hk; rw [hu]
        split at hk
        · next e => cases hk; rw [if_pos e, ← e, hz]; simp
        · next e =>
          have := h.symLt k n hk
          rw [if_neg e]
          simp only [List.mem_cons]
          rw [Nat.add_zero, ← h.startIff k n hk]
          constructor
          · rintro (rfl | hm)
            · omega
            · exact hm
          · exact Or.inr
      · intro k d; rw [hd]; exact h.declared k d
      · exact h.descrFun
      · exact h.hasDescr
    | some s =>
      simp only [call, pushSymbol, hf]
      constructor
      · exact h.symLt
      · exact h.termLt
      · intro n hn; exact h.startLt n (List.mem_filter.1 hn).1
      · exact h.descrLt
      · exact h.symInj
      · exact h.termInj
      · exact h.kinds
      · intro k; rw [hu, h.used]
        by_cases hn : name = k
        · have := (h.used name).1 ⟨s, hf⟩
          subst hn; simp; omega
        · simp [hn]
      · intro k n hk; rw [hu]
        simp only [List.mem_filter, ne_eq, decide_not, Bool.not_eq_true', decide_eq_false_iff_not]
        by_cases hn : name = k
        · subst hn
          rw [hf] at hk; cases hk
          have := (h.used name).1 ⟨s, hf⟩
          simp; omega
        · rw [h.startIff k n hk, if_neg hn]
          constructor
          · rintro ⟨a, _⟩; simpa using a
          · intro a; refine ⟨by simpa using a, ?_⟩
            rintro rfl; exact hn (h.symInj _ _ _ hf hk)
      · intro k d; rw [hd]; exact h.declared k d
      · exact h.descrFun
      · exact h.hasDescr
  | pushTerm name descr =>
    have hu : ∀ k, uses (cs ++ [Call.pushTerm name descr]) k = uses cs k := by
      intro k; simp [uses]
    have hd : ∀ k, firstDescr (cs ++ [Call.pushTerm name descr]) k = (firstDescr cs k).or (if name = k then some descr else none) := by
      intro k; simp [firstDescr_append, firstDescr]
    cases hf : find t.terminals name with
    | none =>
      simp only [call, pushTerminal, hf]
      have hno : firstDescr cs name = none := by
        cases e : firstDescr cs name with
        | none => rfl
        | some d => obtain ⟨n, hn, _⟩ := (h.declared name d).1 e; rw [hf] at hn; cases hn
      constructor
      · intro k n hk; have := h.symLt k n hk; simp only; omega
      · intro k n hk; rw [find_cons] at hk
        split at hk
        · cases hk; simp
        · have := h.termLt k n hk; simp only; omega
      · intro n hn; have := h.startLt n hn; simp only; omega
      · intro p hp; simp only [List.mem_cons] at hp
        rcases hp with rfl | hp
        · simp
        · have := h.descrLt p hp; simp only; omega
      · exact h.symInj
      · intro k k' n hk hk'; rw [find_cons] at hk hk'
        split at hk <;> split at hk'
        · next a b => exact a.symm.trans b
        · cases hk; exact absurd (h.termLt _ _ hk') (by simp)
        · cases hk'; exact absurd (h.termLt _ _ hk) (by simp)
        · exact h.termInj k k' n hk hk'
      · intro k k' n hk hk'; rw [find_cons] at hk'
        split at hk'
        · cases hk'; exact absurd (h.symLt _ _ hk) (by simp)
        · exact h.kinds k k' n hk hk'
      · intro k; rw [hu]; exact h.used k
      · intro k n hk; rw [hu]; exact h.startIff k n hk
      · intro k d; rw [hd]
        by_cases hn : name = k
        · subst hn
          simp only [hno, find_cons, if_true, Option.none_or, Option.some.injEq, List.mem_cons, Prod.mk.injEq]
          constructor
          · rintro rfl; exact ⟨_, rfl, Or.inl ⟨rfl, rfl⟩⟩
          · rintro ⟨n, rfl, ⟨_, rfl⟩ | hm⟩
            · rfl
            · exact absurd (h.descrLt _ hm) (by simp)
        · simp only [find_cons, hn, if_false, Option.or_none, List.mem_cons, Prod.mk.injEq]
          rw [h.declared]
          constructor
          · rintro ⟨n, a, b⟩; exact ⟨n, a, Or.inr b⟩
          · rintro ⟨n, a, ⟨rfl, _⟩ | b⟩
            · exact absurd (h.termLt _ _ a) (by simp)
            · exact ⟨n, a, b⟩
      · intro n d d' a b
        simp only [List.mem_cons, Prod.mk.injEq] at a b
        rcases a with ⟨rfl, rfl⟩ | a <;> rcases b with ⟨e, rfl⟩ | b
        · rfl
        · exact absurd (h.descrLt _ b) (by simp)
        · subst e; exact absurd (h.descrLt _ a) (by simp)
        · exact h.descrFun n d d' a b
      · intro k n hk; rw [find_cons] at hk
        split at hk
        · cases hk; exact ⟨descr, by simp⟩
        · obtain ⟨d, hd'⟩ := h.hasDescr k n hk; exact ⟨d, by simp [hd']⟩
    | some s =>
      simp only [call, pushTerminal, hf]
      have hs : ∀ k d, firstDescr (cs ++ [Call.pushTerm name descr]) k = some d ↔ firstDescr cs k = some d ∨
          (firstDescr cs k = none ∧ name = k ∧ descr = d) := by
        intro k d; rw [hd]
        cases e : firstDescr cs k with
        | none => by_cases hn : name = k <;> simp [hn]
        | some x => simp
      refine ⟨h.symLt, h.termLt, h.startLt, h.descrLt, h.symInj, h.termInj, h.kinds, ?_, ?_, ?_, h.descrFun, h.hasDescr⟩
      · intro k; rw [hu]; exact h.used k
      · intro k n hk; rw [hu]; exact h.startIff k n hk
      · intro k d
        rw [hs, ← h.declared]
        constructor
        · rintro (a | ⟨a, rfl, rfl⟩)
          · exact a
          · obtain ⟨d, hd'⟩ := h.hasDescr name s hf
            rw [(h.declared name d).2 ⟨s, hf, hd'⟩] at a; cases a
        · exact Or.inl
  | term name =>
    have hu : ∀ k, uses (cs ++ [Call.term name]) k = uses cs k := by
      intro k; simp [uses]
    have hd : ∀ k, firstDescr (cs ++ [Call.term name]) k = firstDescr cs k := by
      intro k; simp [firstDescr_append, firstDescr]
    cases hf : find t.terminals name with
    | none =>
      simp only [call, terminal, hf]
      constructor
      · intro k n hk; have := h.symLt k n hk; simp only; omega
      · intro k n hk; have := h.termLt k n hk; simp only; omega
      · intro n hn; have := h.startLt n hn; simp only; omega
      · intro p hp; simp only [List.mem_cons] at hp
        rcases hp with rfl | hp
        · simp
        · have := h.descrLt p hp; simp only; omega
      · exact h.symInj
      · exact h.termInj
      · exact h.kinds
      · intro k; rw [hu]; exact h.used k
      · intro k n hk; rw [hu]; exact h.startIff k n hk
      · intro k d; rw [hd, h.declared]
        simp only [List.mem_cons, Prod.mk.injEq]
        constructor
        · rintro ⟨n, a, b⟩; exact ⟨n, a, Or.inr b⟩
        · rintro ⟨n, a, ⟨rfl, _⟩ | b⟩
          · exact absurd (h.termLt _ _ a) (by simp)
          · exact ⟨n, a, b⟩
      · intro n d d' a b
        simp only [List.mem_cons, Prod.mk.injEq] at a b
        rcases a with ⟨rfl, rfl⟩ | a <;> rcases b with ⟨e, rfl⟩ | b
        · rfl
        · exact absurd (h.descrLt _ b) (by simp)
        · subst e; exact absurd (h.descrLt _ a) (by simp)
        · exact h.descrFun n d d' a b
      · intro k n hk; obtain ⟨d, hd'⟩ := h.hasDescr k n hk; exact ⟨d, by simp [hd']⟩
    | some s =>
      simp only [call, terminal, hf]
      refine ⟨h.symLt, h.termLt, h.startLt, h.descrLt, h.symInj, h.termInj, h.kinds, ?_, ?_, ?_, h.descrFun, h.hasDescr⟩
      · intro k; rw [hu]; exact h.used k
      · intro k n hk; rw [hu]; exact h.startIff k n hk
      · intro k d; rw [hd]; exact h.declared k d

theorem inv_run {cs : List (Call K)} {t : Tables K} (h : Inv cs t) (ds : List (Call K)) : Inv (cs ++ ds) (run t ds).1 := by
  induction ds generalizing cs t with
  | nil => simpa [run] using h
  | cons c ds ih =>
    have := ih (inv_call h c)
    simpa [run] using this

/-! ### C32 -/

/-- The tables after reading. -/
def tables (cs : List (Call K)) : Tables K := (run {} cs).1

/-- **C32.** A symbol is a start symbol exactly if its name is used once. -/
theorem C32_start_symbols (cs : List (Call K)) (name : K) :
    (∃ n, find (tables cs).symbols name = some n ∧ n ∈ (tables cs).start) ↔ uses cs name = 1 := by
  have h := inv_run (inv_init (K := K)) cs
  simp only [List.nil_append] at h
  constructor
  · rintro ⟨n, a, b⟩; exact (h.startIff name n a).1 b
  · intro e
    obtain ⟨n, hn⟩ := (h.used name).2 (by omega)
    exact ⟨n, hn, (h.startIff name n hn).2 e⟩

/-- The node a later use returns is the one an earlier use of the same name returned, and different names have different nodes. -/
theorem C32_same_symbol (cs ds : List (Call K)) (a b : K) :
    (pushSymbol (tables (cs ++ Call.symbol a :: ds)) b).2 = (pushSymbol (tables cs) a).2 ↔ a = b := by
  have key : ∀ (t : Tables K) (es : List (Call K)) n, find t.symbols a = some n → find (run t es).1.symbols a = some n := by
    intro t es n
    induction es generalizing t with
    | nil => simp [run]
    | cons c es ih =>
      intro hn
      refine ih _ ?_
      cases c with
      | symbol x =>
        simp only [call, pushSymbol]
        cases hx : find t.symbols x with
        | none =>
          simp only [find_cons]
          split
          · next e => subst e; rw [hn] at hx; cases hx
          · exact hn
        | some s => exact hn
      | pushTerm x d => simp only [call, pushTerminal]; split <;> exact hn
      | term x => simp only [call, terminal]; split <;> exact hn
  have hrun : ∀ (t : Tables K) (xs ys : List (Call K)), (run t (xs ++ ys)).1 = (run (run t xs).1 ys).1 := by
    intro t xs ys
    induction xs generalizing t with
    | nil => rfl
    | cons c xs ih => simpa [run] using ih (call t c).1
  have h1 : find (call (tables cs) (.symbol a)).1.symbols a = some (pushSymbol (tables cs) a).2 := by
    simp only [call, pushSymbol]
    cases hx : find (tables cs).symbols a with
    | none => simp [find_cons]
    | some s => simpa using hx
  have h2 : find (tables (cs ++ Call.symbol a :: ds)).symbols a = some (pushSymbol (tables cs) a).2 := by
    rw [tables, hrun]
    simp only [run]
    exact key _ _ _ h1
  have hinv := inv_run (inv_init (K := K)) (cs ++ Call.symbol a :: ds)
  simp only [List.nil_append] at hinv
  constructor
  · intro e
    generalize hT : tables (cs ++ Call.symbol a :: ds) = T at *
    rw [tables] at hT; rw [hT] at hinv
    simp only [pushSymbol] at e
    cases hb : find T.symbols b with
    | none =>
      rw [hb] at e
      simp only at e
      have := hinv.symLt _ _ h2
      rw [pushSymbol] at this
      omega
    | some s =>
      rw [hb] at e
      simp only at e
      subst e
      exact hinv.symInj _ _ _ h2 (by rw [hb]; rfl)
  · rintro rfl
    simp only [pushSymbol, h2]

/-- A declared terminal keeps the description of its first declaration, whatever calls follow. -/
theorem C32_terminal_description (cs : List (Call K)) (name descr : K) :
    firstDescr cs name = some descr ↔ ∃ n, find (tables cs).terminals name = some n ∧ ∀ d, (n, d) ∈ (tables cs).descr ↔ d = descr := by
  have h := inv_run (inv_init (K := K)) cs
  simp only [List.nil_append] at h
  rw [h.declared]
  constructor
  · rintro ⟨n, a, b⟩
    exact ⟨n, a, fun d => ⟨fun hd => h.descrFun n d descr hd b, fun e => e ▸ b⟩⟩
  · rintro ⟨n, a, b⟩
    exact ⟨n, a, (b descr).2 rfl⟩

/-- Declaring a declared terminal again changes nothing and returns the same node. -/
theorem C32_same_terminal (cs : List (Call K)) (name d d' : K) :
    (pushTerminal (pushTerminal (tables cs) name d).1 name d') = ((pushTerminal (tables cs) name d).1, (pushTerminal (tables cs) name d).2) ∧
      terminal (pushTerminal (tables cs) name d).1 name = ((pushTerminal (tables cs) name d).1, (pushTerminal (tables cs) name d).2) := by
  cases hx : find (tables cs).terminals name with
  | none => simp [pushTerminal, terminal, hx, find_cons]
  | some s => simp [pushTerminal, terminal, hx]

/-- Symbols and terminals are different nodes. -/
theorem C32_kinds (cs : List (Call K)) (a b : K) (n : Nat) (ha : find (tables cs).symbols a = some n) :
    find (tables cs).terminals b ≠ some n := by
  have h := inv_run (inv_init (K := K)) cs
  simp only [List.nil_append] at h
  exact fun hb => h.kinds a b n ha hb

/-- `expr -> start; NUM -> expr` : `start` is a start symbol, `expr` is not. -/
def sampleCalls : List (Call String) := [.pushTerm "NUM" "number", .symbol "expr", .symbol "start", .term "NUM", .symbol "expr", .pushTerm "NUM" "digits"]

example : (∃ n, find (tables sampleCalls).symbols "start" = some n ∧ n ∈ (tables sampleCalls).start) ∧
    ¬ (∃ n, find (tables sampleCalls).symbols "expr" = some n ∧ n ∈ (tables sampleCalls).start) ∧ firstDescr sampleCalls "NUM" = some "number" := by
  refine ⟨(C32_start_symbols _ _).2 (by decide), fun h => ?_, by decide⟩
  exact absurd ((C32_start_symbols _ _).1 h) (by decide)

/-! ### C33 -/

theorem lowerBound_spec {rules : List (Nat × Nat)} (hs : rules.Pairwise fun a b => ¬ b.1 < a.1) (sym first len : Nat)
    (hl : first + len ≤ rules.length)
    (h1 : ∀ (i : Nat) (r : Nat × Nat), i < first → rules[i]? = some r → r.1 < sym) (h2 : ∀ (i : Nat) (r : Nat × Nat), first + len ≤ i → rules[i]? = some r → ¬ r.1 < sym) :
    ∃ k, lowerBound rules sym first len = some k ∧ k ≤ rules.length ∧ (∀ (i : Nat) (r : Nat × Nat), i < k → rules[i]? = some r → r.1 < sym) ∧
      ∀ (i : Nat) (r : Nat × Nat), k ≤ i → rules[i]? = some r → ¬ r.1 < sym := by
  have mono : ∀ (i j : Nat) (a b : Nat × Nat), i < j → rules[i]? = some a → rules[j]? = some b → a.1 ≤ b.1 := by
    intro i j a b hij ha hb
    obtain ⟨hi, rfl⟩ := List.getElem?_eq_some_iff.1 ha
    obtain ⟨hj, rfl⟩ := List.getElem?_eq_some_iff.1 hb
    have := (List.pairwise_iff_getElem.1 hs) i j hi hj hij
    omega
  induction len using Nat.strongRecOn generalizing first with
  | _ len ih =>
    rw [lowerBound]
    by_cases h0 : len = 0
    · subst h0
      exact ⟨first, by simp, by omega, h1, by simpa using h2⟩
    · rw [dif_neg h0]
      have hlt : first + len / 2 < rules.length := by omega
      simp only [List.getElem?_eq_getElem hlt]
      by_cases hc : rules[first + len / 2].1 < sym
      · rw [if_pos hc]
        refine ih _ (by omega) _ (by omega) ?_ ?_
        · intro i r hi hr
          by_cases e : i = first + len / 2
          · subst e; rw [List.getElem?_eq_getElem hlt] at hr; cases hr; exact hc
          · have := mono i _ r _ (by omega : i < first + len / 2) hr (List.getElem?_eq_getElem hlt)
            omega
        · intro i r hi hr; exact h2 i r (by omega) hr
      · rw [if_neg hc]
        refine ih _ (by omega) _ (by omega) h1 ?_
        intro i r hi hr
        by_cases e : i = first + len / 2
        · subst e; rw [List.getElem?_eq_getElem hlt] at hr; cases hr; exact hc
        · have := mono _ i _ r (by omega : first + len / 2 < i) (List.getElem?_eq_getElem hlt) hr
          omega

/-- **C33.** The lookup never reads outside the list; it returns a rule of the symbol if there is one, and null otherwise. -/
theorem C33_search_rule (parsed sorted : List (Nat × Nat)) (hs : Sorted parsed sorted) (sym : Nat) :
    (∃ r ∈ parsed, r.1 = sym ∧ searchRule sorted sym = some (some r)) ∨
      ((∀ r ∈ parsed, r.1 ≠ sym) ∧ searchRule sorted sym = some none) := by
  obtain ⟨hp, ho⟩ := hs
  obtain ⟨k, hk, hle, hb, ha⟩ := lowerBound_spec ho sym 0 sorted.length (by omega) (by omega)
    (by intro i r hi hr; rw [List.getElem?_eq_none (by omega)] at hr; cases hr)
  have hmem : ∀ r, r ∈ parsed ↔ r ∈ sorted := fun r => (hp.mem_iff).symm
  rw [searchRule, hk]
  simp only
  cases hr : sorted[k]? with
  | none =>
    refine Or.inr ⟨fun r hrm he => ?_, rfl⟩
    obtain ⟨i, hi⟩ := List.getElem?_of_mem ((hmem r).1 hrm)
    have hil : i < sorted.length := (List.getElem?_eq_some_iff.1 hi).1
    have hkl : sorted.length ≤ k := by simpa using hr
    have := hb i r (by omega) hi
    omega
  | some r =>
    simp only
    by_cases he : r.1 = sym
    · rw [if_neg (by simpa using he)]
      exact Or.inl ⟨r, (hmem r).2 (List.mem_of_getElem? hr), he, rfl⟩
    · rw [if_pos he]
      refine Or.inr ⟨fun r' hrm he' => ?_, rfl⟩
      obtain ⟨i, hi⟩ := List.getElem?_of_mem ((hmem r').1 hrm)
      by_cases hik : i < k
      · have := hb i r' hik hi; omega
      · have h3 := ha k r (by omega) hr
        by_cases e : i = k
        · subst e; rw [hr] at hi; cases hi; exact he he'
        · obtain ⟨hi1, rfl⟩ := List.getElem?_eq_some_iff.1 hi
          obtain ⟨hk1, rfl⟩ := List.getElem?_eq_some_iff.1 hr
          have := (List.pairwise_iff_getElem.1 ho) k i hk1 hi1 (by omega)
          omega

/-- Of several rules of the symbol the first in the sorted list is returned. -/
theorem C33_first_of_several (sorted : List (Nat × Nat)) (ho : sorted.Pairwise fun a b => ¬ b.1 < a.1) (sym : Nat) (r : Nat × Nat)
    (h : searchRule sorted sym = some (some r)) : sorted.find? (fun q => q.1 = sym) = some r := by
  obtain ⟨k, hk, hle, hb, ha⟩ := lowerBound_spec ho sym 0 sorted.length (by omega) (by omega)
    (by intro i r hi hr; rw [List.getElem?_eq_none (by omega)] at hr; cases hr)
  rw [searchRule, hk] at h
  simp only at h
  cases hr : sorted[k]? with
  | none => rw [hr] at h; cases h
  | some q =>
    rw [hr] at h
    simp only at h
    split at h
    · cases h
    · next he =>
      cases h
      rw [List.find?_eq_some_iff_getElem]
      obtain ⟨hk1, e⟩ := List.getElem?_eq_some_iff.1 hr
      refine ⟨by simpa using he, k, hk1, e, fun j hj => ?_⟩
      have := hb j _ hj (List.getElem?_eq_getElem (by omega))
      simp; omega

/-- Without the sorting the lookup can miss a rule. -/
theorem C33_needs_sorting : ∃ rules : List (Nat × Nat), (5, 0) ∈ rules ∧ searchRule rules 5 = some none :=
  ⟨[(5, 0), (3, 1)], by decide, by decide +kernel⟩

example : searchRule [(3, 1), (5, 0), (5, 2), (8, 3)] 5 = some (some (5, 0)) ∧ searchRule [(3, 1), (5, 0), (5, 2), (8, 3)] 4 = some none := by
  decide +kernel

end Verif.Grammar
