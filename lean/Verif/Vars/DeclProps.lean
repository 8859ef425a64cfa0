import Verif.Vars.DeclLemmas

/-!
# Properties C74 to C77: declarations in the generated code
-/

namespace Verif.Vars

/-! ## C74: members -/

/-- C74 (partial): for a symbol with a single rule and consistent names, one structure is emitted, no identifier is declared in it twice, all its members are
variables of the rule, and it has every member variable, in particular every member the parser function assigns, with the right type.  Missing: several rules,
operator rules, inconsistent names (see the theorems below). -/
theorem C74_members_partial (G : Grammar) {f s : Nat} {r : Rule} {l : List Struct} (hr : G.rules s = [r]) (ho : r.item ≠ .op) (hc : Consistent G r false)
    (h : structs G f s = some l) : ∃ ms, l = [⟨"", ms⟩] ∧ (ms.map (·.ident)).Nodup ∧ (∀ m ∈ ms, Has G r m ∧ m.temp = false) ∧
      (∀ d, Has G r d → d.temp = false → ∃ m ∈ ms, m.ident = d.ident ∧ m.ctype = d.ctype) ∧
      ∀ f' c k code k', emit G f' r.item c k = some (code, k') → ∀ d ∈ code.assigns, d.temp = false → ∃ m ∈ ms, m.ident = d.ident ∧ m.ctype = d.ctype := by
  simp only [structs, hr, structLoop, ruleStructs, if_neg ho, Option.bind_eq_some_iff, Option.map_eq_some_iff] at h
  obtain ⟨p, ⟨v, hv, rfl⟩, q, hq, rfl⟩ := h
  simp only [Option.some.injEq] at hq
  subst hq
  have hmem : ∀ m ∈ memberLoop [] (r.decls ++ v), Has G r m ∧ m.temp = false := fun m hm =>
    ⟨(has_iff hv m).2 (memberLoop_mem hm).1, (memberLoop_mem hm).2.1⟩
  have hall : ∀ d, Has G r d → d.temp = false → ∃ m ∈ memberLoop [] (r.decls ++ v), m.ident = d.ident ∧ m.ctype = d.ctype := by
    intro d hd ht
    rcases memberLoop_has (names := []) ((has_iff hv d).1 hd) ht with h | ⟨m, hm, he⟩
    · simp at h
    · have h1 := hmem m hm
      exact ⟨m, hm, same_ident he ((hc m d h1.1 hd h1.2 ht).1 he)⟩
  exact ⟨_, by simp, nodup_idents hc hmem memberLoop_nodup, hmem, hall,
    fun f' c k code k' he d hd ht => hall d (Or.inr (Or.inl ((emit_assigns G f').1 _ _ _ _ _ he d hd))) ht⟩

/-- `#x=A (y=B | 0) #x=A -> s [ member variable v: int; temporary token t; ]`. -/
def declR : Rule where
  decls := [{ kind := .var, name := "v", type := "int" }, { temp := true, kind := .tok, name := "t" }]
  item := .cons (.cons (.ann { kind := .tok, seq := true, name := "x" } (.tok 1)) (.alt (.ann { kind := .tok, name := "y" } (.tok 2)) .zero))
    (.ann { kind := .tok, seq := true, name := "x" } (.tok 1))

def declG : Grammar where
  rules s := if s = 0 then [declR] else []

example : structs declG 9 0 = some [⟨"", [{ kind := .var, name := "v", type := "int" }, { kind := .tok, seq := true, name := "x" }, { kind := .tok, name := "y" }]⟩] := rfl

/-- The grammar meets the hypotheses. -/
example : declG.rules 0 = [declR] ∧ declR.item ≠ .op ∧ Consistent declG declR false := by
  refine ⟨rfl, by decide, ?_⟩
  intro d e hd he h1 h2
  have hv : visited declG 9 declR.item = some [{ kind := .tok, seq := true, name := "x" }, { kind := .tok, name := "y" },
    { kind := .tok, seq := true, name := "x" }] := rfl
  rw [has_iff hv] at hd he
  simp only [declR, List.cons_append, List.nil_append, List.mem_cons, List.not_mem_nil, or_false] at hd he
  rcases hd with rfl | rfl | rfl | rfl | rfl <;> rcases he with rfl | rfl | rfl | rfl | rfl <;> simp_all [SameType]

/-- C74 fails for names that are used with and without `#`: the second is not declared.  Here `#x=A x=B`. -/
theorem C74_fails_mixed : ∃ (G : Grammar) (r : Rule) (d : Decl), G.rules 0 = [r] ∧ Has G r d ∧ d.temp = false ∧
    ∃ ms, structs G 9 0 = some [⟨"", ms⟩] ∧ ∀ m ∈ ms, m.ident ≠ d.ident := by
  let a : Decl := { kind := .tok, seq := true, name := "x" }
  let b : Decl := { kind := .tok, name := "x" }
  let r : Rule := { item := .cons (.ann a (.tok 1)) (.ann b (.tok 2)) }
  refine ⟨⟨fun _ => [r], fun _ => false⟩, r, b, rfl, Or.inr (Or.inl (.consR .ann)), rfl, [a], rfl, ?_⟩
  simp [a, b, Decl.ident]

/-- C74 fails for a name that is another one with `Sequence`: the identifier is declared twice.  Here `#x=A xSequence=B`. -/
theorem C74_fails_suffix : ∃ (G : Grammar) (r : Rule), G.rules 0 = [r] ∧ ∃ ms, structs G 9 0 = some [⟨"", ms⟩] ∧ ¬ (ms.map (·.ident)).Nodup := by
  let a : Decl := { kind := .tok, seq := true, name := "x" }
  let b : Decl := { kind := .tok, name := "xSequence" }
  let r : Rule := { item := .cons (.ann a (.tok 1)) (.ann b (.tok 2)) }
  refine ⟨⟨fun _ => [r], fun _ => false⟩, r, rfl, [a, b], rfl, ?_⟩
  simp [a, b, Decl.ident]

theorem ruleStructs_pre {G : Grammar} {f : Nat} {names : List String} {r : Rule} {p : List Struct × List String} (h : ruleStructs G f names r = some p) :
    1 ≤ (p.1.filter (·.pre = "")).length := by
  unfold ruleStructs at h
  split at h
  · simp only [Option.some.injEq] at h; subst h; simp
  · simp only [Option.map_eq_some_iff] at h
    obtain ⟨v, _, rfl⟩ := h
    simp

/-- C74 fails for symbols with several rules: as many structures of the same name are emitted. -/
theorem C74_fails_rules (G : Grammar) (f s : Nat) {l : List Struct} (h : structs G f s = some l) : (G.rules s).length ≤ (l.filter (·.pre = "")).length := by
  unfold structs at h
  generalize G.rules s = rs at h
  generalize ([] : List String) = names at h
  induction rs generalizing names l with
  | nil => simp
  | cons r rs ih =>
    simp only [structLoop, Option.bind_eq_some_iff, Option.map_eq_some_iff] at h
    obtain ⟨p, hp, q, hq, rfl⟩ := h
    have h1 := ih _ hq
    have h2 := ruleStructs_pre hp
    rw [List.filter_append, List.length_append, List.length_cons]
    omega

theorem memberLoop_nil : ∀ {l : List Decl} {names : List String}, (∀ d ∈ l, d.temp = false → d.name ∈ names) → memberLoop names l = []
  | [], _, _ => rfl
  | d :: l, names, h => by
    rw [memberLoop, if_neg (fun hc => hc.2 (h d List.mem_cons_self hc.1))]
    exact memberLoop_nil fun e he => h e (List.mem_cons_of_mem _ he)

theorem namesAfter_mono : ∀ {l : List Decl} {names : List String} {n : String}, n ∈ names → n ∈ namesAfter names l
  | [], _, _, h => h
  | d :: l, names, n, h => by
    rw [namesAfter]
    split
    · exact namesAfter_mono (List.mem_cons_of_mem _ h)
    · exact namesAfter_mono h

theorem namesAfter_has : ∀ {l : List Decl} {names : List String} {d : Decl}, d ∈ l → d.temp = false → d.name ∈ namesAfter names l
  | e :: l, names, d, h, ht => by
    rw [namesAfter]
    rcases List.mem_cons.1 h with rfl | h
    · split
      · exact namesAfter_mono List.mem_cons_self
      · rename_i hc
        exact namesAfter_mono (by simpa [ht] using hc)
    · split <;> exact namesAfter_has h ht

/-- C74 fails for operator rules: only the structure for prefix operators gets the members, those for postfix, binary and ternary operators have none, whatever
is declared. -/
theorem C74_fails_operator (G : Grammar) (f s : Nat) {r : Rule} (hr : G.rules s = [r]) (ho : r.item = .op) :
    ∃ ms, structs G f s = some [⟨"", []⟩, ⟨"Prefix", ms⟩, ⟨"Postfix", []⟩, ⟨"Binary", []⟩, ⟨"Ternary", []⟩] ∧
      ∀ d ∈ r.decls, d.temp = false → ∃ m ∈ ms, m.name = d.name := by
  have hn : memberLoop (namesAfter [] r.decls) r.decls = [] := memberLoop_nil fun d hd ht => namesAfter_has hd ht
  refine ⟨memberLoop [] r.decls, ?_, fun d hd ht => (memberLoop_has hd ht).resolve_left (by simp)⟩
  simp [structs, hr, structLoop, ruleStructs, ho, hn]

example : structs ⟨fun _ => [{ decls := [{ kind := .tok, name := "x" }], item := .op }], fun _ => false⟩ 9 0 =
    some [⟨"", []⟩, ⟨"Prefix", [{ kind := .tok, name := "x" }]⟩, ⟨"Postfix", []⟩, ⟨"Binary", []⟩, ⟨"Ternary", []⟩] := rfl

/-! ## C75: temporaries -/

/-- C75 (partial): in the parser function of a symbol with a single rule and consistent names, every temporary variable is declared before its use, with the
right type, unless a parameter has its name; no identifier is declared twice, and no declared name is that of a parameter.  Missing: several rules (see
`C75_fails_rules`). -/
theorem C75_locals_partial (ast : Bool) (G : Grammar) {f s : Nat} {r : Rule} {F : Function} (hr : G.rules s = [r]) (hc : Consistent G r true)
    (h : function ast G f s = some F) : ∃ b, F.blocks = [b] ∧ ((F.top ++ b).map (·.ident)).Nodup ∧
      (∀ m ∈ F.top ++ b, Has G r m ∧ m.temp = true ∧ m.arg = false ∧ m.name ∉ F.params.map (·.name)) ∧
      ∀ d, Has G r d → d.temp = true → d.arg = false → d.name ∈ F.params.map (·.name) ∨ ∃ m ∈ F.top ++ b, m.ident = d.ident ∧ m.ctype = d.ctype := by
  simp only [function, hr, blockLoop, List.flatMap_cons, List.flatMap_nil, List.append_nil, Option.map_eq_some_iff, Option.bind_eq_some_iff] at h
  obtain ⟨b, ⟨v, hv, c, hcc, rfl⟩, rfl⟩ := h
  simp only [Option.some.injEq] at hcc
  subst hcc
  generalize (params ast G s).map (·.name) = names
  have hmem : ∀ m ∈ localLoop names r.decls ++ localLoop (localNames names r.decls) v, Has G r m ∧ m.temp = true ∧ m.arg = false ∧ m.name ∉ names := by
    intro m hm
    rcases List.mem_append.1 hm with hm | hm
    · obtain ⟨h1, h2, h3, h4⟩ := localLoop_mem hm
      exact ⟨Or.inl h1, h2, h3, h4⟩
    · obtain ⟨h1, h2, h3, h4⟩ := localLoop_mem hm
      exact ⟨(has_iff hv m).2 (List.mem_append_right _ h1), h2, h3, fun h => h4 (localNames_mem.2 (Or.inl h))⟩
  have hall : ∀ d, Has G r d → d.temp = true → d.arg = false → d.name ∈ names ∨
      ∃ m ∈ localLoop names r.decls ++ localLoop (localNames names r.decls) v, m.ident = d.ident ∧ m.ctype = d.ctype := by
    intro d hd ht ha
    have key : d.name ∈ names ∨ ∃ m ∈ localLoop names r.decls ++ localLoop (localNames names r.decls) v, m.name = d.name := by
      rcases List.mem_append.1 ((has_iff hv d).1 hd) with h | h
      · rcases localLoop_has (names := names) h ht ha with h | ⟨m, hm, he⟩
        · exact Or.inl h
        · exact Or.inr ⟨m, List.mem_append_left _ hm, he⟩
      · rcases localLoop_has (names := localNames names r.decls) h ht ha with h | ⟨m, hm, he⟩
        · rcases localNames_mem.1 h with h | ⟨m, hm, he⟩
          · exact Or.inl h
          · exact Or.inr ⟨m, List.mem_append_left _ hm, he⟩
        · exact Or.inr ⟨m, List.mem_append_right _ hm, he⟩
    rcases key with h | ⟨m, hm, he⟩
    · exact Or.inl h
    · obtain ⟨h1, h2, _⟩ := hmem m hm
      exact Or.inr ⟨m, hm, same_ident he ((hc m d h1 hd h2 ht).1 he)⟩
  refine ⟨_, rfl, nodup_idents hc (fun d hd => ⟨(hmem d hd).1, (hmem d hd).2.1⟩) ?_, hmem, hall⟩
  rw [List.map_append, List.nodup_append]
  refine ⟨localLoop_nodup, localLoop_nodup, ?_⟩
  intro x hx y hy hxy
  obtain ⟨m, hm, rfl⟩ := List.mem_map.1 hx
  obtain ⟨m', hm', rfl⟩ := List.mem_map.1 hy
  exact (localLoop_mem hm').2.2.2 (localNames_mem.2 (Or.inr ⟨m, hm, hxy⟩))

/-- `t:A u:B -> s [ temporary token t; argument temporary variable n: int; ]`. -/
def localR : Rule where
  decls := [{ temp := true, kind := .tok, name := "t" }, { arg := true, temp := true, kind := .var, name := "n", type := "int" }]
  item := .cons (.ann { temp := true, kind := .tok, name := "t" } (.tok 1)) (.ann { temp := true, kind := .tok, name := "u" } (.tok 2))

def localG : Grammar where
  rules s := if s = 0 then [localR] else []

example : function true localG 9 0 = some ⟨[{ arg := true, temp := true, kind := .var, name := "n", type := "int" }], [{ temp := true, kind := .tok, name := "t" }],
    [[{ temp := true, kind := .tok, name := "u" }]]⟩ := rfl

/-- The grammar meets the hypotheses. -/
example : localG.rules 0 = [localR] ∧ Consistent localG localR true := by
  refine ⟨rfl, ?_⟩
  intro d e hd he h1 h2
  have hv : visited localG 9 localR.item = some [{ temp := true, kind := .tok, name := "t" }, { temp := true, kind := .tok, name := "u" }] := rfl
  rw [has_iff hv] at hd he
  simp only [localR, List.cons_append, List.nil_append, List.mem_cons, List.not_mem_nil, or_false] at hd he
  rcases hd with rfl | rfl | rfl | rfl <;> rcases he with rfl | rfl | rfl | rfl <;> simp_all [SameType]

/-- C75 fails for symbols with two rules that annotate with the same temporary: the block of the second rule does not declare it, and neither does the function
outside the blocks. -/
theorem C75_fails_rules (ast : Bool) (G : Grammar) {f s : Nat} {r q : Rule} {F : Function} {d : Decl} (hr : G.rules s = [r, q]) (h : function ast G f s = some F)
    (ht : d.temp = true) (ha : d.arg = false) (h1 : Annotates G d r.item) (_h2 : Annotates G d q.item) (hp : d.name ∉ (params ast G s).map (·.name))
    (hd : ∀ e ∈ r.decls ++ q.decls, e.name ≠ d.name) :
    ∃ b c, F.blocks = [b, c] ∧ d.name ∉ F.params.map (·.name) ∧ d.name ∉ F.top.map (·.name) ∧ d.name ∈ b.map (·.name) ∧ d.name ∉ c.map (·.name) := by
  simp only [function, hr, blockLoop, List.flatMap_cons, List.flatMap_nil, List.append_nil, Option.map_eq_some_iff, Option.bind_eq_some_iff] at h
  obtain ⟨_, ⟨v, hv, _, ⟨w, hw, _, hcc, rfl⟩, rfl⟩, rfl⟩ := h
  simp only [Option.some.injEq] at hcc
  subst hcc
  have htop : ∀ m ∈ localLoop ((params ast G s).map (·.name)) (r.decls ++ q.decls), m.name ≠ d.name := fun m hm => hd m (localLoop_mem hm).1
  have hnames : d.name ∉ localNames ((params ast G s).map (·.name)) (r.decls ++ q.decls) := by
    rw [localNames_mem]
    rintro (h | ⟨m, hm, he⟩)
    · exact hp h
    · exact htop m hm he
  have hdv : d ∈ v := (visited_iff G f _ _ hv d).2 (Or.inl h1)
  have hb := (localLoop_has (names := localNames ((params ast G s).map (·.name)) (r.decls ++ q.decls)) hdv ht ha).resolve_left hnames
  refine ⟨_, _, rfl, hp, ?_, ?_, ?_⟩
  · intro h
    obtain ⟨m, hm, he⟩ := List.mem_map.1 h
    exact htop m hm he
  · obtain ⟨m, hm, he⟩ := hb
    exact List.mem_map.2 ⟨m, hm, he⟩
  · intro h
    obtain ⟨m, hm, he⟩ := List.mem_map.1 h
    exact (localLoop_mem hm).2.2.2 (localNames_mem.2 (Or.inr (by obtain ⟨m', hm', he'⟩ := hb; exact ⟨m', hm', he'.trans he.symm⟩)))

/-- `t:A B -> s; t:A C -> s`. -/
example : let d : Decl := { temp := true, kind := .tok, name := "t" }
    function true ⟨fun _ => [{ item := .cons (.ann d (.tok 1)) (.atom (.tok 2)) }, { item := .cons (.ann d (.tok 1)) (.atom (.tok 3)) }], fun _ => false⟩ 9 0 =
      some ⟨[], [], [[d], []]⟩ := rfl

/-! ## C76: initialisation of tokens -/

theorem initVisited_annotates (G : Grammar) : ∀ (f : Nat) (i : Item) (v : List Decl), initVisited G f i = some v → ∀ d, Annotates G d i → d ∈ v := by
  intro f
  induction f with
  | zero => intro i v h; simp [initVisited] at h
  | succ f ih =>
    intro i v h d ha
    cases ha with
    | ann => simp only [initVisited, Option.some.injEq] at h; subst h; exact List.mem_cons_self
    | inl hr ha =>
      simp only [initVisited, hr, Option.map_eq_some_iff] at h
      obtain ⟨w, hw, rfl⟩ := h
      exact List.mem_append_right _ (ih _ _ hw d ha)
    | consL ha =>
      simp only [initVisited, Option.bind_eq_some_iff, Option.map_eq_some_iff] at h
      obtain ⟨a, h1, b, h2, rfl⟩ := h
      exact List.mem_append_left _ (ih _ _ h1 d ha)
    | consR ha =>
      simp only [initVisited, Option.bind_eq_some_iff, Option.map_eq_some_iff] at h
      obtain ⟨a, h1, b, h2, rfl⟩ := h
      exact List.mem_append_right _ (ih _ _ h2 d ha)
    | altL ha =>
      simp only [initVisited, Option.bind_eq_some_iff, Option.map_eq_some_iff] at h
      obtain ⟨a, h1, b, h2, rfl⟩ := h
      exact List.mem_append_left _ (ih _ _ h1 d ha)
    | altR ha =>
      simp only [initVisited, Option.bind_eq_some_iff, Option.map_eq_some_iff] at h
      obtain ⟨a, h1, b, h2, rfl⟩ := h
      exact List.mem_append_right _ (ih _ _ h2 d ha)
    | tried ha =>
      simp only [initVisited, Option.bind_eq_some_iff, Option.map_eq_some_iff] at h
      obtain ⟨a, h1, b, h2, rfl⟩ := h
      exact List.mem_append_left _ (ih _ _ h1 d ha)
    | caught ha =>
      simp only [initVisited, Option.bind_eq_some_iff, Option.map_eq_some_iff] at h
      obtain ⟨a, h1, b, h2, rfl⟩ := h
      exact List.mem_append_right _ (ih _ _ h2 d ha)
    | star ha => simp only [initVisited] at h; exact ih _ _ h d ha
    | plus ha => simp only [initVisited] at h; exact ih _ _ h d ha
    | act ha => simp only [initVisited] at h; exact ih _ _ h d ha
    | cond ha => simp only [initVisited] at h; exact ih _ _ h d ha
    | recover ha => simp only [initVisited] at h; exact ih _ _ h d ha

theorem initVisited_sub (G : Grammar) : ∀ (f : Nat) (i : Item) (v : List Decl), initVisited G f i = some v →
    ∃ w, visited G f i = some w ∧ ∀ d ∈ v, d ∈ w := by
  intro f
  induction f with
  | zero => intro i v h; simp [initVisited] at h
  | succ f ih =>
    intro i v h
    have two : ∀ l r : Item, ((initVisited G f l).bind fun a => (initVisited G f r).map (a ++ ·)) = some v →
        ∃ w, ((visited G f l).bind fun a => (visited G f r).map (a ++ ·)) = some w ∧ ∀ d ∈ v, d ∈ w := by
      intro l r h
      simp only [Option.bind_eq_some_iff, Option.map_eq_some_iff] at h
      obtain ⟨a, h1, b, h2, rfl⟩ := h
      obtain ⟨a', h1', ha⟩ := ih _ _ h1
      obtain ⟨b', h2', hb⟩ := ih _ _ h2
      refine ⟨a' ++ b', by simp [h1', h2'], fun d hd => ?_⟩
      rcases List.mem_append.1 hd with hd | hd
      · exact List.mem_append_left _ (ha d hd)
      · exact List.mem_append_right _ (hb d hd)
    cases i with
    | zero => simp only [initVisited] at h; exact ⟨v, h, fun d hd => hd⟩
    | atom a => simp only [initVisited] at h; exact ⟨v, h, fun d hd => hd⟩
    | op => simp only [initVisited] at h; exact ⟨v, h, fun d hd => hd⟩
    | ann e a => simp only [initVisited] at h; exact ⟨v, h, fun d hd => hd⟩
    | inl s =>
      simp only [initVisited] at h
      split at h
      · cases h
      · rename_i r rs hr
        simp only [Option.map_eq_some_iff] at h
        obtain ⟨w, hw, rfl⟩ := h
        obtain ⟨w', hw', hsub⟩ := ih _ _ hw
        refine ⟨r.decls ++ w', by simp [visited, hr, hw'], fun d hd => ?_⟩
        rcases List.mem_append.1 hd with hd | hd
        · exact List.mem_append_left _ (List.mem_of_mem_take hd)
        · exact List.mem_append_right _ (hsub d hd)
    | cons l r => simp only [initVisited] at h; exact two l r h
    | alt l r => simp only [initVisited] at h; exact two l r h
    | rollback l r => simp only [initVisited] at h; exact two l r h
    | star x => simp only [initVisited] at h; exact ih _ _ h
    | plus x => simp only [initVisited] at h; exact ih _ _ h
    | act x => simp only [initVisited] at h; exact ih _ _ h
    | cond x => simp only [initVisited] at h; exact ih _ _ h
    | recover x fl => simp only [initVisited] at h; exact ih _ _ h

/-- C76 (partial): every plain token member that is an annotation of the symbol's first rule is set to -1 at the beginning, and only names of plain tokens of this
rule's item are set.  Missing: members declared in brackets, several rules, and that only members are set (see the theorems below). -/
theorem C76_initialised_partial (G : Grammar) {f s : Nat} {r : Rule} {rs : List Rule} {l : List String} (hr : G.rules s = r :: rs) (h : initialised G f s = some l) :
    (∀ d, Annotates G d r.item → d.kind = .tok → d.seq = false → d.name ∈ l) ∧
      ∀ n ∈ l, ∃ d, (Annotates G d r.item ∨ ∃ q, Inlines G q r.item ∧ d ∈ q.decls) ∧ d.kind = .tok ∧ d.seq = false ∧ d.name = n := by
  simp only [initialised, hr, Option.map_eq_some_iff] at h
  obtain ⟨v, hv, rfl⟩ := h
  constructor
  · intro d hd hk hs
    exact List.mem_map.2 ⟨d, List.mem_filter.2 ⟨initVisited_annotates G f _ _ hv d hd, by simp [hk, hs]⟩, rfl⟩
  · intro n hn
    obtain ⟨d, hd, rfl⟩ := List.mem_map.1 hn
    obtain ⟨hd, hk⟩ := List.mem_filter.1 hd
    obtain ⟨w, hw, hsub⟩ := initVisited_sub G f _ _ hv
    simp only [Bool.and_eq_true, decide_eq_true_eq, Bool.not_eq_true'] at hk
    exact ⟨d, (visited_iff G f _ _ hw d).1 (hsub d hd), hk.1, hk.2, rfl⟩

example : initialised declG 9 0 = some ["y"] := rfl

/-- C76 fails for annotations `t:TOKEN`: the emitted code sets a member `t`, which is not declared. -/
theorem C76_fails_temporary (G : Grammar) {f s : Nat} {r : Rule} {l : List String} {st : List Struct} {d : Decl} (hr : G.rules s = [r]) (h : initialised G f s = some l)
    (hst : structs G f s = some st) (hd : Annotates G d r.item) (hk : d.kind = .tok) (hs : d.seq = false) (_ht : d.temp = true)
    (hn : ∀ e, Has G r e → e.temp = false → e.name ≠ d.name) : d.name ∈ l ∧ ∀ x ∈ st, ∀ m ∈ x.members, m.name ≠ d.name := by
  refine ⟨(C76_initialised_partial G hr h).1 d hd hk hs, ?_⟩
  intro x hx m hm
  have ho : r.item ≠ .op := by rintro h; rw [h] at hd; cases hd
  simp only [structs, hr, structLoop, ruleStructs, if_neg ho, Option.bind_eq_some_iff, Option.map_eq_some_iff] at hst
  obtain ⟨p, ⟨v, hv, rfl⟩, q, hq, rfl⟩ := hst
  simp only [Option.some.injEq] at hq
  subst hq
  simp only [List.append_nil, List.mem_singleton] at hx
  subst hx
  obtain ⟨h1, h2, _⟩ := memberLoop_mem hm
  exact hn m ((has_iff hv m).2 h1) h2

/-- `t:A -> s`. -/
example : let G : Grammar := ⟨fun _ => [{ item := .ann { temp := true, kind := .tok, name := "t" } (.tok 1) }], fun _ => false⟩
    initialised G 9 0 = some ["t"] ∧ structs G 9 0 = some [⟨"", []⟩] := ⟨rfl, rfl⟩

/-- C76 fails for members declared in brackets: a name that no annotation and no inlined rule mentions is never set, although it is a token member. -/
theorem C76_fails_declared (G : Grammar) {f s : Nat} {r : Rule} {l : List String} {st : List Struct} {d : Decl} (hr : G.rules s = [r]) (ho : r.item ≠ .op)
    (h : initialised G f s = some l) (hst : structs G f s = some st) (hd : d ∈ r.decls) (_hk : d.kind = .tok) (_hs : d.seq = false) (ht : d.temp = false)
    (hn : ∀ e, Annotates G e r.item ∨ (∃ q, Inlines G q r.item ∧ e ∈ q.decls) → e.name ≠ d.name) :
    (∃ x ∈ st, ∃ m ∈ x.members, m.name = d.name) ∧ d.name ∉ l := by
  constructor
  · simp only [structs, hr, structLoop, ruleStructs, if_neg ho, Option.bind_eq_some_iff, Option.map_eq_some_iff] at hst
    obtain ⟨p, ⟨v, hv, rfl⟩, q, hq, rfl⟩ := hst
    simp only [Option.some.injEq] at hq
    subst hq
    obtain ⟨m, hm, he⟩ := (memberLoop_has (names := []) (List.mem_append_left v hd) ht).resolve_left (by simp)
    exact ⟨_, List.mem_append_left _ (List.mem_singleton.2 rfl), m, hm, he⟩
  · intro hl
    obtain ⟨e, he, _, _, hen⟩ := (C76_initialised_partial G hr h).2 _ hl
    exact hn e he hen

/-- `A -> s [ member token x; ]`. -/
example : let G : Grammar := ⟨fun _ => [{ decls := [{ kind := .tok, name := "x" }], item := .atom (.tok 1) }], fun _ => false⟩
    initialised G 9 0 = some [] ∧ structs G 9 0 = some [⟨"", [{ kind := .tok, name := "x" }]⟩] := ⟨rfl, rfl⟩

/-- C76 fails for inlined rules with several declarations: only the first is seen.  Here `inline t -> s; A -> t [ member token x; member token y; ]`. -/
theorem C76_fails_inlined : ∃ (G : Grammar) (r q : Rule) (d e : Decl), G.rules 0 = [r] ∧ Inlines G q r.item ∧ d ∈ q.decls ∧ e ∈ q.decls ∧ d.kind = .tok ∧ e.kind = .tok ∧
    d.seq = false ∧ e.seq = false ∧ structs G 9 0 = some [⟨"", [d, e]⟩] ∧ initialised G 9 0 = some [d.name] ∧ d.name ≠ e.name := by
  let d : Decl := { kind := .tok, name := "x" }
  let e : Decl := { kind := .tok, name := "y" }
  let q : Rule := { decls := [d, e], item := .atom (.tok 1) }
  let r : Rule := { item := .inl 1 }
  exact ⟨⟨fun s => if s = 0 then [r] else [q], fun _ => false⟩, r, q, d, e, rfl, .here (s := 1) (rs := []) rfl, by simp [q], by simp [q], rfl, rfl, rfl, rfl, rfl, rfl, by decide⟩

/-! ## C77: recursive calls -/

/-- C77 (partial): the calls an operator function makes to itself fit its signature exactly if no argument is declared; missing: the other case, which is wrong. -/
theorem C77_recursive_partial (G : Grammar) {s : Nat} {r : Rule} {rs : List Rule} (hr : G.rules s = r :: rs) :
    recursiveArgs G s = (params true G s).length ↔ ∀ d ∈ r.decls, d.arg = false := by
  simp only [recursiveArgs, params, hr]
  rw [eq_comm, List.length_eq_zero_iff, List.filter_eq_nil_iff]
  simp

/-- C77 fails: with a declared argument the call has too few arguments. -/
theorem C77_fails_argument (G : Grammar) {s : Nat} {r : Rule} {rs : List Rule} {d : Decl} (hr : G.rules s = r :: rs) (hd : d ∈ r.decls) (ha : d.arg = true) :
    recursiveArgs G s < (params true G s).length := by
  simp only [recursiveArgs, params, hr]
  exact List.length_pos_iff.2 (List.ne_nil_of_mem (List.mem_filter.2 ⟨hd, by simp [ha]⟩))

example : params true ⟨fun _ => [{ decls := [{ arg := true, temp := true, kind := .var, name := "n", type := "int" }], item := .op }], fun _ => false⟩ 0 =
    [{ arg := true, temp := true, kind := .var, name := "n", type := "int" }] := rfl

end Verif.Vars
