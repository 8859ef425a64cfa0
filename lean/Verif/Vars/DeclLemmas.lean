import Verif.Vars.Spec

/-!
# Variables in the generated code: specification and lemmas
-/

namespace Verif.Vars

/-! ## Specification -/

/-- Annotation `d` occurs in an item, or in an inlined rule. -/
inductive Annotates (G : Grammar) (d : Decl) : Item → Prop
  | ann {a} : Annotates G d (.ann d a)
  | inl {s r rs} : G.rules s = r :: rs → Annotates G d r.item → Annotates G d (.inl s)
  | consL {l r} : Annotates G d l → Annotates G d (.cons l r)
  | consR {l r} : Annotates G d r → Annotates G d (.cons l r)
  | altL {l r} : Annotates G d l → Annotates G d (.alt l r)
  | altR {l r} : Annotates G d r → Annotates G d (.alt l r)
  | star {x} : Annotates G d x → Annotates G d (.star x)
  | plus {x} : Annotates G d x → Annotates G d (.plus x)
  | act {x} : Annotates G d x → Annotates G d (.act x)
  | cond {x} : Annotates G d x → Annotates G d (.cond x)
  | recover {x fl} : Annotates G d x → Annotates G d (.recover x fl)
  | tried {x y} : Annotates G d x → Annotates G d (.rollback x y)
  | caught {x y} : Annotates G d y → Annotates G d (.rollback x y)

/-- Rule `r` is inlined in an item, possibly by another inlined rule. -/
inductive Inlines (G : Grammar) (r : Rule) : Item → Prop
  | here {s rs} : G.rules s = r :: rs → Inlines G r (.inl s)
  | inl {s q qs} : G.rules s = q :: qs → Inlines G r q.item → Inlines G r (.inl s)
  | consL {x y} : Inlines G r x → Inlines G r (.cons x y)
  | consR {x y} : Inlines G r y → Inlines G r (.cons x y)
  | altL {x y} : Inlines G r x → Inlines G r (.alt x y)
  | altR {x y} : Inlines G r y → Inlines G r (.alt x y)
  | star {x} : Inlines G r x → Inlines G r (.star x)
  | plus {x} : Inlines G r x → Inlines G r (.plus x)
  | act {x} : Inlines G r x → Inlines G r (.act x)
  | cond {x} : Inlines G r x → Inlines G r (.cond x)
  | recover {x fl} : Inlines G r x → Inlines G r (.recover x fl)
  | tried {x y} : Inlines G r x → Inlines G r (.rollback x y)
  | caught {x y} : Inlines G r y → Inlines G r (.rollback x y)

/-- Variable `d` belongs to rule `r`: declared in its brackets or by an annotation, or in an inlined rule. -/
def Has (G : Grammar) (r : Rule) (d : Decl) : Prop := d ∈ r.decls ∨ Annotates G d r.item ∨ ∃ q, Inlines G q r.item ∧ d ∈ q.decls

/-- The type of a variable as the generated code needs it. -/
def SameType (d e : Decl) : Prop := d.seq = e.seq ∧ d.kind = e.kind ∧ (d.kind ≠ .tok → d.type = e.type)

/-- Among the variables of one storage class: equal names mean equal types, and no name is another one with the suffix `Sequence`. -/
def Consistent (G : Grammar) (r : Rule) (temp : Bool) : Prop :=
  ∀ d e, Has G r d → Has G r e → d.temp = temp → e.temp = temp → (d.name = e.name → SameType d e) ∧ (d.seq = true → e.seq = false → e.name ≠ d.name ++ "Sequence")

/-- The variables a statement assigns. -/
def Code.assigns : Code → List Decl
  | .seq a b => a.assigns ++ b.assigns
  | .setTok d => [d]
  | .snocTok d => [d]
  | .callSet _ _ d => [d]
  | .callSnoc _ _ d => [d]
  | .ite a b => a.assigns ++ b.assigns
  | .while b => b.assigns
  | .doWhile b => b.assigns
  | .recover _ b _ => b.assigns
  | .rollback _ a b => a.assigns ++ b.assigns
  | _ => []

/-! ## Lemmas -/

theorem visited_iff (G : Grammar) : ∀ (f : Nat) (i : Item) (v : List Decl), visited G f i = some v →
    ∀ d, d ∈ v ↔ Annotates G d i ∨ ∃ q, Inlines G q i ∧ d ∈ q.decls := by
  intro f
  induction f with
  | zero => intro i v h; simp [visited] at h
  | succ f ih =>
    intro i v h d
    cases i with
    | zero =>
      simp only [visited, Option.some.injEq] at h; subst h
      refine ⟨fun h => by simp at h, ?_⟩
      rintro (h | ⟨q, h, _⟩) <;> cases h
    | atom a =>
      simp only [visited, Option.some.injEq] at h; subst h
      refine ⟨fun h => by simp at h, ?_⟩
      rintro (h | ⟨q, h, _⟩) <;> cases h
    | op =>
      simp only [visited, Option.some.injEq] at h; subst h
      refine ⟨fun h => by simp at h, ?_⟩
      rintro (h | ⟨q, h, _⟩) <;> cases h
    | inl s =>
      simp only [visited] at h
      split at h
      · cases h
      · rename_i r rs hr
        simp only [Option.map_eq_some_iff] at h
        obtain ⟨w, hw, rfl⟩ := h
        rw [List.mem_append, ih _ _ hw]
        constructor
        · rintro (h | h | ⟨q, h, h'⟩)
          · exact Or.inr ⟨r, .here hr, h⟩
          · exact Or.inl (.inl hr h)
          · exact Or.inr ⟨q, .inl hr h, h'⟩
        · rintro (h | ⟨q, h, h'⟩)
          · cases h with
            | inl hr' h => rw [hr] at hr'; cases hr'; exact Or.inr (Or.inl h)
          · cases h with
            | here hr' => rw [hr] at hr'; cases hr'; exact Or.inl h'
            | inl hr' h => rw [hr] at hr'; cases hr'; exact Or.inr (Or.inr ⟨q, h, h'⟩)
    | ann e a =>
      simp only [visited, Option.some.injEq] at h; subst h
      rw [List.mem_singleton]
      constructor
      · rintro rfl; exact Or.inl .ann
      · rintro (h | ⟨q, h, _⟩) <;> cases h
        rfl
    | cons l r =>
      simp only [visited, Option.bind_eq_some_iff, Option.map_eq_some_iff] at h
      obtain ⟨a, ha, b, hb, rfl⟩ := h
      rw [List.mem_append, ih _ _ ha, ih _ _ hb]
      constructor
      · rintro ((h | ⟨q, h, h'⟩) | (h | ⟨q, h, h'⟩))
        · exact Or.inl (.consL h)
        · exact Or.inr ⟨q, .consL h, h'⟩
        · exact Or.inl (.consR h)
        · exact Or.inr ⟨q, .consR h, h'⟩
      · rintro (h | ⟨q, h, h'⟩)
        · cases h with
          | consL h => exact Or.inl (Or.inl h)
          | consR h => exact Or.inr (Or.inl h)
        · cases h with
          | consL h => exact Or.inl (Or.inr ⟨q, h, h'⟩)
          | consR h => exact Or.inr (Or.inr ⟨q, h, h'⟩)
    | alt l r =>
      simp only [visited, Option.bind_eq_some_iff, Option.map_eq_some_iff] at h
      obtain ⟨a, ha, b, hb, rfl⟩ := h
      rw [List.mem_append, ih _ _ ha, ih _ _ hb]
      constructor
      · rintro ((h | ⟨q, h, h'⟩) | (h | ⟨q, h, h'⟩))
        · exact Or.inl (.altL h)
        · exact Or.inr ⟨q, .altL h, h'⟩
        · exact Or.inl (.altR h)
        · exact Or.inr ⟨q, .altR h, h'⟩
      · rintro (h | ⟨q, h, h'⟩)
        · cases h with
          | altL h => exact Or.inl (Or.inl h)
          | altR h => exact Or.inr (Or.inl h)
        · cases h with
          | altL h => exact Or.inl (Or.inr ⟨q, h, h'⟩)
          | altR h => exact Or.inr (Or.inr ⟨q, h, h'⟩)
    | rollback l r =>
      simp only [visited, Option.bind_eq_some_iff, Option.map_eq_some_iff] at h
      obtain ⟨a, ha, b, hb, rfl⟩ := h
      rw [List.mem_append, ih _ _ ha, ih _ _ hb]
      constructor
      · rintro ((h | ⟨q, h, h'⟩) | (h | ⟨q, h, h'⟩))
        · exact Or.inl (.tried h)
        · exact Or.inr ⟨q, .tried h, h'⟩
        · exact Or.inl (.caught h)
        · exact Or.inr ⟨q, .caught h, h'⟩
      · rintro (h | ⟨q, h, h'⟩)
        · cases h with
          | tried h => exact Or.inl (Or.inl h)
          | caught h => exact Or.inr (Or.inl h)
        · cases h with
          | tried h => exact Or.inl (Or.inr ⟨q, h, h'⟩)
          | caught h => exact Or.inr (Or.inr ⟨q, h, h'⟩)
    | star x =>
      simp only [visited] at h
      rw [ih _ _ h]
      constructor
      · rintro (h | ⟨q, h, h'⟩)
        · exact Or.inl (.star h)
        · exact Or.inr ⟨q, .star h, h'⟩
      · rintro (h | ⟨q, h, h'⟩)
        · cases h with | star h => exact Or.inl h
        · cases h with | star h => exact Or.inr ⟨q, h, h'⟩
    | plus x =>
      simp only [visited] at h
      rw [ih _ _ h]
      constructor
      · rintro (h | ⟨q, h, h'⟩)
        · exact Or.inl (.plus h)
        · exact Or.inr ⟨q, .plus h, h'⟩
      · rintro (h | ⟨q, h, h'⟩)
        · cases h with | plus h => exact Or.inl h
        · cases h with | plus h => exact Or.inr ⟨q, h, h'⟩
    | act x =>
      simp only [visited] at h
      rw [ih _ _ h]
      constructor
      · rintro (h | ⟨q, h, h'⟩)
        · exact Or.inl (.act h)
        · exact Or.inr ⟨q, .act h, h'⟩
      · rintro (h | ⟨q, h, h'⟩)
        · cases h with | act h => exact Or.inl h
        · cases h with | act h => exact Or.inr ⟨q, h, h'⟩
    | cond x =>
      simp only [visited] at h
      rw [ih _ _ h]
      constructor
      · rintro (h | ⟨q, h, h'⟩)
        · exact Or.inl (.cond h)
        · exact Or.inr ⟨q, .cond h, h'⟩
      · rintro (h | ⟨q, h, h'⟩)
        · cases h with | cond h => exact Or.inl h
        · cases h with | cond h => exact Or.inr ⟨q, h, h'⟩
    | recover x fl =>
      simp only [visited] at h
      rw [ih _ _ h]
      constructor
      · rintro (h | ⟨q, h, h'⟩)
        · exact Or.inl (.recover h)
        · exact Or.inr ⟨q, .recover h, h'⟩
      · rintro (h | ⟨q, h, h'⟩)
        · cases h with | recover h => exact Or.inl h
        · cases h with | recover h => exact Or.inr ⟨q, h, h'⟩

theorem has_iff {G : Grammar} {f : Nat} {r : Rule} {v : List Decl} (h : visited G f r.item = some v) (d : Decl) : Has G r d ↔ d ∈ r.decls ++ v := by
  rw [List.mem_append, visited_iff G f _ _ h]; rfl

theorem memberLoop_mem : ∀ {l : List Decl} {names : List String} {m : Decl}, m ∈ memberLoop names l → m ∈ l ∧ m.temp = false ∧ m.name ∉ names
  | [], _, _, h => by simp [memberLoop] at h
  | d :: l, names, m, h => by
    rw [memberLoop] at h
    split at h
    · rename_i hc
      rcases List.mem_cons.1 h with rfl | h
      · exact ⟨List.mem_cons_self, hc⟩
      · obtain ⟨h1, h2, h3⟩ := memberLoop_mem h
        exact ⟨List.mem_cons_of_mem _ h1, h2, fun h => h3 (List.mem_cons_of_mem _ h)⟩
    · obtain ⟨h1, h2, h3⟩ := memberLoop_mem h
      exact ⟨List.mem_cons_of_mem _ h1, h2, h3⟩

theorem memberLoop_nodup : ∀ {l : List Decl} {names : List String}, ((memberLoop names l).map (·.name)).Nodup
  | [], _ => by simp [memberLoop]
  | d :: l, names => by
    rw [memberLoop]
    split
    · rw [List.map_cons, List.nodup_cons]
      refine ⟨fun h => ?_, memberLoop_nodup⟩
      obtain ⟨m, hm, he⟩ := List.mem_map.1 h
      exact (memberLoop_mem hm).2.2 (by rw [he]; exact List.mem_cons_self)
    · exact memberLoop_nodup

theorem memberLoop_has : ∀ {l : List Decl} {names : List String} {d : Decl}, d ∈ l → d.temp = false → d.name ∈ names ∨ ∃ m ∈ memberLoop names l, m.name = d.name
  | e :: l, names, d, h, ht => by
    rw [memberLoop]
    split
    · rename_i hc
      rcases List.mem_cons.1 h with rfl | h
      · exact Or.inr ⟨_, List.mem_cons_self, rfl⟩
      · rcases memberLoop_has (names := e.name :: names) h ht with h1 | ⟨m, hm, he⟩
        · rcases List.mem_cons.1 h1 with h1 | h1
          · exact Or.inr ⟨e, List.mem_cons_self, h1.symm⟩
          · exact Or.inl h1
        · exact Or.inr ⟨m, List.mem_cons_of_mem _ hm, he⟩
    · rename_i hc
      rcases List.mem_cons.1 h with rfl | h
      · exact Or.inl (by simpa [ht] using hc)
      · exact memberLoop_has h ht

theorem localLoop_mem : ∀ {l : List Decl} {names : List String} {m : Decl}, m ∈ localLoop names l → m ∈ l ∧ m.temp = true ∧ m.arg = false ∧ m.name ∉ names
  | [], _, _, h => by simp [localLoop] at h
  | d :: l, names, m, h => by
    rw [localLoop] at h
    split at h
    · rename_i hc
      rcases List.mem_cons.1 h with rfl | h
      · exact ⟨List.mem_cons_self, hc⟩
      · obtain ⟨h1, h2, h3, h4⟩ := localLoop_mem h
        exact ⟨List.mem_cons_of_mem _ h1, h2, h3, fun h => h4 (List.mem_cons_of_mem _ h)⟩
    · obtain ⟨h1, h2, h3⟩ := localLoop_mem h
      exact ⟨List.mem_cons_of_mem _ h1, h2, h3⟩

theorem localLoop_nodup : ∀ {l : List Decl} {names : List String}, ((localLoop names l).map (·.name)).Nodup
  | [], _ => by simp [localLoop]
  | d :: l, names => by
    rw [localLoop]
    split
    · rw [List.map_cons, List.nodup_cons]
      refine ⟨fun h => ?_, localLoop_nodup⟩
      obtain ⟨m, hm, he⟩ := List.mem_map.1 h
      exact (localLoop_mem hm).2.2.2 (by rw [he]; exact List.mem_cons_self)
    · exact localLoop_nodup

theorem localNames_mem : ∀ {l : List Decl} {names : List String} {n : String}, n ∈ localNames names l ↔ n ∈ names ∨ ∃ m ∈ localLoop names l, m.name = n
  | [], names, n => by simp [localNames, localLoop]
  | d :: l, names, n => by
    rw [localNames, localLoop]
    split
    · rw [localNames_mem]
      simp only [List.mem_cons, exists_eq_or_imp]
      constructor
      · rintro ((rfl | h) | h)
        · exact Or.inr (Or.inl rfl)
        · exact Or.inl h
        · exact Or.inr (Or.inr h)
      · rintro (h | h | h)
        · exact Or.inl (Or.inr h)
        · exact Or.inl (Or.inl h.symm)
        · exact Or.inr h
    · exact localNames_mem

theorem localLoop_has : ∀ {l : List Decl} {names : List String} {d : Decl}, d ∈ l → d.temp = true → d.arg = false → d.name ∈ names ∨ ∃ m ∈ localLoop names l, m.name = d.name
  | e :: l, names, d, h, ht, ha => by
    rw [localLoop]
    split
    · rename_i hc
      rcases List.mem_cons.1 h with rfl | h
      · exact Or.inr ⟨_, List.mem_cons_self, rfl⟩
      · rcases localLoop_has (names := e.name :: names) h ht ha with h1 | ⟨m, hm, he⟩
        · rcases List.mem_cons.1 h1 with h1 | h1
          · exact Or.inr ⟨e, List.mem_cons_self, h1.symm⟩
          · exact Or.inl h1
        · exact Or.inr ⟨m, List.mem_cons_of_mem _ hm, he⟩
    · rename_i hc
      rcases List.mem_cons.1 h with rfl | h
      · exact Or.inl (by simpa [ht, ha] using hc)
      · exact localLoop_has h ht ha

theorem append_right_cancel' {a b c : String} (h : a ++ c = b ++ c) : a = b := by
  have := congrArg String.toList h
  rw [String.toList_append, String.toList_append] at this
  exact String.toList_inj.1 (List.append_cancel_right this)

/-- With consistent names, different names give different identifiers. -/
theorem ident_name {G : Grammar} {r : Rule} {t : Bool} (hc : Consistent G r t) {d e : Decl} (hd : Has G r d) (he : Has G r e) (h1 : d.temp = t) (h2 : e.temp = t)
    (h : d.ident = e.ident) : d.name = e.name := by
  unfold Decl.ident at h
  by_cases hs : d.seq = true <;> by_cases hs' : e.seq = true
  · rw [if_pos hs, if_pos hs'] at h; exact append_right_cancel' h
  · rw [if_pos hs, if_neg hs'] at h
    exact absurd h.symm ((hc d e hd he h1 h2).2 hs (by simpa using hs'))
  · rw [if_neg hs, if_pos hs'] at h
    exact absurd h ((hc e d he hd h2 h1).2 hs' (by simpa using hs))
  · rw [if_neg hs, if_neg hs'] at h; exact h

theorem nodup_idents {G : Grammar} {r : Rule} {t : Bool} (hc : Consistent G r t) {l : List Decl} (hl : ∀ d ∈ l, Has G r d ∧ d.temp = t) (hn : (l.map (·.name)).Nodup) :
    (l.map (·.ident)).Nodup := by
  induction l with
  | nil => simp
  | cons d l ih =>
    rw [List.map_cons, List.nodup_cons] at hn ⊢
    refine ⟨fun h => ?_, ih (fun e he => hl e (List.mem_cons_of_mem _ he)) hn.2⟩
    obtain ⟨e, he, heq⟩ := List.mem_map.1 h
    have h1 := hl d List.mem_cons_self
    have h2 := hl e (List.mem_cons_of_mem _ he)
    exact hn.1 (List.mem_map.2 ⟨e, he, ident_name hc h2.1 h1.1 h2.2 h1.2 heq⟩)

theorem same_ident {d e : Decl} (h : d.name = e.name) (hs : SameType d e) : d.ident = e.ident ∧ d.ctype = e.ctype := by
  obtain ⟨h1, h2, h3⟩ := hs
  refine ⟨by unfold Decl.ident; rw [h, h1], ?_⟩
  unfold Decl.ctype
  rw [h1, h2]
  by_cases hk : e.kind = .tok
  · simp [hk]
  · rw [h3 (by rw [h2]; exact hk)]

theorem assigns_chain {c : Nat} {l : List Code} {d : Decl} (h : d ∈ (chain c l).assigns) : ∃ a ∈ l, d ∈ a.assigns := by
  induction l with
  | nil => simp [chain, Code.assigns] at h
  | cons a l ih =>
    simp only [chain, Code.assigns, List.mem_append] at h
    rcases h with h | h
    · exact ⟨a, List.mem_cons_self, h⟩
    · obtain ⟨b, hb, h⟩ := ih h
      exact ⟨b, List.mem_cons_of_mem _ hb, h⟩

/-- What emitted code assigns has an annotation. -/
theorem emit_assigns (G : Grammar) : ∀ f : Nat, (∀ i c k code k', emit G f i c k = some (code, k') → ∀ d ∈ code.assigns, Annotates G d i) ∧
    (∀ i c k codes k', emitAlts G f i c k = some (codes, k') → ∀ a ∈ codes, ∀ d ∈ a.assigns, Annotates G d i) := by
  intro f
  induction f with
  | zero => exact ⟨fun i c k code k' h => by simp [emit] at h, fun i c k code k' h => by simp [emitAlts] at h⟩
  | succ f ih =>
    obtain ⟨ih1, ih2⟩ := ih
    constructor
    · intro i c k code k' h d hd
      cases i with
      | zero => simp only [emit, Option.some.injEq, Prod.mk.injEq] at h; rw [← h.1] at hd; simp [Code.assigns] at hd
      | atom a =>
        cases a <;> simp only [emit, Option.some.injEq, Prod.mk.injEq] at h <;> rw [← h.1] at hd <;> simp [Code.assigns] at hd
      | inl s =>
        simp only [emit] at h
        split at h
        · cases h
        · rename_i r rs hr
          simp only [Option.map_eq_some_iff, Prod.mk.injEq] at h
          obtain ⟨⟨p1, p2⟩, hp1, rfl, rfl⟩ := h
          simp only [Code.assigns, List.append_nil, List.mem_append] at hd
          rcases hd with hd | hd
          · exact .inl hr (ih1 _ _ _ _ _ hp1 d hd)
          · split at hd <;> simp [Code.assigns] at hd
      | ann e a =>
        cases a with
        | tok t =>
          simp only [emit, Option.some.injEq, Prod.mk.injEq] at h
          rw [← h.1] at hd
          have : d = e := by
            cases hs : e.seq <;> simpa [hs, Code.assigns] using hd
          subst this
          exact .ann
        | sym s =>
          simp only [emit, Option.some.injEq, Prod.mk.injEq] at h
          rw [← h.1] at hd
          have : d = e := by
            cases hs : e.seq <;> simpa [hs, Code.assigns] using hd
          subst this
          exact .ann
      | cons l r =>
        simp only [emit, Option.bind_eq_some_iff, Option.map_eq_some_iff, Prod.mk.injEq] at h
        obtain ⟨⟨p1, p2⟩, hp1, ⟨q1, q2⟩, hq1, rfl, rfl⟩ := h
        rcases List.mem_append.1 hd with hd | hd
        · exact .consL (ih1 _ _ _ _ _ hp1 d hd)
        · exact .consR (ih1 _ _ _ _ _ hq1 d hd)
      | alt l r =>
        simp only [emit, Option.bind_eq_some_iff, Option.map_eq_some_iff, Prod.mk.injEq] at h
        obtain ⟨⟨p1, p2⟩, hp1, ⟨q1, q2⟩, hq1, rfl, rfl⟩ := h
        obtain ⟨a, ha, hd⟩ := assigns_chain hd
        rcases List.mem_append.1 ha with ha | ha
        · exact .altL (ih2 _ _ _ _ _ hp1 a ha d hd)
        · exact .altR (ih2 _ _ _ _ _ hq1 a ha d hd)
      | star x =>
        simp only [emit, Option.map_eq_some_iff, Prod.mk.injEq] at h
        obtain ⟨⟨p1, p2⟩, hp1, rfl, rfl⟩ := h
        exact .star (ih1 _ _ _ _ _ hp1 d hd)
      | plus x =>
        simp only [emit, Option.map_eq_some_iff, Prod.mk.injEq] at h
        obtain ⟨⟨p1, p2⟩, hp1, rfl, rfl⟩ := h
        exact .plus (ih1 _ _ _ _ _ hp1 d hd)
      | act x => simp only [emit] at h; exact .act (ih1 _ _ _ _ _ h d hd)
      | cond x => simp only [emit] at h; exact .cond (ih1 _ _ _ _ _ h d hd)
      | recover x fl =>
        simp only [emit, Option.map_eq_some_iff, Prod.mk.injEq] at h
        obtain ⟨⟨p1, p2⟩, hp1, rfl, rfl⟩ := h
        exact .recover (ih1 _ _ _ _ _ hp1 d hd)
      | rollback x y =>
        simp only [emit, Option.bind_eq_some_iff, Option.map_eq_some_iff, Prod.mk.injEq] at h
        obtain ⟨⟨p1, p2⟩, hp1, ⟨q1, q2⟩, hq1, rfl, rfl⟩ := h
        rcases List.mem_append.1 hd with hd | hd
        · exact .tried (ih1 _ _ _ _ _ hp1 d hd)
        · exact .caught (ih1 _ _ _ _ _ hq1 d hd)
      | op => simp [emit] at h
    · intro i c k codes k' h a ha d hd
      rw [emitAlts.eq_def] at h
      dsimp only at h
      split at h
      · simp only [Option.bind_eq_some_iff, Option.map_eq_some_iff, Prod.mk.injEq] at h
        obtain ⟨⟨p1, p2⟩, hp1, ⟨q1, q2⟩, hq1, rfl, rfl⟩ := h
        rcases List.mem_append.1 ha with ha | ha
        · exact .altL (ih2 _ _ _ _ _ hp1 a ha d hd)
        · exact .altR (ih2 _ _ _ _ _ hq1 a ha d hd)
      · simp only [Option.map_eq_some_iff, Prod.mk.injEq] at h
        obtain ⟨⟨p1, p2⟩, hp1, rfl, rfl⟩ := h
        rw [List.mem_singleton] at ha
        subst ha
        exact ih1 _ _ _ _ _ hp1 d hd

end Verif.Vars
