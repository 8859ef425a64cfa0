import Verif.Top.Close
import Mathlib.Data.List.Chain

/-!
# Two semicolons in a row

Where the productions allow them: only behind a lexer section whose last declaration is a definition or a rule.
-/

namespace Verif.Top

/-- No two neighbours that both satisfy the condition. -/
def NoPair {α : Type} (p : α → Prop) (l : List α) : Prop := l.IsChain fun a b => ¬ (p a ∧ p b)

section
variable {α β : Type} {p : α → Prop}

theorem NoPair.nil : NoPair p [] := List.isChain_nil

theorem NoPair.absent {xs ys : List α} {a b : α} (h : NoPair p (xs ++ a :: b :: ys)) : ¬ (p a ∧ p b) := by
  have h1 := (List.isChain_append.1 h).2.1
  exact (List.isChain_cons_cons.1 h1).1

theorem NoPair.of_none {l : List α} (h : ∀ x ∈ l, ¬ p x) : NoPair p l := by
  induction l with
  | nil => exact .nil
  | cons a l ih =>
    cases l with
    | nil => exact List.isChain_singleton _
    | cons b l => exact List.isChain_cons_cons.2 ⟨fun hp => h a (by simp) hp.1, ih fun x hx => h x (by simp [hx])⟩

/-- Put together where what comes behind does not begin with it. -/
theorem NoPair.append {a b : List α} (ha : NoPair p a) (hb : NoPair p b) (h : (∀ x, a.getLast? = some x → ¬ p x) ∨ ∀ x, b.head? = some x → ¬ p x) : NoPair p (a ++ b) := by
  refine List.isChain_append.2 ⟨ha, hb, fun x hx y hy hp => ?_⟩
  rcases h with h | h
  · exact h x hx hp.1
  · exact h y hy hp.2

theorem NoPair.map {f : α → β} {q : β → Prop} {l : List α} (h : NoPair q (l.map f)) (hf : ∀ x, p x → q (f x)) : NoPair p l := by
  have h1 := (List.isChain_map f).1 h
  exact h1.imp fun a b h hp => h ⟨hf a hp.1, hf b hp.2⟩

theorem NoPair.some {l : List α} (h : NoPair p l) : NoPair (fun o => ∃ x, o = Option.some x ∧ p x) (l.map Option.some) := by
  refine (List.isChain_map _).2 (h.imp fun a b h => ?_)
  rintro ⟨⟨x, e, hx⟩, ⟨y, e', hy⟩⟩
  cases e; cases e'
  exact h ⟨hx, hy⟩

end

/-! ### Lexer sections -/

theorem noSemi {cs : List LexSyn.Tok} {c : LexSyn.Text} (h : LexSyn.CodeOpt cs c) : ∀ t ∈ cs, t ≠ .semi := by
  cases h <;> simp

theorem noSemi' {as : List LexSyn.Tok} {a : LexSyn.Act} (h : LexSyn.ActOpt as a) : ∀ t ∈ as, t ≠ .semi := by
  cases h <;> simp

/-- The last declaration is a definition or a rule. -/
def Closable (ds : List LexSyn.Decl) : Prop := (∃ s x, ds.getLast? = some (.define s x)) ∨ ∃ x y c a, ds.getLast? = some (.rule x y c a)

theorem Closable.cons {d : LexSyn.Decl} {ds : List LexSyn.Decl} (h : Closable ds) : Closable (d :: ds) := by
  cases ds with
  | nil => rcases h with ⟨_, _, h⟩ | ⟨_, _, _, _, h⟩ <;> cases h
  | cons e ds => simpa only [Closable, List.getLast?_cons_cons] using h

theorem section_pairs {us : List LexSyn.Tok} {ds : List LexSyn.Decl} (h : LexSyn.Ds true us ds) :
    NoPair (· = .semi) us ∧ us.head? ≠ some .semi ∧ (¬ Closable ds → us.getLast? ≠ some .semi) := by
  have go : ∀ {us a : List LexSyn.Tok} {ds : List LexSyn.Decl} {d : LexSyn.Decl}, a ≠ [] → (∀ t ∈ a, t ≠ .semi) → Closable [d] → (us = [] → ds = []) →
      NoPair (· = .semi) us ∧ us.head? ≠ some .semi ∧ (¬ Closable ds → us.getLast? ≠ some .semi) →
      NoPair (· = .semi) (a ++ .semi :: us) ∧ (a ++ .semi :: us).head? ≠ some .semi ∧ (¬ Closable (d :: ds) → (a ++ .semi :: us).getLast? ≠ some .semi) := by
    intro us a ds d ha h1 hd hn ⟨i1, i2, i3⟩
    have hh : ∀ {l : List LexSyn.Tok}, (a ++ l).head? ≠ some .semi := by
      intro l
      cases a with
      | nil => exact absurd rfl ha
      | cons t a => intro e; cases e; exact h1 .semi (by simp) rfl
    have h2 : NoPair (· = .semi) (.semi :: us) := by
      refine NoPair.append (a := [.semi]) (List.isChain_singleton _) i1 (.inr ?_)
      rintro x hx rfl
      exact i2 hx
    refine ⟨(NoPair.of_none h1).append h2 (.inl fun x hx => h1 x (List.mem_of_getLast? hx)), hh, fun hc => ?_⟩
    have h3 : ¬ Closable ds := fun h => hc h.cons
    have h4 : us ≠ [] := by
      rintro rfl
      rw [hn rfl] at hc
      exact hc hd
    rw [List.getLast?_append, show (LexSyn.Tok.semi :: us) = [.semi] ++ us from rfl, List.getLast?_append]
    cases e : us.getLast? with
    | none => exact absurd (List.getLast?_eq_none_iff.1 e) h4
    | some t =>
      rw [← e]
      have := i3 h3
      rw [e] at this ⊢
      simpa using this
  have hnil : ∀ {us : List LexSyn.Tok} {ds : List LexSyn.Decl}, LexSyn.Ds true us ds → us = [] → ds = [] := by
    intro us ds h e
    cases h with
    | nil => rfl
    | _ => simp at e
  have code : ∀ {us : List LexSyn.Tok} {ds : List LexSyn.Decl} {d : LexSyn.Decl} {k : LexSyn.Tok} {c : LexSyn.Text}, k ≠ .semi →
      NoPair (· = .semi) us ∧ us.head? ≠ some .semi ∧ (¬ Closable ds → us.getLast? ≠ some .semi) →
      NoPair (· = .semi) (k :: .code c :: us) ∧ (k :: .code c :: us).head? ≠ some .semi ∧ (¬ Closable (d :: ds) → (k :: .code c :: us).getLast? ≠ some .semi) := by
    intro us ds d k c hk ⟨i1, i2, i3⟩
    refine ⟨?_, by simpa using hk, fun hc => ?_⟩
    · refine NoPair.append (a := [k, .code c]) (.of_none ?_) i1 (.inr ?_)
      · rintro x hx rfl
        simp at hx
        exact hk hx.symm
      · rintro x hx rfl
        exact i2 hx
    · have := i3 fun h => hc h.cons
      cases us with
      | nil => simp
      | cons u us => simpa using this
  induction h with
  | nil => exact ⟨.nil, by simp, by simp⟩
  | @define ts x s us ds hd h ih =>
    have := go (a := ts ++ [.arrow, .ident s]) (d := .define s x) (by simp) (by
      intro t ht
      rcases List.mem_append.1 ht with ht | ht
      · exact (hd.noKey t ht).2.2.2
      · simp at ht; rcases ht with rfl | rfl <;> simp) (.inl ⟨_, _, rfl⟩) (hnil h) ih
    simpa using this
  | @rule ts x cs c as a us ds hd hc ha hn h ih =>
    exact go (a := ts ++ cs ++ as) (d := .rule x .nothing c a) (hn rfl) (by
      intro t ht
      rcases List.mem_append.1 ht with ht | ht
      · rcases List.mem_append.1 ht with ht | ht
        · exact (hd.noKey t ht).2.2.2
        · exact noSemi hc t ht
      · exact noSemi' ha t ht) (.inr ⟨_, _, _, _, rfl⟩) (hnil h) ih
  | @lookahead ts x vs y cs c as a us ds hd hd' hc ha h ih =>
    exact go (a := ts ++ .la :: .lp :: vs ++ .rp :: cs ++ as) (d := .rule x (.lookahead y) c a) (by simp) (by
      intro t ht
      simp only [List.mem_append, List.mem_cons] at ht
      rcases ht with ((ht | rfl | rfl | ht) | rfl | ht) | ht
      · exact (hd.noKey t ht).2.2.2
      · simp
      · simp
      · exact (hd'.noKey t ht).2.2.2
      · simp
      · exact noSemi hc t ht
      · exact noSemi' ha t ht) (.inr ⟨_, _, _, _, rfl⟩) (hnil h) ih
  | @barrier ts x vs y cs c as a us ds hd hd' hc ha h ih =>
    exact go (a := ts ++ .ba :: .lp :: vs ++ .rp :: cs ++ as) (d := .rule x (.barrier y) c a) (by simp) (by
      intro t ht
      simp only [List.mem_append, List.mem_cons] at ht
      rcases ht with ((ht | rfl | rfl | ht) | rfl | ht) | ht
      · exact (hd.noKey t ht).2.2.2
      · simp
      · simp
      · exact (hd'.noKey t ht).2.2.2
      · simp
      · exact noSemi hc t ht
      · exact noSemi' ha t ht) (.inr ⟨_, _, _, _, rfl⟩) (hnil h) ih
  | fail _ ih => exact code (by simp) ih
  | enter _ ih => exact code (by simp) ih
  | leave _ ih => exact code (by simp) ih

/-- The tokens of a section that is not closable, with the semicolon that ends it. -/
theorem section_noPair {us : List T} {vs : List LexSyn.Tok} {ds : List LexSyn.Decl} {b : T} (hm : us.map lexTok = vs.map some) (h : LexSyn.Ds true vs ds) (hc : ¬ Closable ds) :
    NoPair (IsCh 59) (us ++ [b]) := by
  obtain ⟨h1, -, h3⟩ := section_pairs h
  have h4 : NoPair (IsCh 59) us := by
    have := h1.some
    rw [← hm] at this
    exact this.map fun x hx => ⟨.semi, lexTok_semi.2 hx, rfl⟩
  refine h4.append (List.isChain_singleton _) (.inl fun x hx hp => h3 hc ?_)
  have : (us.map lexTok).getLast? = some (some .semi) := by rw [List.getLast?_map, hx]; exact congrArg some (lexTok_semi.2 hp)
  rw [hm, List.getLast?_map] at this
  cases e : vs.getLast? with
  | none => rw [e] at this; cases this
  | some t => rw [e] at this; simpa using this

/-! ### Rules -/

theorem item_noSemi {b : Bool} {n : Syntax.Nt} {ts : List Syntax.Tok} {i : Syntax.Item} (d : Syntax.D b n ts i) : ts ≠ [] ∧ ∀ t ∈ ts, t ≠ .semi := by
  induction d <;> simp_all [or_imp, forall_and]

theorem vars_noPair {vs : List Syntax.Tok} {ds : List Syntax.VarDecl} (h : Syntax.Dvs vs ds) : NoPair (· = .semi) vs ∧ ∀ x, vs.head? = some x → x ≠ .semi := by
  have one : ∀ {vs : List Syntax.Tok} {d : Syntax.VarDecl}, Syntax.Dv vs d → vs ≠ [] ∧ NoPair (· = .semi) vs ∧ ∀ x, vs.head? = some x → x ≠ .semi := by
    intro vs d h
    cases h with
    | typed a s k => cases a <;> cases s <;> cases k <;> exact ⟨by simp, .of_none (by simp), by simp⟩
    | token a s => cases a <;> cases s <;> exact ⟨by simp, by simp [NoPair], by simp⟩
    | typedSeq a s k => cases a <;> cases s <;> cases k <;> exact ⟨by simp, .of_none (by simp), by simp⟩
    | tokenSeq a s => cases a <;> cases s <;> exact ⟨by simp, by simp [NoPair], by simp⟩
  induction h with
  | one h => exact (one h).2
  | @more ts us ds d h hd ih =>
    obtain ⟨h0, h1, h2⟩ := one hd
    refine ⟨ih.1.append h1 (.inr h2), fun x hx => ?_⟩
    cases ts with
    | nil => exact h2 x hx
    | cons t ts => exact ih.2 x hx

theorem ops_noSemi {ts : List Syntax.Tok} {os : List Syntax.OpDecl} (h : Syntax.DeclsR ts os) : ∀ t ∈ ts, t ≠ .semi := by
  have op : ∀ {ts o}, Syntax.OperR ts o → ∀ t ∈ ts, t ≠ .semi := by intro ts o h; cases h <;> simp
  have pr : ∀ {ts o}, Syntax.PrioR ts o → ∀ t ∈ ts, t ≠ .semi := by intro ts o h; cases h <;> simp
  have as : ∀ {ts o}, Syntax.AssocR ts o → ∀ t ∈ ts, t ≠ .semi := by intro ts o h; cases h <;> simp
  have one : ∀ {ts o}, Syntax.DeclR ts o → ∀ t ∈ ts, t ≠ .semi := by
    intro ts o h
    cases h with
    | bin h1 h2 h3 => have := op h1; have := pr h2; have := as h3; simp_all [or_imp, forall_and]
    | tern h1 h1' h2 h3 => have := op h1; have := op h1'; have := pr h2; have := as h3; simp_all [or_imp, forall_and]
    | pre h1 h2 => have := op h1; have := pr h2; simp_all [or_imp, forall_and]
    | post h1 h2 => have := op h1; have := pr h2; simp_all [or_imp, forall_and]
    | postAssoc h1 h2 h3 => have := op h1; have := pr h2; have := as h3; simp_all [or_imp, forall_and]
    | paren h1 h1' => have := op h1; have := op h1'; simp_all [or_imp, forall_and]
  induction h with
  | nil => simp
  | cons h _ ih =>
    intro t ht
    rcases List.mem_append.1 ht with ht | ht
    · exact one h t ht
    · exact ih t ht

theorem rule_noPair {b : Bool} {ts : List Syntax.Tok} {r : Syntax.Rule} (h : Syntax.R b ts r) :
    NoPair (· = .semi) ts ∧ (∀ x, ts.head? = some x → x ≠ .semi) ∧ ts ≠ [] ∧ ∀ x, ts.getLast? = some x → x ≠ .semi := by
  have co : ∀ {cs : List Syntax.Tok} {c : Syntax.Name}, Syntax.CodeOpt cs c → ∀ t ∈ cs, t ≠ .semi := by
    intro cs c h
    cases h <;> simp
  have head : ∀ {b : Bool} {n : Syntax.Nt} {ts us : List Syntax.Tok} {i : Syntax.Item}, Syntax.D b n ts i → ∀ x, (ts ++ us).head? = some x → x ≠ .semi := by
    intro b n ts us i d x hx
    obtain ⟨h1, h2⟩ := item_noSemi d
    cases ts with
    | nil => exact absurd rfl h1
    | cons t ts => cases hx; exact h2 _ (by simp)
  have vars : ∀ {a vs e : List Syntax.Tok} {ds : List Syntax.VarDecl}, (∀ t ∈ a, t ≠ .semi) → Syntax.Dvs vs ds → (∀ t ∈ e, t ≠ .semi) → e ≠ [] →
      NoPair (· = .semi) (a ++ vs ++ e) ∧ ∀ x, (a ++ vs ++ e).getLast? = some x → x ≠ .semi := by
    intro a vs e ds ha hv he hne
    obtain ⟨h1, h2⟩ := vars_noPair hv
    refine ⟨((NoPair.of_none ha).append h1 (.inr h2)).append (.of_none he) (.inr fun x hx => he x (List.mem_of_head? hx)), fun x hx => ?_⟩
    rw [List.getLast?_append_of_ne_nil _ hne] at hx
    exact he x (List.mem_of_getLast? hx)
  cases h with
  | @codeFirst ts i s c vs ds d hv =>
    have := vars (a := ts ++ [.arrow, .ident s, .code c, .lbr]) (e := [.rbr]) (by
      intro t ht
      rcases List.mem_append.1 ht with ht | ht
      · exact (item_noSemi d).2 t ht
      · simp at ht; rcases ht with rfl | rfl | rfl | rfl <;> simp) hv (by simp) (by simp)
    simp only [List.append_assoc, List.cons_append, List.nil_append] at this ⊢
    exact ⟨this.1, head d, by simp, this.2⟩
  | @declsFirst ts i s cs c vs ds d hv hc =>
    have := vars (a := ts ++ [.arrow, .ident s, .lbr]) (e := .rbr :: cs) (by
      intro t ht
      rcases List.mem_append.1 ht with ht | ht
      · exact (item_noSemi d).2 t ht
      · simp at ht; rcases ht with rfl | rfl | rfl <;> simp) hv (by
      intro t ht
      rcases List.mem_cons.1 ht with rfl | ht
      · simp
      · exact co hc t ht) (by simp)
    simp only [List.append_assoc, List.cons_append, List.nil_append] at this ⊢
    exact ⟨this.1, head d, by simp, this.2⟩
  | @plain ts i s cs c d hc =>
    have h1 : ∀ t ∈ ts ++ .arrow :: .ident s :: cs, t ≠ .semi := by
      intro t ht
      simp only [List.mem_append, List.mem_cons] at ht
      rcases ht with ht | rfl | rfl | ht
      · exact (item_noSemi d).2 t ht
      · simp
      · simp
      · exact co hc t ht
    exact ⟨.of_none h1, head d, by simp, fun x hx => h1 x (List.mem_of_getLast? hx)⟩
  | @opDecls bs a us os s cs c vs ds d ho hv hc =>
    have hp : ∀ t ∈ .lopr :: (bs ++ (us ++ [.ropr, .ident s, .lbr])), t ≠ Syntax.Tok.semi := by
      intro t ht
      simp only [List.mem_append, List.mem_cons, List.not_mem_nil, or_false] at ht
      rcases ht with rfl | ht | ht | rfl | rfl | rfl
      · simp
      · exact (item_noSemi d).2 t ht
      · exact ops_noSemi ho t ht
      all_goals simp
    have := vars (e := .rbr :: cs) hp hv (by
      intro t ht
      rcases List.mem_cons.1 ht with rfl | ht
      · simp
      · exact co hc t ht) (by simp)
    simp only [List.append_assoc, List.cons_append, List.nil_append] at this ⊢
    exact ⟨this.1, by simp, by simp, this.2⟩
  | @opCode bs a us os s c vs ds d ho hv =>
    have hp : ∀ t ∈ .lopr :: (bs ++ (us ++ [.ropr, .ident s, .code c, .lbr])), t ≠ Syntax.Tok.semi := by
      intro t ht
      simp only [List.mem_append, List.mem_cons, List.not_mem_nil, or_false] at ht
      rcases ht with rfl | ht | ht | rfl | rfl | rfl | rfl
      · simp
      · exact (item_noSemi d).2 t ht
      · exact ops_noSemi ho t ht
      all_goals simp
    have := vars (e := [.rbr]) hp hv (by simp) (by simp)
    simp only [List.append_assoc, List.cons_append, List.nil_append] at this ⊢
    exact ⟨this.1, by simp, by simp, this.2⟩
  | @opPlain bs a us os s cs c d ho hc =>
    have hp : ∀ t ∈ .lopr :: (bs ++ (us ++ .ropr :: .ident s :: cs)), t ≠ Syntax.Tok.semi := by
      intro t ht
      simp only [List.mem_append, List.mem_cons] at ht
      rcases ht with rfl | ht | ht | rfl | rfl | ht
      · simp
      · exact (item_noSemi d).2 t ht
      · exact ops_noSemi ho t ht
      · simp
      · simp
      · exact co hc t ht
    exact ⟨.of_none hp, by simp, by simp, fun x hx => hp x (List.mem_of_getLast? hx)⟩

theorem rules_noPair {b : Bool} {ts : List Syntax.Tok} {rs : List Syntax.Rule} (h : Syntax.Rs b ts rs) : NoPair (· = .semi) ts ∧ ∀ x, ts.head? = some x → x ≠ .semi := by
  induction h with
  | nil => exact ⟨.nil, by simp⟩
  | @more ts us rs r h hr ih =>
    obtain ⟨h1, h2, h3, h4⟩ := rule_noPair hr
    refine ⟨?_, fun x hx => ?_⟩
    · exact (ih.1.append h1 (.inr h2)).append (List.isChain_singleton _) (.inl fun x hx => by
        rw [List.getLast?_append_of_ne_nil _ h3] at hx
        exact h4 x hx)
    · cases ts with
      | nil =>
        cases us with
        | nil => exact absurd rfl h3
        | cons u us => exact h2 x hx
      | cons t ts => exact ih.2 x hx

theorem ofLex_semi {b : T} (h : IsCh 59 b) : Syntax.ofLex b = some .semi := by
  obtain ⟨t, x⟩ := b
  cases h
  rfl

/-- The rules and the code behind them. -/
theorem rest_noPair {us b : List T} {rs : List Syntax.Rule} {y : Text} (h : Rules us rs) (hb : CodeOpt b y) :
    NoPair (IsCh 59) (us ++ b) ∧ ∀ x, (us ++ b).head? = some x → ¬ IsCh 59 x := by
  obtain ⟨vs, hm, hr⟩ := h
  obtain ⟨h1, h2⟩ := rules_noPair hr
  have h3 : NoPair (IsCh 59) us := by
    have := h1.some
    rw [← hm] at this
    exact this.map fun x hx => ⟨.semi, ofLex_semi hx, rfl⟩
  have h4 : ∀ x ∈ b, ¬ IsCh 59 x := by cases hb <;> simp
  refine ⟨h3.append (.of_none h4) (.inr fun x hx => h4 x (List.mem_of_head? hx)), fun x hx hp => ?_⟩
  cases us with
  | nil => exact h4 x (List.mem_of_head? hx) hp
  | cons u us =>
    cases hx
    cases vs with
    | nil => cases hm
    | cons v vs =>
      simp only [List.map_cons, List.cons.injEq, ofLex_semi hp] at hm
      exact h2 v rfl (Option.some.inj hm.1).symm

/-! ### The whole file -/

/-- A declaration in the middle of the file, as its tokens. -/
theorem DeclaresAll.split {ts : List T} {ds : List Decl} (h : DeclaresAll ts ds) : ∀ {d : Decl}, d ∈ ds → ∃ a b w, ts = a ++ w ++ b ∧ Declares w d ∧
    (b = [] ∨ ∃ k b', b = k :: b' ∧ k.1 ∈ keyToks) := by
  induction h with
  | one h =>
    intro d hd
    cases List.mem_singleton.1 hd
    exact ⟨[], [], _, by simp, h, .inl rfl⟩
  | @more ts ds us e h he ih =>
    intro d hd
    rcases List.mem_append.1 hd with hd | hd
    · obtain ⟨a, b, w, rfl, hw, hb⟩ := ih hd
      refine ⟨a, b ++ us, w, by simp, hw, .inr ?_⟩
      rcases hb with rfl | ⟨k, b', rfl, hk⟩
      · obtain ⟨k, us', rfl, hk⟩ := he.head
        exact ⟨k, us', rfl, key_mem hk⟩
      · exact ⟨k, b' ++ us, rfl, hk⟩
    · cases List.mem_singleton.1 hd
      exact ⟨ts, [], us, by simp, he, .inl rfl⟩

/-- Every lexer section of a file that is scanned to its end and has a reading ends with a definition or a rule. -/
theorem closed {E : GLex.Env} {f : Nat} {st st' : GLex.St} {s : List Nat} {toks : List T} {F : File} (h : GLex.scan E f st s = some (toks, .eof st')) (hF : System toks F)
    {e : Option Text} {ds : List LexSyn.Decl} (hd : .lexer e ds ∈ F.decls) : Closable ds := by
  by_contra hc
  cases hF with
  | @mk a x ts dl us rs b y ha hdl hr hb =>
    obtain ⟨p, q, w, rfl, hw, hq⟩ := hdl.split hd
    -- the tokens of the section, and what comes before
    have key : ∃ t m ar ws c, w = t :: (m ++ ar :: (ws ++ [c])) ∧ IsKey "T_LEXER" t ∧ (m = [] ∨ ∃ x, m = [(.named "T_STRING", x)]) ∧ IsKey "T_ARROW" ar ∧ NoPair (IsCh 59) (ws ++ [c]) := by
      cases hw with
      | @named t s ar ws vs _ c h1 h2 h3 h4 h5 => exact ⟨t, [(.named "T_STRING", s)], ar, ws, c, by simp, h1, .inr ⟨s, rfl⟩, h2, section_noPair h3 h4 hc⟩
      | @start t ar ws vs _ c h1 h2 h3 h4 h5 => exact ⟨t, [], ar, ws, c, by simp, h1, .inl rfl, h2, section_noPair h3 h4 hc⟩
    obtain ⟨t, m, ar, ws, c, rfl, h1, h2, h3, h4⟩ := key
    have e1 : a ++ (p ++ t :: (m ++ ar :: (ws ++ [c])) ++ q) ++ us ++ b = (a ++ p) ++ t :: (m ++ ar :: ((ws ++ [c]) ++ (q ++ (us ++ b)))) := by simp
    rw [e1] at h
    obtain ⟨f', st1, s1, hi, h5⟩ := scan_section h h1 h2 h3
    obtain ⟨xs, u, v, ys, e2, hu, hv, hx⟩ := inside_scan hi h5
    obtain ⟨r1, r2⟩ := rest_noPair hr hb
    rcases hq with rfl | ⟨k, q', rfl, hk⟩
    · have : NoPair (IsCh 59) ((ws ++ [c]) ++ ([] ++ (us ++ b))) := h4.append r1 (.inr r2)
      rw [e2] at this
      exact this.absent ⟨hu, hv⟩
    · have hkc : ¬ IsCh 59 k := by
        intro h
        rw [show k.1 = .ch 59 from h] at hk
        revert hk
        decide
      have e3 : (ws ++ [c]) ++ k :: (q' ++ (us ++ b)) = xs ++ u :: v :: ys := by simpa using e2
      rcases List.append_eq_append_iff.1 e3 with ⟨z, hz, hz'⟩ | ⟨z, hz, hz'⟩
      · -- the pair would lie behind the key
        cases z with
        | nil => exact hkc ((List.cons.inj hz').1 ▸ hu)
        | cons z0 z => exact hx z0 (by rw [hz]; simp) ((List.cons.inj hz').1 ▸ hk)
      · cases z with
        | nil => exact hkc ((List.cons.inj hz').1 ▸ hu)
        | cons z0 z =>
          simp only [List.cons_append, List.cons.injEq] at hz'
          obtain ⟨rfl, hz'⟩ := hz'
          cases z with
          | nil => simp only [List.nil_append, List.cons.injEq] at hz'; rw [hz'.1] at hv; exact hkc hv
          | cons z1 z =>
            simp only [List.cons_append, List.cons.injEq] at hz'
            obtain ⟨rfl, hz'⟩ := hz'
            rw [hz] at h4
            exact h4.absent ⟨hu, hv⟩

end Verif.Top
