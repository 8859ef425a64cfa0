import Verif.Syntax.Text

/-!
# Properties C88-C90: reading rules, and reading what the pretty printer shows
-/

namespace Verif.Syntax

open GLex (bytes)

/-! ## C88: one reading -/

/-- C88: a text of rules has one reading. -/
theorem C88_one_reading {ts : List Tok} {rs rs' : List Rule} (h : Rs true ts rs) (h' : Rs true ts rs') : rs = rs' := by
  obtain ⟨ps, h1, e1, rfl⟩ := h.pieces
  obtain ⟨qs, h2, e2, rfl⟩ := h'.pieces
  exact rules_unique h1 h2 (e1.symm.trans e2)

theorem D.weaken {n : Nt} {ts : List Tok} {i : Item} (d : D true n ts i) : D false n ts i := by
  induction d with
  | zero => exact .zero
  | paren _ ih => exact .paren ih
  | tryIt _ ih => exact .tryIt ih
  | atom _ ih => exact .atom ih
  | inl => exact .inl
  | annEq _ ih => exact .annEq ih
  | annColon _ ih => exact .annColon ih
  | seqEq _ ih => exact .seqEq ih
  | seqColon _ ih => exact .seqColon ih
  | nonterm => exact .nonterm
  | call => exact .call
  | term => exact .term
  | recover _ ih => exact .recover ih
  | rollback _ _ ih ih' => exact .rollback ih ih'
  | plus _ ih => exact .plus ih
  | star _ ih => exact .star ih
  | primary _ ih => exact .primary ih
  | opt _ ih => exact .opt ih
  | unary _ ih => exact .unary ih
  | sep _ _ ih ih' => exact .sep ih ih'
  | act _ ih => exact .act ih
  | code => exact .code
  | one _ ih => exact .one ih
  | seq _ _ _ ih ih' => exact .seq ih ih' (by simp)
  | sequence _ ih => exact .sequence ih
  | cond _ ih => exact .cond ih
  | single _ ih => exact .single ih
  | alt _ _ ih ih' => exact .alt ih ih'

theorem atom_any {b b' : Bool} {ts : List Tok} {a : Item} (d : D b .atom ts a) : D b' .atom ts a := by
  cases d
  · exact .nonterm
  · exact .call
  · exact .term

theorem R.map {b b' : Bool} (hD : ∀ ts i, D b .option ts i → ∃ j, D b' .option ts j) {ts : List Tok} {r : Rule} (h : R b ts r) : ∃ r', R b' ts r' := by
  cases h with
  | codeFirst d v => obtain ⟨j, d'⟩ := hD _ _ d; exact ⟨_, .codeFirst d' v⟩
  | declsFirst d v c => obtain ⟨j, d'⟩ := hD _ _ d; exact ⟨_, .declsFirst d' v c⟩
  | plain d c => obtain ⟨j, d'⟩ := hD _ _ d; exact ⟨_, .plain d' c⟩
  | opDecls d o v c => exact ⟨_, .opDecls (atom_any d) o v c⟩
  | opCode d o v => exact ⟨_, .opCode (atom_any d) o v⟩
  | opPlain d o c => exact ⟨_, .opPlain (atom_any d) o c⟩

theorem Rs.map {b b' : Bool} (hD : ∀ ts i, D b .option ts i → ∃ j, D b' .option ts j) {ts : List Tok} {rs : List Rule} (h : Rs b ts rs) : ∃ rs', Rs b' ts rs' := by
  induction h with
  | nil => exact ⟨_, .nil⟩
  | more _ h ih =>
    obtain ⟨rs', h1⟩ := ih
    obtain ⟨r', h2⟩ := h.map hD
    exact ⟨_, .more h1 h2⟩

/-- C88: what the grammar allows is read, whatever choice it leaves; and nothing else is read. -/
theorem C88_nothing_lost {ts : List Tok} : (∃ rs, Rs true ts rs) ↔ ∃ rs, Rs false ts rs :=
  ⟨fun ⟨_, h⟩ => h.map fun _ _ d => ⟨_, d.weaken⟩, fun ⟨_, h⟩ => h.map fun _ _ d => resolve d⟩

/-- C88: the reading can be found by recursive descent, without going back. -/
theorem C88_descent {ts : List Tok} {i : Item} : D true .option ts i ↔ ∃ n, ∀ f ≥ n, pOption f ts = some (i, []) := by
  have := reads_iff (ts := ts) (i := i) (rest := []) rfl (by simp)
  rw [List.append_nil] at this
  exact this

def ambiguous : List Tok := [.ident [97], .code [99], .at_, .ident [98]]
def readOne : Item := sep (.act (.nonterm [97] []) [99]) (.nonterm [98] [])
def readTwo : Item := .cons (.nonterm [97] []) (sep (.code [99]) (.nonterm [98] []))

/-- C88: the grammar alone does not fix the reading: `a [:c:] @ b` could be `a` several times with `b` between, or one `a` with code behind. -/
theorem C88_grammar_ambiguous : ∃ ts i j, D false .option ts i ∧ D false .option ts j ∧ ¬ Same i j := by
  refine ⟨ambiguous, readOne, readTwo, .single (.sequence (.one ?_)), .single (.sequence ?_), fun h => ?_⟩
  · exact D.sep (ts := [.ident [97], .code [99]]) (us := [.ident [98]]) (.act (ts := [.ident [97]]) (.unary (.primary (.atom .nonterm)))) (.atom .nonterm)
  · exact D.seq (ts := [.ident [97]]) (us := [.code [99], .at_, .ident [98]]) (.one (.unary (.primary (.atom .nonterm))))
      (.sep (ts := [.code [99]]) (us := [.ident [98]]) .code (.atom .nonterm)) (by simp)
  · have h1 : W readOne ([.sym [97]] ++ (([.sym [98]] ++ [.sym [97]]) ++ [])) :=
      .cons (.act .nonterm) (.again (.cons .nonterm (.act .nonterm)) .none)
    have h2 := (h _).1 h1
    obtain ⟨u, v, e, hu, hv⟩ := W_cons.1 h2
    obtain ⟨u', v', rfl, hu', hv'⟩ := W_cons.1 hv
    rw [W_nonterm] at hu
    rw [W_code] at hu'
    subst hu hu'
    cases hv' with
    | none => simp at e
    | again h3 _ =>
      obtain ⟨_, _, _, _, h5⟩ := W_cons.1 h3
      cases W_act.1 h5

/-- Two rules. -/
example : Rs true ([.ident [97], .code [99], .at_, .ident [98], .arrow, .ident [115], .semi] ++ [.opt, .term [65], .arrow, .ident [116], .code [100]] ++ [.semi])
    ([⟨readOne, [115], [], []⟩] ++ [⟨.alt (.term [65]) .zero, [116], [], [100]⟩]) := by
  have h1 : R true [.ident [97], .code [99], .at_, .ident [98], .arrow, .ident [115]] ⟨readOne, [115], [], []⟩ := R.plain (ts := ambiguous) (.single (.sequence (.one
      (D.sep (ts := [.ident [97], .code [99]]) (us := [.ident [98]]) (.act (ts := [.ident [97]]) (.unary (.primary (.atom .nonterm)))) (.atom .nonterm))))) .none
  have h2 : R true [.opt, .term [65], .arrow, .ident [116], .code [100]] ⟨.alt (.term [65]) .zero, [116], [], [100]⟩ :=
    R.plain (ts := [.opt, .term [65]]) (.single (.sequence (.one (.unary (.opt (.atom .term)))))) .some
  exact .more (.more .nil h1) h2

/-- An operator rule: `%< term  %bin PLUS [:c:] 1 %left  %post ?[:a:] INC 0  %paren L R  %> expr [:d:]`. -/
example : R true [.lopr, .ident [116], .bin, .term [80], .code [99], .number [49], .left, .post, .opt, .code [97], .term [73], .zero, .paren, .term [76], .term [82], .ropr, .ident [101], .code [100]]
    ⟨.op ⟨.sym [116] [], [.bin ⟨[80], [], [99]⟩ (.number [49]) .left, .post ⟨[73], [97], []⟩ .zero none, .paren ⟨[76], [], []⟩ ⟨[82], [], []⟩]⟩, [101], [], [100]⟩ := by
  have h1 : DeclR [.bin, .term [80], .code [99], .number [49], .left] (.bin ⟨[80], [], [99]⟩ (.number [49]) .left) := .bin .code .number .left
  have h2 : DeclR [.post, .opt, .code [97], .term [73], .zero] (.post ⟨[73], [97], []⟩ .zero none) := .post .cond .zero
  have h3 : DeclR [.paren, .term [76], .term [82]] (.paren ⟨[76], [], []⟩ ⟨[82], [], []⟩) := .paren .plain .plain
  exact R.opPlain (b := .sym [116] []) .nonterm (.cons h1 (.cons h2 (.cons h3 .nil))) .some

/-! ## C89: how the operators bind -/

theorem only {ts : List Tok} {i : Item} (d : D true .option ts i) (k : Item) : D true .option ts k ↔ k = i :=
  ⟨fun h => option_unique h d, fun h => h ▸ d⟩

/-- C89: code behind a sequence belongs to the last item of the sequence. -/
theorem C89_code {ts us : List Tok} {i j : Item} {c : Name} (d : D true .seq ts i) (d' : D true .postfix us j) (hc : codeFirst us = false) (k : Item) :
    D true .option (ts ++ (us ++ [.code c])) k ↔ k = .cons i (.act j c) :=
  only (.single (.sequence (.seq d (.act d') fun _ => (codeFirst_append d'.ne_nil).trans hc))) k

theorem primary_noCode {us : List Tok} {j : Item} (d : D true .primary us j) (x : List Tok) : codeFirst (us ++ x) = false := by
  obtain ⟨t, r, rfl, h⟩ := first d
  cases t <;> first | rfl | cases h

/-- C89: `+`, `*` and `?` concern one item, not the sequence. -/
theorem C89_repetition {ts us : List Tok} {i j : Item} (d : D true .seq ts i) (d' : D true .primary us j) (k : Item) :
    (D true .option (ts ++ (us ++ [.plus])) k ↔ k = .cons i (.plus j)) ∧ (D true .option (ts ++ (us ++ [.star])) k ↔ k = .cons i (.star j)) ∧
    (D true .option (ts ++ .opt :: us) k ↔ k = .cons i (.alt j .zero)) :=
  ⟨only (.single (.sequence (.seq d (.unary (.plus d')) fun _ => primary_noCode d' _))) k, only (.single (.sequence (.seq d (.unary (.star d')) fun _ => primary_noCode d' _))) k,
    only (.single (.sequence (.seq d (.unary (.opt d')) fun _ => rfl))) k⟩

/-- C89: `@` concerns the items next to it; on the left with the code or separators before it, on the right without what follows. -/
theorem C89_separator {ts us vs : List Tok} {i j k : Item} (d : D true .seq ts i) (d' : D true .postfix us j) (hc : codeFirst us = false) (d'' : D true .primary vs k) (m : Item) :
    (D true .option (ts ++ (us ++ .at_ :: vs)) m ↔ m = .cons i (sep j k)) ∧ ∀ c, D true .option (ts ++ (us ++ .at_ :: vs ++ [.code c])) m ↔ m = .cons i (.act (sep j k) c) :=
  ⟨only (.single (.sequence (.seq d (.sep d' d'') fun _ => (codeFirst_append d'.ne_nil).trans hc))) m,
    fun _ => only (.single (.sequence (.seq d (.act (.sep d' d'')) fun _ => by rw [List.append_assoc]; exact (codeFirst_append d'.ne_nil).trans hc))) m⟩

/-- C89: a condition concerns the whole sequence behind it, but one alternative. -/
theorem C89_condition {ts us vs : List Tok} {i j k : Item} {c : Name} (d : D true .option ts i) (d' : D true .seq us j) (d'' : D true .cond vs k) (m : Item) :
    D true .option (ts ++ .bar :: (.opt :: .code c :: us) ++ .bar :: vs) m ↔ m = .alt (.alt i (.cond c j)) k :=
  only (.alt (.alt d (.cond d')) d'') m

/-- C89: alternatives end with the sequence; parentheses make one item of them. -/
theorem C89_parentheses {ts us vs : List Tok} {i j k : Item} (d : D true .seq ts i) (d' : D true .option us j) (d'' : D true .cond vs k) (m : Item) :
    D true .option (ts ++ (.lp :: us ++ [.rp]) ++ .bar :: vs) m ↔ m = .alt (.cons i j) k :=
  only (.alt (.single (.sequence (.seq d (.unary (.primary (.paren d'))) fun _ => rfl))) d'') m

/-- No piece of code that is an item of its own. -/
def noBare : Item → Bool
  | .code _ => false
  | .ann _ i => noBare i
  | .plus i => noBare i
  | .star i => noBare i
  | .act i _ => noBare i
  | .alt l r => noBare l && noBare r
  | .cons l r => noBare l && noBare r
  | .cond _ i => noBare i
  | .recover i => noBare i
  | .rollback i j => noBare i && noBare j
  | _ => true

theorem same_clone : ∀ {i : Item}, noBare i = true → Same (clone i) i
  | .zero, _ | .nonterm .., _ | .term _, _ | .inl _, _ | .op _, _ | .wild, _ => fun _ => Iff.rfl
  | .code _, h => by cases h
  | .ann l i, h => fun w => W_ann.trans ((by simp only [same_clone (i := i) h _] : _ ↔ _).trans W_ann.symm)
  | .plus i, h => same_plus (same_clone (i := i) h)
  | .star i, h => same_star (same_clone (i := i) h)
  | .act i c, h => fun w => W_act.trans ((same_clone (i := i) h w).trans W_act.symm)
  | .cond c i, h => fun w => (same_clone (i := i) h w).trans W_cond.symm
  | .recover i, h => fun w => W_recover.trans ((by simp only [same_clone (i := i) h _] : _ ↔ _).trans W_recover.symm)
  | .rollback i j, h => fun w => by
    simp only [noBare, Bool.and_eq_true] at h
    exact W_rollback.trans ((by simp only [same_clone h.1 _, same_clone h.2 _] : _ ↔ _).trans W_rollback.symm)
  | .alt l r, h => fun w => by
    simp only [noBare, Bool.and_eq_true] at h
    exact W_alt.trans ((by rw [same_clone h.1 _, same_clone h.2 _] : _ ↔ _).trans W_alt.symm)
  | .cons l r, h => fun w => by
    simp only [noBare, Bool.and_eq_true] at h
    exact W_cons.trans ((by simp only [same_clone h.1 _, same_clone h.2 _] : _ ↔ _).trans W_cons.symm)

/-- Sentences of `i`, with sentences of `j` between them. -/
inductive Between (i j : Item) : List Mark → Prop
  | one {u} : W i u → Between i j u
  | more {u v w} : Between i j u → W j v → W i w → Between i j (u ++ (v ++ w))

/-- C89: `i @ j` is `i`, or several `i` with `j` between them, if neither has a piece of code as an item. -/
theorem C89_separator_sentences_partial {i j : Item} (hi : noBare i = true) (hj : noBare j = true) (w : List Mark) : W (sep i j) w ↔ Between i j w := by
  have hs : Same (.cons (clone j) (clone i)) (.cons j i) := fun w => W_cons.trans ((by simp only [same_clone hi _, same_clone hj _] : _ ↔ _).trans W_cons.symm)
  have hst := same_star hs
  have h1 : ∀ u v, Between i j u → W (.star (.cons j i)) v → Between i j (u ++ v) := by
    intro u v hu hv
    generalize e : Item.star (.cons j i) = x at hv
    induction hv generalizing u with
    | none => simpa using hu
    | again h1 _ _ ih =>
      cases e
      obtain ⟨a, b, rfl, ha, hb⟩ := W_cons.1 h1
      have := ih _ (.more hu ha hb) rfl
      rw [List.append_assoc] at this
      exact this
    | _ => cases e
  have h2 : ∀ v a b, W (.star (.cons j i)) v → W j a → W i b → W (.star (.cons j i)) (v ++ (a ++ b)) := by
    intro v a b hv ha hb
    generalize e : Item.star (.cons j i) = x at hv
    induction hv with
    | none => cases e; simpa using W.again (.cons ha hb) .none
    | again h1 _ _ ih => cases e; rw [List.append_assoc]; exact .again h1 (ih rfl)
    | _ => cases e
  unfold sep
  rw [W_cons]
  simp only [hst _]
  constructor
  · rintro ⟨u, v, rfl, hu, hv⟩; exact h1 u v (.one hu) hv
  · intro h
    induction h with
    | one hu => exact ⟨_, [], by simp, hu, .none⟩
    | more _ ha hb ih =>
      obtain ⟨u, v, rfl, hu, hv⟩ := ih
      exact ⟨u, v ++ (_ ++ _), by simp, hu, h2 v _ _ hv ha hb⟩

/-- C89: with code as an item the separator is lost: `(a ([:c:])) @ b` has no second `a`, as the copy of the code has an invalid pointer. -/
theorem C89_fails_separator_code : ∃ ts i us j w, D true .option (ts ++ .at_ :: us) (sep i j) ∧ D true .primary ts i ∧ D true .primary us j ∧ Between i j w ∧ ¬ W (sep i j) w := by
  have d : D true .primary [.lp, .ident [97], .lp, .code [99], .rp, .rp] (.cons (.nonterm [97] []) (.code [99])) :=
    D.paren (ts := [.ident [97], .lp, .code [99], .rp]) (.single (.sequence (D.seq (ts := [.ident [97]]) (us := [.lp, .code [99], .rp]) (.one (.unary (.primary (.atom .nonterm))))
      (.unary (.primary (D.paren (ts := [.code [99]]) (.single (.sequence (.one .code)))))) fun _ => rfl)))
  refine ⟨_, _, [.ident [98]], .nonterm [98] [], _, .single (.sequence (.one (.sep (.unary (.primary d)) (.atom .nonterm)))), d, .atom .nonterm,
    .more (.one (.cons .nonterm .code)) .nonterm (.cons .nonterm .code), fun h => ?_⟩
  obtain ⟨u, v, e, hu, hv⟩ := W_cons.1 h
  obtain ⟨a, b, rfl, ha, hb⟩ := W_cons.1 hu
  rw [W_nonterm] at ha
  rw [W_code] at hb
  subst ha hb
  cases hv with
  | none => simp at e
  | again h3 _ =>
    obtain ⟨_, _, _, _, h5⟩ := W_cons.1 h3
    obtain ⟨_, _, _, _, h6⟩ := W_cons.1 h5
    cases W_act.1 h6

/-- `a b [:c:]`, `a b+`, `a b @ C`. -/
example (k : Item) : D true .option [.ident [97], .ident [98], .code [99]] k ↔ k = .cons (.nonterm [97] []) (.act (.nonterm [98] []) [99]) :=
  C89_code (ts := [.ident [97]]) (us := [.ident [98]]) (.one (.unary (.primary (.atom .nonterm)))) (.unary (.primary (.atom .nonterm))) rfl k
example (k : Item) : D true .option [.ident [97], .ident [98], .plus] k ↔ k = .cons (.nonterm [97] []) (.plus (.nonterm [98] [])) :=
  (C89_repetition (ts := [.ident [97]]) (us := [.ident [98]]) (.one (.unary (.primary (.atom .nonterm)))) (.atom .nonterm) k).1
example (k : Item) : D true .option [.ident [97], .ident [98], .at_, .term [67]] k ↔ k = .cons (.nonterm [97] []) (sep (.nonterm [98] []) (.term [67])) :=
  (C89_separator (ts := [.ident [97]]) (us := [.ident [98]]) (vs := [.term [67]]) (.one (.unary (.primary (.atom .nonterm)))) (.unary (.primary (.atom .nonterm))) rfl (.atom .term) k).1
example (k : Item) : D true .option [.ident [97], .bar, .opt, .code [99], .ident [98], .ident [98], .bar, .term [67]] k ↔
    k = .alt (.alt (.nonterm [97] []) (.cond [99] (.cons (.nonterm [98] []) (.nonterm [98] [])))) (.term [67]) :=
  C89_condition (ts := [.ident [97]]) (us := [.ident [98], .ident [98]]) (vs := [.term [67]]) (.single (.sequence (.one (.unary (.primary (.atom .nonterm))))))
    (.seq (ts := [.ident [98]]) (.one (.unary (.primary (.atom .nonterm)))) (.unary (.primary (.atom .nonterm))) fun _ => rfl) (.sequence (.one (.unary (.primary (.atom .term))))) k
example : Between (.nonterm [97] []) (.term [67]) [.sym [97], .term [67], .sym [97]] := .more (u := [.sym [97]]) (v := [.term [67]]) (w := [.sym [97]]) (.one .nonterm) .term .nonterm

/-! ## C90: printed rules -/

/-- C90: what the pretty printer shows for a rule is, with a semicolon behind it, the text of a rule, for the same symbol and with the same sentences, if no part that has a
place of its own consists of code alone. -/
theorem C90_printed_partial (E : GLex.Env) {r : Rule} (hn : Named r.item) (hsym : IsIdent r.sym) (hs : Shown r.item) (hc : onlyCode r.item = false) :
    ∃ xs st ts r', GLex.scan E ((r.print ++ bytes ";").length + 1) {} (r.print ++ bytes ";") = some (xs, .eof st) ∧ xs.map ofLex = ts.map some ∧
      Rs true ts [r'] ∧ (∀ rs, Rs true ts rs → rs = [r']) ∧ r'.sym = r.sym ∧ Same r'.item r.item := by
  obtain ⟨xs, st, h1, h2⟩ := lexes_scan (lexes_rule hn hsym hs) rfl E
  obtain ⟨b, d, hb⟩ := (reads hs hc).paren
  have hrs : Rs true (toks r.item ++ [.arrow, .ident r.sym, .semi]) [⟨b, r.sym, [], []⟩] := by
    have := Rs.more .nil (R.plain (s := r.sym) d .none)
    simpa using this
  exact ⟨xs, st, _, ⟨b, r.sym, [], []⟩, h1, h2, hrs, fun rs h => C88_one_reading h hrs, rfl, hb⟩

/-! ### Rules written without code -/

theorem noCode_clone_props {b : Bool} {n : Nt} {ts : List Tok} {i : Item} (d : D b n ts i) (h : ∀ c, Tok.code c ∉ ts) :
    clone i = i ∧ Shown i ∧ onlyCode i = false ∧ (n = .atom → (∃ s a, i = .nonterm s a) ∨ ∃ s, i = .term s) := by
  induction d with
  | zero => exact ⟨rfl, trivial, rfl, by simp⟩
  | paren _ ih => obtain ⟨h1, h2, h3, _⟩ := ih fun c hc => h c (by simp [hc]); exact ⟨h1, h2, h3, by simp⟩
  | tryIt _ ih => obtain ⟨h1, h2, h3, _⟩ := ih h; exact ⟨h1, h2, h3, by simp⟩
  | atom _ ih => obtain ⟨h1, h2, h3, _⟩ := ih h; exact ⟨h1, h2, h3, by simp⟩
  | inl => exact ⟨rfl, trivial, rfl, by simp⟩
  | annEq _ ih => obtain ⟨h1, h2, h3, h4⟩ := ih fun c hc => h c (by simp [hc]); exact ⟨by simp [clone, h1], h4 rfl, rfl, by simp⟩
  | annColon _ ih => obtain ⟨h1, h2, h3, h4⟩ := ih fun c hc => h c (by simp [hc]); exact ⟨by simp [clone, h1], h4 rfl, rfl, by simp⟩
  | seqEq _ ih => obtain ⟨h1, h2, h3, h4⟩ := ih fun c hc => h c (by simp [hc]); exact ⟨by simp [clone, h1], h4 rfl, rfl, by simp⟩
  | seqColon _ ih => obtain ⟨h1, h2, h3, h4⟩ := ih fun c hc => h c (by simp [hc]); exact ⟨by simp [clone, h1], h4 rfl, rfl, by simp⟩
  | nonterm => exact ⟨rfl, trivial, rfl, fun _ => Or.inl ⟨_, _, rfl⟩⟩
  | call => exact ⟨rfl, trivial, rfl, fun _ => Or.inl ⟨_, _, rfl⟩⟩
  | term => exact ⟨rfl, trivial, rfl, fun _ => Or.inr ⟨_, rfl⟩⟩
  | recover _ ih => obtain ⟨h1, h2, h3, _⟩ := ih fun c hc => h c (by simp [hc]); exact ⟨by simp [clone, h1], ⟨h2, h3⟩, rfl, by simp⟩
  | rollback _ _ ih ih' =>
    obtain ⟨h1, h2, h3, _⟩ := ih fun c hc => h c (by simp [hc])
    obtain ⟨h5, h6, h7, _⟩ := ih' fun c hc => h c (by simp [hc])
    exact ⟨by simp [clone, h1, h5], ⟨⟨h2, h3⟩, h6, h7⟩, rfl, by simp⟩
  | plus _ ih => obtain ⟨h1, h2, h3, _⟩ := ih fun c hc => h c (by simp [hc]); exact ⟨by simp [clone, h1], ⟨h2, h3⟩, rfl, by simp⟩
  | star _ ih => obtain ⟨h1, h2, h3, _⟩ := ih fun c hc => h c (by simp [hc]); exact ⟨by simp [clone, h1], ⟨h2, h3⟩, rfl, by simp⟩
  | primary _ ih => obtain ⟨h1, h2, h3, _⟩ := ih h; exact ⟨h1, h2, h3, by simp⟩
  | opt _ ih => obtain ⟨h1, h2, h3, _⟩ := ih fun c hc => h c (by simp [hc]); exact ⟨by simp [clone, h1], ⟨⟨h2, h3⟩, trivial, rfl⟩, rfl, by simp⟩
  | unary _ ih => obtain ⟨h1, h2, h3, _⟩ := ih h; exact ⟨h1, h2, h3, by simp⟩
  | sep _ _ ih ih' =>
    obtain ⟨h1, h2, h3, _⟩ := ih fun c hc => h c (by simp [hc])
    obtain ⟨h5, h6, h7, _⟩ := ih' fun c hc => h c (by simp [hc])
    refine ⟨by simp [sep, clone, h1, h5], ⟨h2, ?_⟩, by simp [sep, onlyCode, h3], by simp⟩
    rw [h1, h5]
    exact ⟨⟨h6, h2⟩, by simp [onlyCode, h7]⟩
  | @act _ _ c _ _ => exact absurd (by simp) (h c)
  | @code c => exact absurd (by simp) (h c)
  | one _ ih => obtain ⟨h1, h2, h3, _⟩ := ih h; exact ⟨h1, h2, h3, by simp⟩
  | seq _ _ _ ih ih' =>
    obtain ⟨h1, h2, h3, _⟩ := ih fun c hc => h c (by simp [hc])
    obtain ⟨h5, h6, h7, _⟩ := ih' fun c hc => h c (by simp [hc])
    exact ⟨by simp [clone, h1, h5], ⟨h2, h6⟩, by simp [onlyCode, h3], by simp⟩
  | sequence _ ih => obtain ⟨h1, h2, h3, _⟩ := ih h; exact ⟨h1, h2, h3, by simp⟩
  | @cond c _ _ _ _ => exact absurd (by simp) (h c)
  | single _ ih => obtain ⟨h1, h2, h3, _⟩ := ih h; exact ⟨h1, h2, h3, by simp⟩
  | alt _ _ ih ih' =>
    obtain ⟨h1, h2, h3, _⟩ := ih fun c hc => h c (by simp [hc])
    obtain ⟨h5, h6, h7, _⟩ := ih' fun c hc => h c (by simp [hc])
    exact ⟨by simp [clone, h1, h5], ⟨⟨h2, h3⟩, h6, h7⟩, rfl, by simp⟩

theorem named_clone : ∀ {i : Item}, Named i → Named (clone i)
  | .zero, _ | .op _, _ | .wild, _ => trivial
  | .code _, _ => trivial
  | .nonterm .., h | .term _, h | .inl _, h => h
  | .ann _ i, h => ⟨h.1, named_clone (i := i) h.2⟩
  | .plus i, h | .star i, h | .act i _, h | .cond _ i, h | .recover i, h => named_clone (i := i) h
  | .alt _ _, h | .cons _ _, h | .rollback _ _, h => ⟨named_clone h.1, named_clone h.2⟩

/-- The names of an item are those of the tokens. -/
theorem named {b : Bool} {n : Nt} {ts : List Tok} {i : Item} (d : D b n ts i) (h1 : ∀ s, Tok.ident s ∈ ts → IsIdent s) (h2 : ∀ s, Tok.term s ∈ ts → IsTerm s) : Named i := by
  induction d with
  | zero => trivial
  | paren _ ih => exact ih (fun s hs => h1 s (by simp [hs])) fun s hs => h2 s (by simp [hs])
  | tryIt _ ih => exact ih h1 h2
  | atom _ ih => exact ih h1 h2
  | inl => exact h1 _ (by simp)
  | annEq _ ih => exact ⟨h1 _ (by simp), ih (fun s hs => h1 s (by simp [hs])) fun s hs => h2 s (by simp [hs])⟩
  | annColon _ ih => exact ⟨h1 _ (by simp), ih (fun s hs => h1 s (by simp [hs])) fun s hs => h2 s (by simp [hs])⟩
  | seqEq _ ih => exact ⟨h1 _ (by simp), ih (fun s hs => h1 s (by simp [hs])) fun s hs => h2 s (by simp [hs])⟩
  | seqColon _ ih => exact ⟨h1 _ (by simp), ih (fun s hs => h1 s (by simp [hs])) fun s hs => h2 s (by simp [hs])⟩
  | nonterm => exact h1 _ (by simp)
  | call => exact h1 _ (by simp)
  | term => exact h2 _ (by simp)
  | recover _ ih => exact ih (fun s hs => h1 s (by simp [hs])) fun s hs => h2 s (by simp [hs])
  | rollback _ _ ih ih' => exact ⟨ih (fun s hs => h1 s (by simp [hs])) fun s hs => h2 s (by simp [hs]), ih' (fun s hs => h1 s (by simp [hs])) fun s hs => h2 s (by simp [hs])⟩
  | plus _ ih => exact ih (fun s hs => h1 s (by simp [hs])) fun s hs => h2 s (by simp [hs])
  | star _ ih => exact ih (fun s hs => h1 s (by simp [hs])) fun s hs => h2 s (by simp [hs])
  | primary _ ih => exact ih h1 h2
  | opt _ ih => exact ⟨ih (fun s hs => h1 s (by simp [hs])) fun s hs => h2 s (by simp [hs]), trivial⟩
  | unary _ ih => exact ih h1 h2
  | sep _ _ ih ih' =>
    have a := ih (fun s hs => h1 s (by simp [hs])) fun s hs => h2 s (by simp [hs])
    have b := ih' (fun s hs => h1 s (by simp [hs])) fun s hs => h2 s (by simp [hs])
    exact ⟨a, named_clone b, named_clone a⟩
  | act _ ih => exact ih (fun s hs => h1 s (by simp [hs])) fun s hs => h2 s (by simp [hs])
  | code => trivial
  | one _ ih => exact ih h1 h2
  | seq _ _ _ ih ih' => exact ⟨ih (fun s hs => h1 s (by simp [hs])) fun s hs => h2 s (by simp [hs]), ih' (fun s hs => h1 s (by simp [hs])) fun s hs => h2 s (by simp [hs])⟩
  | sequence _ ih => exact ih h1 h2
  | cond _ ih => exact ih (fun s hs => h1 s (by simp [hs])) fun s hs => h2 s (by simp [hs])
  | single _ ih => exact ih h1 h2
  | alt _ _ ih ih' => exact ⟨ih (fun s hs => h1 s (by simp [hs])) fun s hs => h2 s (by simp [hs]), ih' (fun s hs => h1 s (by simp [hs])) fun s hs => h2 s (by simp [hs])⟩

/-- C90: so for every rule written without code in its item, in names as the scanner reads them. -/
theorem C90_written (E : GLex.Env) {us : List Tok} {r : Rule} (hi : D true .option us r.item) (hc : ∀ c, Tok.code c ∉ us) (hsym : IsIdent r.sym)
    (h1 : ∀ s, Tok.ident s ∈ us → IsIdent s) (h2 : ∀ s, Tok.term s ∈ us → IsTerm s) :
    ∃ xs st ts r', GLex.scan E ((r.print ++ bytes ";").length + 1) {} (r.print ++ bytes ";") = some (xs, .eof st) ∧ xs.map ofLex = ts.map some ∧
      Rs true ts [r'] ∧ (∀ rs, Rs true ts rs → rs = [r']) ∧ r'.sym = r.sym ∧ Same r'.item r.item := by
  obtain ⟨_, hs, ho, _⟩ := noCode_clone_props hi hc
  exact C90_printed_partial E (named hi h1 h2) hsym hs ho

/-- No rule begins with `->`. -/
theorem no_rule_arrow {ts : List Tok} {rs : List Rule} (h : Rs true (.arrow :: ts) rs) : False := by
  obtain ⟨ps, h1, e, _⟩ := h.pieces
  cases ps with
  | nil => simp at e
  | cons p ps =>
    rw [List.map_cons, List.flatten_cons] at e
    rcases (h1 p (by simp)).parts with ⟨us, vs, e', d, _⟩ | ⟨bs, us, vs, a, os, e', _⟩
    · obtain ⟨t, r, rfl, ht⟩ := first d
      rw [e'] at e
      simp only [List.cons_append, List.cons.injEq] at e
      obtain ⟨rfl, _⟩ := e
      rcases ht with ht | ⟨c, hc⟩ | ⟨ho, _⟩ <;> first | (cases ht; done) | (cases hc; done) | (cases ho; done)
    · rw [e'] at e
      simp at e

/-- C90: the rule `[:c:] -> s` is shown as ` -> s`, which is no rule. -/
theorem C90_fails_code : ∃ us r, R true us r ∧ ∀ E xs st ts n rs, GLex.scan E n {} (r.print ++ bytes ";") = some (xs, .eof st) → xs.map ofLex = ts.map some → ¬ Rs true ts rs := by
  refine ⟨_, ⟨.code [99], [115], [], []⟩, R.plain (ts := [.code [99]]) (.single (.sequence (.one .code))) .none, fun E xs st ts n rs h h' hrs => ?_⟩
  have hi : IsIdent [115] := ⟨115, [], rfl, by simp [GLex.Letter], by simp, by decide +kernel⟩
  obtain ⟨ys, st', h1, h2⟩ := lexes_scan (lexes_rule (r := ⟨.code [99], [115], [], []⟩) trivial hi trivial) rfl E
  have hx : xs = ys := by
    have key : ∀ {n m : Nat} {st : GLex.St} {s : List Nat} {r r'}, GLex.scan E n st s = some r → GLex.scan E m st s = some r' → r = r' := by
      intro n
      induction n with
      | zero => intro m st s r r' h; simp [GLex.scan] at h
      | succ n ih =>
        intro m st s r r' h h'
        cases m with
        | zero => simp [GLex.scan] at h'
        | succ m =>
          rw [GLex.scan] at h h'
          cases hl : GLex.lex E (s.length + 1) st s with
          | none => rw [hl] at h; cases h
          | some y =>
            rw [hl] at h h'
            cases y with
            | ret t x st1 s1 =>
              simp only [Option.map_eq_some_iff] at h h'
              obtain ⟨a, ha, rfl⟩ := h
              obtain ⟨b, hb, rfl⟩ := h'
              rw [ih ha hb]
            | _ => simp_all
    have := key h h1
    cases this; rfl
  subst hx
  have : ts = toks (.code [99]) ++ [.arrow, .ident [115], .semi] := by
    have e := h'.symm.trans h2
    exact (List.map_inj_right fun _ _ h => Option.some.inj h).1 e
  subst this
  exact no_rule_arrow hrs

/-- `try/recover(#x=a @ B | 0) c* -> s` -/
def shownRule : Rule := ⟨.cons (.recover (.alt (.ann ⟨bytes "x", true, false⟩ (.nonterm (bytes "a") [])) .zero)) (.act (.star (.cons (.code [99]) (.term (bytes "B")))) [100]), bytes "s", [], []⟩

example : shownRule.print = bytes "try/recover((#x=a | 0)) ( B)* -> s" := by decide +kernel
example : Shown shownRule.item ∧ onlyCode shownRule.item = false := by
  refine ⟨⟨⟨⟨⟨Or.inl ⟨_, _, rfl⟩, rfl⟩, trivial, rfl⟩, rfl⟩, ⟨trivial, trivial⟩, rfl⟩, rfl⟩
example : IsIdent (bytes "x") ∧ IsTerm (bytes "B") :=
  ⟨⟨120, [], rfl, by simp [GLex.Letter], by simp, by decide +kernel⟩, 66, [], rfl, by simp [GLex.Letter], by simp, by decide +kernel⟩

end Verif.Syntax
