import Verif.Syntax.Complete

/-!
# Bison's choice loses nothing; rules and declarations have one reading
-/

namespace Verif.Syntax

/-! ## Resolving the conflict -/

theorem D.ne_nil {b : Bool} {n : Nt} {ts : List Tok} {i : Item} (d : D b n ts i) : ts ≠ [] := by
  have h := first d
  rintro rfl
  cases n <;> obtain ⟨t, r, e, _⟩ := h <;> cases e

theorem codeFirst_append {us x : List Tok} (h : us ≠ []) : codeFirst (us ++ x) = codeFirst us := by
  cases us with
  | nil => exact absurd rfl h
  | cons t us => cases t <;> rfl

/-- What can be put behind every postfix item can be put behind a sequence. -/
theorem seq_extend {x : List Tok} (hx : ∀ us b, D true .postfix us b → ∃ c, D true .postfix (us ++ x) c) {ts : List Tok} {a : Item} (d : D true .seq ts a) :
    ∃ c, D true .seq (ts ++ x) c := by
  cases d with
  | one d =>
    obtain ⟨c, h⟩ := hx _ _ d
    exact ⟨c, .one h⟩
  | @seq ts1 us1 i1 j1 d1 d2 h =>
    obtain ⟨c, h2⟩ := hx _ _ d2
    refine ⟨.cons i1 c, ?_⟩
    rw [List.append_assoc]
    exact .seq d1 h2 fun e => by rw [codeFirst_append d2.ne_nil]; exact h e

theorem seq_any {ts us : List Tok} {a b : Item} (d : D true .seq ts a) (d' : D true .postfix us b) : ∃ c, D true .seq (ts ++ us) c := by
  cases h : codeFirst us with
  | false => exact ⟨_, .seq d d' fun _ => h⟩
  | true =>
    generalize hn : Nt.postfix = n at d'
    induction d' with
    | unary d' =>
      obtain ⟨t, r, rfl, h1⟩ := first d'
      rcases h1 with h1 | ⟨rfl, _⟩
      · cases t <;> first | (cases h; done) | (cases h1; done)
      · cases h
    | @sep vs ws i j d1 d2 ih _ =>
      rw [codeFirst_append d1.ne_nil] at h
      obtain ⟨c, hc⟩ := ih h rfl
      have := seq_extend (x := .at_ :: ws) (fun us b hd => ⟨_, .sep hd d2⟩) hc
      simpa using this
    | @act vs i c d1 ih =>
      rw [codeFirst_append d1.ne_nil] at h
      obtain ⟨k, hk⟩ := ih h rfl
      have := seq_extend (x := [.code c]) (fun us b hd => ⟨_, .act hd⟩) hk
      simpa using this
    | @code c => exact seq_extend (x := [.code c]) (fun us b hd => ⟨_, .act hd⟩) d
    | _ => cases hn

/-- Everything the productions derive, they derive in a way that respects the choice. -/
theorem resolve {b : Bool} {n : Nt} {ts : List Tok} {i : Item} (d : D b n ts i) : ∃ j, D true n ts j := by
  induction d with
  | zero => exact ⟨_, .zero⟩
  | paren _ ih => obtain ⟨j, h⟩ := ih; exact ⟨_, .paren h⟩
  | tryIt _ ih => obtain ⟨j, h⟩ := ih; exact ⟨_, .tryIt h⟩
  | atom _ ih => obtain ⟨j, h⟩ := ih; exact ⟨_, .atom h⟩
  | inl => exact ⟨_, .inl⟩
  | annEq _ ih => obtain ⟨j, h⟩ := ih; exact ⟨_, .annEq h⟩
  | annColon _ ih => obtain ⟨j, h⟩ := ih; exact ⟨_, .annColon h⟩
  | seqEq _ ih => obtain ⟨j, h⟩ := ih; exact ⟨_, .seqEq h⟩
  | seqColon _ ih => obtain ⟨j, h⟩ := ih; exact ⟨_, .seqColon h⟩
  | nonterm => exact ⟨_, .nonterm⟩
  | call => exact ⟨_, .call⟩
  | term => exact ⟨_, .term⟩
  | recover _ ih => obtain ⟨j, h⟩ := ih; exact ⟨_, .recover h⟩
  | rollback _ _ ih1 ih2 => obtain ⟨j, h⟩ := ih1; obtain ⟨k, h'⟩ := ih2; exact ⟨_, .rollback h h'⟩
  | plus _ ih => obtain ⟨j, h⟩ := ih; exact ⟨_, .plus h⟩
  | star _ ih => obtain ⟨j, h⟩ := ih; exact ⟨_, .star h⟩
  | primary _ ih => obtain ⟨j, h⟩ := ih; exact ⟨_, .primary h⟩
  | opt _ ih => obtain ⟨j, h⟩ := ih; exact ⟨_, .opt h⟩
  | unary _ ih => obtain ⟨j, h⟩ := ih; exact ⟨_, .unary h⟩
  | sep _ _ ih1 ih2 => obtain ⟨j, h⟩ := ih1; obtain ⟨k, h'⟩ := ih2; exact ⟨_, .sep h h'⟩
  | act _ ih => obtain ⟨j, h⟩ := ih; exact ⟨_, .act h⟩
  | code => exact ⟨_, .code⟩
  | one _ ih => obtain ⟨j, h⟩ := ih; exact ⟨_, .one h⟩
  | seq _ _ _ ih1 ih2 => obtain ⟨j, h⟩ := ih1; obtain ⟨k, h'⟩ := ih2; exact seq_any h h'
  | sequence _ ih => obtain ⟨j, h⟩ := ih; exact ⟨_, .sequence h⟩
  | cond _ ih => obtain ⟨j, h⟩ := ih; exact ⟨_, .cond h⟩
  | single _ ih => obtain ⟨j, h⟩ := ih; exact ⟨_, .single h⟩
  | alt _ _ ih1 ih2 => obtain ⟨j, h⟩ := ih1; obtain ⟨k, h'⟩ := ih2; exact ⟨_, .alt h h'⟩

/-! ## Declarations -/

def pStorage : Tok → Option Bool
  | .member => some false
  | .temporary => some true
  | _ => none

def pKind : Tok → Option VarType
  | .node => some .node
  | .variable => some .variable
  | _ => none

def pDeclRest (b : Bool) : List Tok → Option (VarDecl × List Tok)
  | s :: .token :: .ident n :: .semi :: r => (pStorage s).map fun t => (⟨b, t, .token, false, n, []⟩, r)
  | s :: .token :: .hash :: .ident n :: .semi :: r => (pStorage s).map fun t => (⟨b, t, .token, true, n, []⟩, r)
  | s :: k :: .ident n :: .colon :: .ident y :: r => (pStorage s).bind fun t => (pKind k).map fun κ => (⟨b, t, κ, false, n, y⟩, r)
  | s :: k :: .hash :: .ident n :: .colon :: .ident y :: r => (pStorage s).bind fun t => (pKind k).map fun κ => (⟨b, t, κ, true, n, y⟩, r)
  | _ => none

def pDecl : List Tok → Option (VarDecl × List Tok)
  | .argument :: r => pDeclRest true r
  | r => pDeclRest false r

theorem pDecl_complete {ts : List Tok} {d : VarDecl} (h : Dv ts d) (rest : List Tok) : pDecl (ts ++ rest) = some (d, rest) := by
  cases h with
  | typed ha hs hk => cases ha <;> cases hs <;> cases hk <;> rfl
  | token ha hs => cases ha <;> cases hs <;> rfl
  | typedSeq ha hs hk => cases ha <;> cases hs <;> cases hk <;> rfl
  | tokenSeq ha hs => cases ha <;> cases hs <;> rfl

theorem Dv.no_rbr {ts : List Tok} {d : VarDecl} (h : Dv ts d) : .rbr ∉ ts ∧ ts ≠ [] := by
  cases h with
  | typed ha hs hk => cases ha <;> cases hs <;> cases hk <;> simp
  | token ha hs => cases ha <;> cases hs <;> simp
  | typedSeq ha hs hk => cases ha <;> cases hs <;> cases hk <;> simp
  | tokenSeq ha hs => cases ha <;> cases hs <;> simp

/-- The declarations one by one. -/
theorem Dvs.pieces {ts : List Tok} {ds : List VarDecl} (h : Dvs ts ds) : ∃ ps : List (List Tok × VarDecl), (∀ p ∈ ps, Dv p.1 p.2) ∧ ts = (ps.map (·.1)).flatten ∧ ds = ps.map (·.2) := by
  induction h with
  | one h => exact ⟨[(_, _)], by simpa using h, by simp, rfl⟩
  | @more _ us _ d _ h ih =>
    obtain ⟨ps, h1, rfl, rfl⟩ := ih
    refine ⟨ps ++ [(us, d)], ?_, by simp, by simp⟩
    intro p hp
    simp at hp
    rcases hp with hp | rfl
    · exact h1 p hp
    · exact h

theorem pieces_unique : ∀ {ps qs : List (List Tok × VarDecl)}, (∀ p ∈ ps, Dv p.1 p.2) → (∀ p ∈ qs, Dv p.1 p.2) → (ps.map (·.1)).flatten = (qs.map (·.1)).flatten →
    ps.map (·.2) = qs.map (·.2)
  | [], [], _, _, _ => rfl
  | [], q :: qs, _, h, e => by
    have := (h q (by simp)).no_rbr.2
    simp at e
    exact absurd e.1 this
  | p :: ps, [], h, _, e => by
    have := (h p (by simp)).no_rbr.2
    simp at e
    exact absurd e.1 this
  | p :: ps, q :: qs, h, h', e => by
    simp only [List.map_cons, List.flatten_cons] at e
    have h1 := pDecl_complete (h p (by simp)) (ps.map (·.1)).flatten
    have h2 := pDecl_complete (h' q (by simp)) (qs.map (·.1)).flatten
    rw [e, h2] at h1
    simp only [Option.some.injEq, Prod.mk.injEq] at h1
    have := pieces_unique (fun p hp => h p (by simp [hp])) (fun p hp => h' p (by simp [hp])) h1.2.symm
    simp [this, h1.1]

theorem Dvs.unique {ts : List Tok} {ds ds' : List VarDecl} (h : Dvs ts ds) (h' : Dvs ts ds') : ds = ds' := by
  obtain ⟨ps, h1, e1, rfl⟩ := h.pieces
  obtain ⟨qs, h2, e2, rfl⟩ := h'.pieces
  exact pieces_unique h1 h2 (e1.symm.trans e2)

theorem Dvs.no_rbr {ts : List Tok} {ds : List VarDecl} (h : Dvs ts ds) : .rbr ∉ ts := by
  induction h with
  | one h => exact h.no_rbr.1
  | more _ h ih => simp; exact ⟨ih, h.no_rbr.1⟩

/-- The first occurrence splits a list in one way. -/
theorem split_first {α : Type} {x : α} : ∀ {a b c d : List α}, a ++ x :: b = c ++ x :: d → x ∉ a → x ∉ c → a = c ∧ b = d
  | [], _, [], _, e, _, _ => by simp at e; exact ⟨rfl, e⟩
  | [], _, y :: c, _, e, _, h => by simp at e; simp [e.1] at h
  | y :: a, _, [], _, e, h, _ => by simp at e; simp [e.1] at h
  | y :: a, b, z :: c, d, e, h, h' => by
    simp at e h h'
    obtain ⟨h1, h2⟩ := split_first e.2 h.2 h'.2
    exact ⟨by rw [e.1, h1], h2⟩

/-! ## Operators -/

def pOper : List Tok → Option (Operator × List Tok)
  | .opt :: .code a :: .term t :: .code c :: r => some (⟨t, a, c⟩, r)
  | .opt :: .code a :: .term t :: r => some (⟨t, a, []⟩, r)
  | .term t :: .code c :: r => some (⟨t, [], c⟩, r)
  | .term t :: r => some (⟨t, [], []⟩, r)
  | _ => none

def pPrio : List Tok → Option (Prio × List Tok)
  | .zero :: r => some (.zero, r)
  | .number n :: r => some (.number n, r)
  | .priority :: .code c :: r => some (.code c, r)
  | _ => none

def pAssoc : List Tok → Option (Assoc × List Tok)
  | .left :: r => some (.left, r)
  | .right :: r => some (.right, r)
  | .isLeft :: .code c :: r => some (.isLeft c, r)
  | .isRight :: .code c :: r => some (.isRight c, r)
  | _ => none

def pOpDecl : List Tok → Option (OpDecl × List Tok)
  | .bin :: r => (pOper r).bind fun x => (pPrio x.2).bind fun y => (pAssoc y.2).map fun z => (.bin x.1 y.1 z.1, z.2)
  | .tern :: r => (pOper r).bind fun x => (pOper x.2).bind fun x' => (pPrio x'.2).bind fun y => (pAssoc y.2).map fun z => (.tern x.1 x'.1 y.1 z.1, z.2)
  | .pre :: r => (pOper r).bind fun x => (pPrio x.2).map fun y => (.pre x.1 y.1, y.2)
  | .post :: r => (pOper r).bind fun x => (pPrio x.2).map fun y => match pAssoc y.2 with
    | some z => (.post x.1 y.1 (some z.1), z.2)
    | none => (.post x.1 y.1 none, y.2)
  | .paren :: r => (pOper r).bind fun x => (pOper x.2).map fun x' => (.paren x.1 x'.1, x'.2)
  | _ => none

theorem pOper_complete {ts : List Tok} {o : Operator} (h : OperR ts o) {rest : List Tok} (hr : codeFirst rest = false) : pOper (ts ++ rest) = some (o, rest) := by
  cases h
  · rfl
  · cases rest with
    | nil => rfl
    | cons t r => cases t <;> first | rfl | cases hr
  · rfl
  · cases rest with
    | nil => rfl
    | cons t r => cases t <;> first | rfl | cases hr

theorem pPrio_complete {ts : List Tok} {p : Prio} (h : PrioR ts p) (rest : List Tok) : pPrio (ts ++ rest) = some (p, rest) := by cases h <;> rfl

theorem pAssoc_complete {ts : List Tok} {a : Assoc} (h : AssocR ts a) (rest : List Tok) : pAssoc (ts ++ rest) = some (a, rest) := by cases h <;> rfl

theorem PrioR.noCode {ts : List Tok} {p : Prio} (h : PrioR ts p) (rest : List Tok) : codeFirst (ts ++ rest) = false := by cases h <;> rfl

theorem OperR.noCode {ts : List Tok} {o : Operator} (h : OperR ts o) (rest : List Tok) : codeFirst (ts ++ rest) = false := by cases h <;> rfl

/-- What can stand behind a declaration of an operator, up to `%>`. -/
def declNext : List Tok → Bool
  | [] => true
  | .bin :: _ => true
  | .tern :: _ => true
  | .pre :: _ => true
  | .post :: _ => true
  | .paren :: _ => true
  | _ => false

theorem declNext_noCode {r : List Tok} (h : declNext r = true) : codeFirst r = false := by
  cases r with
  | nil => rfl
  | cons t r => cases t <;> first | rfl | cases h

theorem declNext_noAssoc {r : List Tok} (h : declNext r = true) : pAssoc r = none := by
  cases r with
  | nil => rfl
  | cons t r => cases t <;> first | rfl | cases h

theorem pOpDecl_complete {ts : List Tok} {d : OpDecl} (h : DeclR ts d) {rest : List Tok} (hr : declNext rest = true) : pOpDecl (ts ++ rest) = some (d, rest) := by
  cases h with
  | bin o p a => simp [pOpDecl, pOper_complete o (p.noCode _), pPrio_complete p, pAssoc_complete a]
  | tern o o' p a => simp [pOpDecl, pOper_complete o (o'.noCode _), pOper_complete o' (p.noCode _), pPrio_complete p, pAssoc_complete a]
  | pre o p => simp [pOpDecl, pOper_complete o (p.noCode _), pPrio_complete p]
  | post o p => simp [pOpDecl, pOper_complete o (p.noCode _), pPrio_complete p, declNext_noAssoc hr]
  | postAssoc o p a => simp [pOpDecl, pOper_complete o (p.noCode _), pPrio_complete p, pAssoc_complete a]
  | paren o o' => simp [pOpDecl, pOper_complete o (o'.noCode _), pOper_complete o' (declNext_noCode hr)]

theorem OperR.no_ropr {ts : List Tok} {o : Operator} (h : OperR ts o) : .ropr ∉ ts := by cases h <;> simp
theorem PrioR.no_ropr {ts : List Tok} {p : Prio} (h : PrioR ts p) : .ropr ∉ ts := by cases h <;> simp
theorem AssocR.no_ropr {ts : List Tok} {a : Assoc} (h : AssocR ts a) : .ropr ∉ ts := by cases h <;> simp

theorem DeclR.no_ropr {ts : List Tok} {d : OpDecl} (h : DeclR ts d) : .ropr ∉ ts := by
  cases h with
  | bin o p a => simp [o.no_ropr, p.no_ropr, a.no_ropr]
  | tern o o' p a => simp [o.no_ropr, o'.no_ropr, p.no_ropr, a.no_ropr]
  | pre o p => simp [o.no_ropr, p.no_ropr]
  | post o p => simp [o.no_ropr, p.no_ropr]
  | postAssoc o p a => simp [o.no_ropr, p.no_ropr, a.no_ropr]
  | paren o o' => simp [o.no_ropr, o'.no_ropr]

theorem DeclR.ne_nil {ts : List Tok} {d : OpDecl} (h : DeclR ts d) : ts ≠ [] := by cases h <;> simp

theorem DeclR.next {ts : List Tok} {d : OpDecl} (h : DeclR ts d) (rest : List Tok) : declNext (ts ++ rest) = true := by cases h <;> rfl

theorem DeclsR.next {ts : List Tok} {ds : List OpDecl} (h : DeclsR ts ds) : declNext ts = true := by
  cases h with
  | nil => rfl
  | cons h _ => exact h.next _

theorem DeclsR.no_ropr {ts : List Tok} {ds : List OpDecl} (h : DeclsR ts ds) : .ropr ∉ ts := by
  induction h with
  | nil => simp
  | cons h _ ih => simp [h.no_ropr, ih]

theorem DeclsR.unique {ts : List Tok} {ds ds' : List OpDecl} (h : DeclsR ts ds) (h' : DeclsR ts ds') : ds = ds' := by
  induction h generalizing ds' with
  | nil =>
    generalize e : ([] : List Tok) = ts at h'
    cases h' with
    | nil => rfl
    | cons k _ => exact absurd (List.append_eq_nil_iff.1 e.symm).1 k.ne_nil
  | @cons ts us d ds k h ih =>
    generalize e : ts ++ us = vs at h'
    cases h' with
    | nil => exact absurd (List.append_eq_nil_iff.1 e).1 k.ne_nil
    | @cons ts' us' d' ds' k' h' =>
      have h1 := pOpDecl_complete k h.next
      rw [e, pOpDecl_complete k' h'.next] at h1
      simp only [Option.some.injEq, Prod.mk.injEq] at h1
      obtain ⟨rfl, rfl⟩ := h1
      rw [ih h']

/-- No arguments come first. -/
def argsFirst : List Tok → Bool
  | .args _ :: _ => true
  | _ => false

theorem DeclsR.noArgs {ts : List Tok} {ds : List OpDecl} (h : DeclsR ts ds) (r : List Tok) : argsFirst (ts ++ .ropr :: r) = false := by
  cases h with
  | nil => rfl
  | cons h _ => cases h <;> rfl

theorem atom_unique {b b' : Bool} {ts ts' x x' : List Tok} {a a' : Atom} (d : D b .atom ts a.item) (d' : D b' .atom ts' a'.item) (e : ts ++ x = ts' ++ x')
    (hx : argsFirst x = false) (hx' : argsFirst x' = false) : ts = ts' ∧ a = a' ∧ x = x' := by
  generalize hi : a.item = i at d
  generalize hi' : a'.item = i' at d'
  cases d <;> cases d' <;> cases a <;> cases hi <;> cases a' <;> cases hi' <;> simp at e ⊢ <;>
    first
    | exact ⟨e.1, e.1, e.2⟩
    | (obtain ⟨_, rfl⟩ := e; cases hx; done)
    | (obtain ⟨_, rfl⟩ := e; cases hx'; done)
    | simp [e]

/-! ## Rules -/

/-- What stands behind `->`. -/
inductive Tail : List Tok → Name → List VarDecl → Name → Prop
  | codeFirst {s c vs ds} : Dvs vs ds → Tail (.ident s :: .code c :: .lbr :: vs ++ [.rbr]) s ds c
  | declsFirst {s cs c vs ds} : Dvs vs ds → CodeOpt cs c → Tail (.ident s :: .lbr :: vs ++ .rbr :: cs) s ds c
  | plain {s cs c} : CodeOpt cs c → Tail (.ident s :: cs) s [] c

theorem R.parts {b : Bool} {ts : List Tok} {r : Rule} (h : R b ts r) :
    (∃ us vs, ts = us ++ .arrow :: vs ∧ D b .option us r.item ∧ Tail vs r.sym r.decls r.code) ∨
    ∃ bs us vs a os, ts = .lopr :: (bs ++ (us ++ .ropr :: vs)) ∧ D b .atom bs a.item ∧ DeclsR us os ∧ r.item = .op ⟨a, os⟩ ∧ Tail vs r.sym r.decls r.code := by
  cases h with
  | codeFirst d v => exact Or.inl ⟨_, _, by simp; rfl, d, by simpa using Tail.codeFirst v⟩
  | declsFirst d v c => exact Or.inl ⟨_, _, by simp; rfl, d, by simpa using Tail.declsFirst v c⟩
  | plain d c => exact Or.inl ⟨_, _, rfl, d, .plain c⟩
  | opDecls d o v c => exact Or.inr ⟨_, _, _, _, _, rfl, d, o, rfl, .declsFirst v c⟩
  | opCode d o v => exact Or.inr ⟨_, _, _, _, _, rfl, d, o, rfl, .codeFirst v⟩
  | opPlain d o c => exact Or.inr ⟨_, _, _, _, _, rfl, d, o, rfl, .plain c⟩

/-- The tokens behind `->` up to the semicolon are determined by the whole text. -/
theorem Tail.unique {vs vs' x x' : List Tok} {s s' : Name} {ds ds' : List VarDecl} {c c' : Name} (h : Tail vs s ds c) (h' : Tail vs' s' ds' c')
    (e : vs ++ .semi :: x = vs' ++ .semi :: x') : vs = vs' ∧ s = s' ∧ ds = ds' ∧ c = c' := by
  cases h with
  | codeFirst v =>
    cases h' with
    | codeFirst v' =>
      simp at e
      obtain ⟨rfl, rfl, e⟩ := e
      obtain ⟨rfl, _⟩ := split_first e v.no_rbr v'.no_rbr
      exact ⟨rfl, rfl, v.unique v', rfl⟩
    | declsFirst v' o' => simp at e
    | plain o' => cases o' <;> simp at e
  | declsFirst v o =>
    cases h' with
    | codeFirst v' => simp at e
    | declsFirst v' o' =>
      simp at e
      obtain ⟨rfl, e⟩ := e
      obtain ⟨rfl, e⟩ := split_first e v.no_rbr v'.no_rbr
      have := v.unique v'
      subst this
      cases o <;> cases o' <;> simp at e ⊢
      exact e.1
    | plain o' => cases o' <;> simp at e
  | plain o =>
    cases h' with
    | codeFirst v' => cases o <;> simp at e
    | declsFirst v' o' => cases o <;> simp at e
    | plain o' =>
      simp at e
      obtain ⟨rfl, e⟩ := e
      cases o <;> cases o' <;> simp at e ⊢
      exact e.1

/-- No item begins with `%<`. -/
theorem D.no_lopr {b : Bool} {us : List Tok} {i : Item} (d : D b .option us i) {x y : List Tok} (e : us ++ x = .lopr :: y) : False := by
  obtain ⟨t, r, rfl, ht⟩ := first d
  simp only [List.cons_append, List.cons.injEq] at e
  obtain ⟨rfl, _⟩ := e
  rcases ht with ht | ⟨c, hc⟩ | ⟨ho, _⟩ <;> first | (cases ht; done) | (cases hc; done) | (cases ho; done)

theorem R.unique_prefix {us us' x x' : List Tok} {r r' : Rule} (h : R true us r) (h' : R true us' r') (e : us ++ .semi :: x = us' ++ .semi :: x') :
    us = us' ∧ r = r' ∧ x = x' := by
  rcases h.parts with ⟨a, v, rfl, d, t⟩ | ⟨bs, u, v, a, os, rfl, d, o, hi, t⟩ <;>
    rcases h'.parts with ⟨a', v', rfl, d', t'⟩ | ⟨bs', u', v', a', os', rfl, d', o', hi', t'⟩
  · simp only [List.append_assoc, List.cons_append] at e
    have h1 := (reads_iff (rest := .arrow :: (v ++ .semi :: x)) rfl (by simp)).1 d
    have h2 := (reads_iff (rest := .arrow :: (v' ++ .semi :: x')) rfl (by simp)).1 d'
    rw [e] at h1
    have h3 := h1.unique h2
    simp only [Prod.mk.injEq, List.cons.injEq, true_and] at h3
    obtain ⟨rfl, h5, h6, h7⟩ := t.unique t' h3.2
    have e' := e
    rw [h3.2] at e'
    refine ⟨by rw [List.append_cancel_right e'], ?_, by simpa using h3.2⟩
    cases r; cases r'
    simp only at h3 h5 h6 h7
    simp [h3.1, h5, h6, h7]
  · rw [List.append_assoc] at e
    exact (d.no_lopr e).elim
  · rw [List.append_assoc (bs := .arrow :: v')] at e
    exact (d'.no_lopr e.symm).elim
  · simp only [List.cons_append, List.append_assoc, List.cons.injEq, true_and] at e
    obtain ⟨rfl, rfl, e⟩ := atom_unique d d' e (o.noArgs _) (o'.noArgs _)
    obtain ⟨rfl, e2⟩ := split_first e o.no_ropr o'.no_ropr
    obtain ⟨rfl, h5, h6, h7⟩ := t.unique t' e2
    refine ⟨rfl, ?_, by simpa using e2⟩
    cases r; cases r'
    simp only at hi hi' h5 h6 h7
    simp [hi, hi', o.unique o', h5, h6, h7]

theorem Rs.pieces {b : Bool} {ts : List Tok} {rs : List Rule} (h : Rs b ts rs) : ∃ ps : List (List Tok × Rule), (∀ p ∈ ps, R b p.1 p.2) ∧
    ts = (ps.map fun p => p.1 ++ [.semi]).flatten ∧ rs = ps.map (·.2) := by
  induction h with
  | nil => exact ⟨[], by simp, rfl, rfl⟩
  | @more _ us _ d _ h ih =>
    obtain ⟨ps, h1, rfl, rfl⟩ := ih
    refine ⟨ps ++ [(us, d)], ?_, by simp, by simp⟩
    intro p hp
    simp at hp
    rcases hp with hp | rfl
    · exact h1 p hp
    · exact h

theorem rules_unique : ∀ {ps qs : List (List Tok × Rule)}, (∀ p ∈ ps, R true p.1 p.2) → (∀ p ∈ qs, R true p.1 p.2) →
    (ps.map fun p => p.1 ++ [.semi]).flatten = (qs.map fun p => p.1 ++ [.semi]).flatten → ps.map (·.2) = qs.map (·.2)
  | [], [], _, _, _ => rfl
  | [], q :: qs, _, _, e => by simp at e
  | p :: ps, [], _, _, e => by simp at e
  | p :: ps, q :: qs, h, h', e => by
    simp only [List.map_cons, List.flatten_cons, List.append_assoc, List.singleton_append] at e
    obtain ⟨_, h1, h2⟩ := R.unique_prefix (h p (by simp)) (h' q (by simp)) e
    have := rules_unique (fun p hp => h p (by simp [hp])) (fun p hp => h' p (by simp [hp])) h2
    simp [this, h1]

end Verif.Syntax
