import Verif.Syntax.Parser

/-!
# The parser finds every derivation that respects Bison's choice
-/

namespace Verif.Syntax

/-- With enough fuel. -/
def Ev {α : Type} (F : Nat → Option α) (v : α) : Prop := ∃ n, ∀ f, n ≤ f → F f = some v

theorem Ev.unique {α : Type} {F : Nat → Option α} {v w : α} (h : Ev F v) (h' : Ev F w) : v = w := by
  obtain ⟨n, hn⟩ := h
  obtain ⟨m, hm⟩ := h'
  have h1 := hn (max n m) (Nat.le_max_left _ _)
  rw [hm _ (Nat.le_max_right _ _)] at h1
  cases h1; rfl

theorem Ev.pure {α : Type} {F : Nat → Option α} {v : α} (h : ∀ f, F (f + 1) = some v) : Ev F v :=
  ⟨1, fun f hf => by obtain ⟨g, rfl⟩ := Nat.exists_eq_add_of_le hf; rw [Nat.add_comm]; exact h g⟩

theorem Ev.step {α : Type} {F G : Nat → Option α} {v : α} (h : ∀ f, F (f + 1) = G f) (hG : Ev G v) : Ev F v := by
  obtain ⟨n, hn⟩ := hG
  refine ⟨n + 1, fun f hf => ?_⟩
  obtain ⟨g, rfl⟩ : ∃ g, f = g + 1 := ⟨f - 1, by omega⟩
  rw [h]
  exact hn g (by omega)

theorem Ev.map {α β : Type} {G : Nat → Option α} {v : α} {F : Nat → Option β} {w : β} (hG : Ev G v) (h : ∀ f, G f = some v → F f = some w) : Ev F w := by
  obtain ⟨n, hn⟩ := hG
  exact ⟨n, fun f hf => h f (hn f hf)⟩

theorem Ev.bind {α β : Type} {G : Nat → Option α} {v : α} {H F : Nat → Option β} {w : β} (hG : Ev G v) (hH : Ev H w)
    (h : ∀ f, G f = some v → F f = H f) : Ev F w := by
  obtain ⟨n, hn⟩ := hG
  obtain ⟨m, hm⟩ := hH
  refine ⟨max n m, fun f hf => ?_⟩
  rw [h f (hn f (by omega))]
  exact hm f (by omega)

/-! ## How derived tokens begin -/

/-- The tokens that begin a primary item. -/
def prim : Tok → Bool
  | .zero | .lp | .recover | .rollback | .inline | .ident _ | .term _ | .hash => true
  | _ => false

def isAtomTok : Tok → Bool
  | .ident _ | .term _ => true
  | _ => false

/-- The first tokens of what is derived from a symbol. -/
def First : Nt → List Tok → Prop
  | .atom, ts => ∃ t r, ts = t :: r ∧ isAtomTok t = true
  | .primary, ts | .tryItem, ts => ∃ t r, ts = t :: r ∧ prim t = true
  | .unary, ts => ∃ t r, ts = t :: r ∧ (prim t = true ∨ t = .opt ∧ ∃ t' r', r = t' :: r' ∧ prim t' = true)
  | .postfix, ts | .seq, ts => ∃ t r, ts = t :: r ∧ (prim t = true ∨ (∃ c, t = .code c) ∨ t = .opt ∧ ∃ t' r', r = t' :: r' ∧ prim t' = true)
  | .cond, ts | .option, ts => ∃ t r, ts = t :: r ∧ (prim t = true ∨ (∃ c, t = .code c) ∨ t = .opt)

theorem first {b : Bool} {n : Nt} {ts : List Tok} {i : Item} (d : D b n ts i) : First n ts := by
  induction d with
  | zero => exact ⟨_, _, rfl, rfl⟩
  | paren => exact ⟨_, _, rfl, rfl⟩
  | tryIt _ ih => exact ih
  | atom _ ih =>
    obtain ⟨t, r, rfl, h⟩ := ih
    exact ⟨t, r, rfl, by cases t <;> simp_all [isAtomTok, prim]⟩
  | inl => exact ⟨_, _, rfl, rfl⟩
  | annEq => exact ⟨_, _, rfl, rfl⟩
  | annColon => exact ⟨_, _, rfl, rfl⟩
  | seqEq => exact ⟨_, _, rfl, rfl⟩
  | seqColon => exact ⟨_, _, rfl, rfl⟩
  | nonterm => exact ⟨_, _, rfl, rfl⟩
  | call => exact ⟨_, _, rfl, rfl⟩
  | term => exact ⟨_, _, rfl, rfl⟩
  | recover => exact ⟨_, _, rfl, rfl⟩
  | rollback => exact ⟨_, _, rfl, rfl⟩
  | plus _ ih => obtain ⟨t, r, rfl, h⟩ := ih; exact ⟨t, _, rfl, Or.inl h⟩
  | star _ ih => obtain ⟨t, r, rfl, h⟩ := ih; exact ⟨t, _, rfl, Or.inl h⟩
  | primary _ ih => obtain ⟨t, r, rfl, h⟩ := ih; exact ⟨t, _, rfl, Or.inl h⟩
  | opt _ ih => obtain ⟨t, r, rfl, h⟩ := ih; exact ⟨_, _, rfl, Or.inr ⟨rfl, t, r, rfl, h⟩⟩
  | unary _ ih =>
    obtain ⟨t, r, rfl, h⟩ := ih
    exact ⟨t, _, rfl, h.imp id Or.inr⟩
  | sep _ _ ih _ =>
    obtain ⟨t, r, rfl, h⟩ := ih
    refine ⟨t, _, rfl, h.imp id (Or.imp id ?_)⟩
    rintro ⟨rfl, t', r', rfl, h2⟩
    exact ⟨rfl, t', _, rfl, h2⟩
  | act _ ih =>
    obtain ⟨t, r, rfl, h⟩ := ih
    refine ⟨t, _, rfl, h.imp id (Or.imp id ?_)⟩
    rintro ⟨rfl, t', r', rfl, h2⟩
    exact ⟨rfl, t', _, rfl, h2⟩
  | code => exact ⟨_, _, rfl, Or.inr (Or.inl ⟨_, rfl⟩)⟩
  | one _ ih => exact ih
  | seq _ _ _ ih _ =>
    obtain ⟨t, r, rfl, h⟩ := ih
    refine ⟨t, _, rfl, h.imp id (Or.imp id ?_)⟩
    rintro ⟨rfl, t', r', rfl, h2⟩
    exact ⟨rfl, t', _, rfl, h2⟩
  | sequence _ ih =>
    obtain ⟨t, r, rfl, h⟩ := ih
    exact ⟨t, _, rfl, h.imp id (Or.imp id And.left)⟩
  | cond => exact ⟨_, _, rfl, Or.inr (Or.inr rfl)⟩
  | single _ ih => exact ih
  | alt _ _ ih _ =>
    obtain ⟨t, r, rfl, h⟩ := ih
    exact ⟨t, _, rfl, h⟩

/-! ## What may follow -/

/-- The next token is none that continues an atom, an item, a sequence. -/
def okP : List Tok → Bool
  | .args _ :: _ | .eq :: _ | .colon :: _ => false
  | _ => true

def okU : List Tok → Bool
  | .args _ :: _ | .eq :: _ | .colon :: _ | .plus :: _ | .star :: _ => false
  | _ => true

def okS : List Tok → Bool
  | .args _ :: _ | .eq :: _ | .colon :: _ | .plus :: _ | .star :: _ | .code _ :: _ | .at_ :: _ => false
  | _ => true

def okC (ts : List Tok) : Bool := okS ts && !starts ts

theorem okU_P {ts : List Tok} (h : okU ts = true) : okP ts = true := by
  unfold okU at h
  split at h <;> simp_all [okP]

theorem okS_U {ts : List Tok} (h : okS ts = true) : okU ts = true := by
  unfold okS at h
  split at h <;> simp_all [okU]

theorem okC_S {ts : List Tok} (h : okC ts = true) : okS ts = true := by
  unfold okC at h
  simp at h
  exact h.1

/-- What the parser does with derived tokens. -/
def Complete : Nt → List Tok → Item → Prop
  | .atom, ts, i => ∀ rest, okP rest = true → pAtom (ts ++ rest) = some (i, rest)
  | .primary, ts, i | .tryItem, ts, i => ∀ rest, okP rest = true → Ev (fun f => pPrimary f (ts ++ rest)) (i, rest)
  | .unary, ts, i => ∀ rest, okU rest = true → Ev (fun f => pUnary f (ts ++ rest)) (i, rest)
  | .postfix, ts, i => ∀ rest v, okU rest = true → Ev (fun f => postLoop f i rest) v → Ev (fun f => pPostfix f (ts ++ rest)) v
  | .seq, ts, i => ∀ rest v, okS rest = true → Ev (fun f => seqLoop f i rest) v → Ev (fun f => pSeq f (ts ++ rest)) v
  | .cond, ts, i => ∀ rest, okC rest = true → Ev (fun f => pCond f (ts ++ rest)) (i, rest)
  | .option, ts, i => ∀ rest v, okC rest = true → Ev (fun f => optLoop f i rest) v → Ev (fun f => pOption f (ts ++ rest)) v

theorem optLoop_end {i : Item} {rest : List Tok} (h : rest.head? ≠ some .bar) : Ev (fun f => optLoop f i rest) (i, rest) :=
  Ev.pure fun f => by
    cases rest with
    | nil => rfl
    | cons t r => cases t <;> first | rfl | (simp at h)

theorem seqLoop_end {i : Item} {rest : List Tok} (h : starts rest = false) : Ev (fun f => seqLoop f i rest) (i, rest) :=
  Ev.pure fun f => by rw [seqLoop, h]; rfl

theorem postLoop_end {i : Item} {rest : List Tok} (h : okS rest = true) : Ev (fun f => postLoop f i rest) (i, rest) :=
  Ev.pure fun f => by
    cases rest with
    | nil => rfl
    | cons t r => cases t <;> first | rfl | (cases h)

theorem option_paren {ts rest : List Tok} {i : Item} (h : Complete .option ts i) : Ev (fun f => closeParen (pOption f (ts ++ .rp :: rest))) (i, rest) :=
  (h (.rp :: rest) (i, .rp :: rest) rfl (optLoop_end (by simp))).map fun f hf => by rw [hf]; rfl

theorem post_starts {b : Bool} {us : List Tok} {j : Item} (d : D b .postfix us j) (h : codeFirst us = false) (rest : List Tok) :
    starts (us ++ rest) = true ∧ okS (us ++ rest) = true := by
  obtain ⟨t, r, rfl, h1⟩ := first d
  rcases h1 with h1 | ⟨c, rfl⟩ | ⟨rfl, _⟩
  · cases t <;> first | (cases h1; done) | exact ⟨rfl, rfl⟩
  · cases h
  · exact ⟨rfl, rfl⟩

theorem complete {n : Nt} {ts : List Tok} {i : Item} (d : D true n ts i) : Complete n ts i := by
  induction d with
  | zero => intro rest _; exact Ev.pure fun f => rfl
  | paren _ ih =>
    intro rest _
    refine Ev.step (G := _) (fun f => ?_) (option_paren (rest := rest) ih)
    simp [pPrimary]
  | tryIt _ ih => exact ih
  | @atom ts i d ih =>
    intro rest hr
    refine Ev.pure fun f => ?_
    rw [← ih rest hr]
    cases d with
    | nonterm =>
      cases rest with
      | nil => rfl
      | cons t r => cases t <;> first | rfl | (cases hr)
    | call => rfl
    | term => rfl
  | inl => intro rest _; exact Ev.pure fun f => rfl
  | annEq _ ih => intro rest hr; exact Ev.pure fun f => by simp [pPrimary, pAnn, ih rest hr]
  | annColon _ ih => intro rest hr; exact Ev.pure fun f => by simp [pPrimary, pAnn, ih rest hr]
  | seqEq _ ih => intro rest hr; exact Ev.pure fun f => by simp [pPrimary, pAnn, ih rest hr]
  | seqColon _ ih => intro rest hr; exact Ev.pure fun f => by simp [pPrimary, pAnn, ih rest hr]
  | nonterm =>
    intro rest hr
    cases rest with
    | nil => rfl
    | cons t r => cases t <;> first | rfl | (cases hr)
  | call => intro rest _; rfl
  | term => intro rest _; rfl
  | recover _ ih =>
    intro rest _
    refine Ev.step (G := _) (fun f => ?_) ((option_paren (rest := rest) ih).map (F := fun f => (closeParen (pOption f _)).map fun p => (Item.recover p.1, p.2)) fun f hf => by rw [hf]; rfl)
    simp [pPrimary]
  | @rollback ts us i j _ _ ih1 ih2 =>
    intro rest _
    have h1 := option_paren (rest := .catch_ :: .lp :: us ++ .rp :: rest) ih1
    have h2 := option_paren (rest := rest) ih2
    obtain ⟨n, hn⟩ := h1
    obtain ⟨m, hm⟩ := h2
    refine ⟨max n m + 1, fun f hf => ?_⟩
    obtain ⟨g, rfl⟩ : ∃ g, f = g + 1 := ⟨f - 1, by omega⟩
    have e1 := hn g (by omega)
    have e2 := hm g (by omega)
    simp only [List.cons_append] at e1 e2
    simp [pPrimary, e1, e2]
  | @plus ts i d ih =>
    intro rest _
    obtain ⟨t, r, rfl, h1⟩ := first d
    refine Ev.step (G := fun f => times (pPrimary f (t :: r ++ .plus :: rest))) (fun f => ?_) ((ih (.plus :: rest) rfl).map fun f hf => by rw [hf]; rfl)
    cases t <;> first | (cases h1; done) | simp [pUnary]
  | @star ts i d ih =>
    intro rest _
    obtain ⟨t, r, rfl, h1⟩ := first d
    refine Ev.step (G := fun f => times (pPrimary f (t :: r ++ .star :: rest))) (fun f => ?_) ((ih (.star :: rest) rfl).map fun f hf => by rw [hf]; rfl)
    cases t <;> first | (cases h1; done) | simp [pUnary]
  | @primary ts i d ih =>
    intro rest hr
    obtain ⟨t, r, rfl, h1⟩ := first d
    refine Ev.step (G := fun f => times (pPrimary f (t :: r ++ rest))) (fun f => ?_) ((ih rest (okU_P hr)).map fun f hf => by
      rw [hf]
      cases rest with
      | nil => rfl
      | cons t r => cases t <;> first | rfl | (cases hr))
    cases t <;> first | (cases h1; done) | simp [pUnary]
  | opt _ ih =>
    intro rest hr
    refine Ev.step (G := _) (fun f => ?_) ((ih rest (okU_P hr)).map (F := fun f => (pPrimary f _).map fun p => (Item.alt p.1 .zero, p.2)) fun f hf => by rw [hf]; rfl)
    simp [pUnary]
  | @unary ts i d ih =>
    intro rest v hr hv
    obtain ⟨t, r, rfl, h1⟩ := first d
    refine Ev.step (G := fun f => (pUnary f (t :: r ++ rest)).bind fun p => postLoop f p.1 p.2) (fun f => ?_) ((ih rest hr).bind hv fun f hf => by rw [hf]; rfl)
    rcases h1 with h1 | ⟨rfl, _⟩
    · cases t <;> first | (cases h1; done) | simp [pPostfix]
    · simp [pPostfix]
  | @sep ts us i j _ _ ih1 ih2 =>
    intro rest v hr hv
    have := ih1 (.at_ :: us ++ rest) v rfl (Ev.step (G := fun f => (pPrimary f (us ++ rest)).bind fun p => postLoop f (Syntax.sep i p.1) p.2)
      (fun f => by simp [postLoop]) ((ih2 rest (okU_P hr)).bind hv fun f hf => by rw [hf]; rfl))
    simpa using this
  | @act ts i c _ ih =>
    intro rest v hr hv
    have := ih (.code c :: rest) v rfl (Ev.step (fun f => by simp [postLoop]) hv)
    simpa using this
  | code =>
    intro rest v hr hv
    exact Ev.step (fun f => by simp [pPostfix]) hv
  | one _ ih =>
    intro rest v hr hv
    refine Ev.step (G := fun f => (pPostfix f _).bind fun p => seqLoop f p.1 p.2) (fun f => by rw [pSeq]) ((ih rest _ (okS_U hr) (postLoop_end hr)).bind hv fun f hf => by rw [hf]; rfl)
  | @seq ts us i j _ d hc ih1 ih2 =>
    intro rest v hr hv
    obtain ⟨hs, ho⟩ := post_starts d (hc rfl) rest
    have := ih1 (us ++ rest) v ho (Ev.step (G := fun f => (pPostfix f (us ++ rest)).bind fun p => seqLoop f (.cons i p.1) p.2)
      (fun f => by rw [seqLoop, hs]; rfl) ((ih2 rest _ (okS_U hr) (postLoop_end hr)).bind hv fun f hf => by rw [hf]; rfl))
    simpa using this
  | @sequence ts i d ih =>
    intro rest hr
    have hr' : starts rest = false := by unfold okC at hr; simp at hr; exact hr.2
    refine Ev.step (fun f => ?_) (ih rest _ (okC_S hr) (seqLoop_end hr'))
    obtain ⟨t, r, rfl, h1⟩ := first d
    rcases h1 with h1 | ⟨c, rfl⟩ | ⟨rfl, t', r', rfl, h1⟩
    · cases t <;> first | (cases h1; done) | simp [pCond]
    · simp [pCond]
    · cases t' <;> first | (cases h1; done) | simp [pCond]
  | @cond c ts i _ ih =>
    intro rest hr
    have hr' : starts rest = false := by unfold okC at hr; simp at hr; exact hr.2
    refine Ev.step (G := fun f => (pSeq f (ts ++ rest)).map fun p => (Item.cond c p.1, p.2)) (fun f => by simp [pCond])
      ((ih rest _ (okC_S hr) (seqLoop_end hr')).map fun f hf => by rw [hf]; rfl)
  | single _ ih =>
    intro rest v hr hv
    exact Ev.step (G := fun f => (pCond f _).bind fun p => optLoop f p.1 p.2) (fun f => by rw [pOption]) ((ih rest hr).bind hv fun f hf => by rw [hf]; rfl)
  | @alt ts us i j _ _ ih1 ih2 =>
    intro rest v hr hv
    have := ih1 (.bar :: us ++ rest) v rfl (Ev.step (G := fun f => (pCond f (us ++ rest)).bind fun p => optLoop f (.alt i p.1) p.2)
      (fun f => by simp [optLoop]) ((ih2 rest hr).bind hv fun f hf => by rw [hf]; rfl))
    simpa using this

/-- The parser reads a list of tokens as an item exactly if the item is derived. -/
theorem reads_iff {ts : List Tok} {i : Item} {rest : List Tok} (hr : okC rest = true) (hb : rest.head? ≠ some .bar) :
    D true .option ts i ↔ Ev (fun f => pOption f (ts ++ rest)) (i, rest) := by
  constructor
  · intro d; exact complete d rest _ hr (optLoop_end hb)
  · rintro ⟨n, hn⟩
    obtain ⟨us, e, d⟩ := (sound n).option _ _ _ (hn n (Nat.le_refl _))
    rw [List.append_cancel_right e]
    exact d

theorem option_unique {ts : List Tok} {i j : Item} (h : D true .option ts i) (h' : D true .option ts j) : i = j := by
  have := ((reads_iff (rest := []) rfl (by simp)).1 h).unique ((reads_iff (rest := []) rfl (by simp)).1 h')
  cases this; rfl

end Verif.Syntax
