import Verif.LexSyn.Parser
import Verif.Syntax.Complete

/-!
# The parser finds every derivation that respects Bison's choices
-/

namespace Verif.LexSyn

open Verif.Syntax (Ev)

/-- The next token does not iterate, separate. -/
def noRep : List Tok → Bool
  | .star :: _ | .plus :: _ => false
  | _ => true

def noSep : List Tok → Bool
  | .star :: _ | .plus :: _ | .at_ :: _ => false
  | _ => true

/-- The next token does not continue a sequence. -/
def stops : List Tok → Bool
  | .star :: _ | .plus :: _ | .at_ :: _ | .tilde :: _ | .opt :: _ => false
  | .lp :: _ | .lb :: _ | .dot :: _ | .str _ :: _ | .unq _ :: _ | .named _ :: _ | .range _ :: _ => false
  | _ => true

/-- Nor a difference; nor an intersection. -/
def noBut : List Tok → Bool
  | .hat :: _ => false
  | ts => stops ts

def noAnd : List Tok → Bool
  | .amp :: _ | .hat :: _ => false
  | ts => stops ts

theorem noSep_noRep {ts : List Tok} (h : noSep ts = true) : noRep ts = true := by
  cases ts with
  | nil => rfl
  | cons t r => cases t <;> first | rfl | (cases h)

theorem stops_noSep {ts : List Tok} (h : stops ts = true) : noSep ts = true := by
  cases ts with
  | nil => rfl
  | cons t r => cases t <;> first | rfl | (cases h)

theorem stops_begins {b : Bool} {ts : List Tok} (h : stops ts = true) : begins b ts = false := by
  cases ts with
  | nil => rfl
  | cons t r => cases t <;> first | rfl | (cases h)

theorem noBut_stops {ts : List Tok} (h : noBut ts = true) : stops ts = true := by
  cases ts with
  | nil => rfl
  | cons t r => cases t <;> first | rfl | (cases h)

theorem noAnd_noBut {ts : List Tok} (h : noAnd ts = true) : noBut ts = true := by
  cases ts with
  | nil => rfl
  | cons t r => cases t <;> first | rfl | (cases h)

/-- The first token of a sequence is no prefix operator. -/
def noPrefix : List Tok → Bool
  | .tilde :: _ | .opt :: _ => false
  | _ => true

theorem noPrefix_append {ts us : List Tok} (h : noPrefix ts = true) (h' : ts = [] → noPrefix us = true) : noPrefix (ts ++ us) = true := by
  cases ts with
  | nil => exact h' rfl
  | cons t r => cases t <;> first | rfl | (cases h)

def PrefixFree : Lv → List Tok → Prop
  | .atom, ts | .rep, ts | .sep, ts | .seq, ts => noPrefix ts = true
  | _, _ => True

theorem prefixFree {o b : Bool} {n : Lv} {ts : List Tok} {x : E} (d : D o b n ts x) : PrefixFree n ts := by
  induction d with
  | alt => trivial
  | altOne => trivial
  | and => trivial
  | andOne => trivial
  | but => trivial
  | butOne => trivial
  | neg => trivial
  | opt => trivial
  | preOne => trivial
  | cat _ _ _ ih ih' => exact noPrefix_append ih fun _ => ih'
  | union _ _ _ ih ih' => exact noPrefix_append ih fun _ => ih'
  | seqOne _ ih => exact ih
  | sep _ _ ih _ => exact noPrefix_append ih fun _ => rfl
  | sepOne _ ih => exact ih
  | star _ ih => exact noPrefix_append ih fun _ => rfl
  | plus _ ih => exact noPrefix_append ih fun _ => rfl
  | repOne _ ih => exact ih
  | paren => rfl
  | bracket => rfl
  | dot => rfl
  | str => rfl
  | word => rfl
  | range => rfl
  | coll => rfl
  | named => rfl
  | eps => rfl

/-- What the parser does with derived tokens. -/
def Complete (b : Bool) : Lv → List Tok → E → Prop
  | .atom, ts, x => ∀ rest, Ok b ts rest → Ev (fun f => pAtom f b (ts ++ rest)) (x, rest)
  | .rep, ts, x => ∀ rest, Ok b ts rest → Ev (fun f => pRep f b (ts ++ rest)) (repLoop x rest)
  | .sep, ts, x => ∀ rest v, Ok b ts rest → noRep rest = true → Ev (fun f => sepLoop f b x rest) v → Ev (fun f => pSep f b (ts ++ rest)) v
  | .seq, ts, x => ∀ rest v, Ok b ts rest → noSep rest = true → Ev (fun f => seqLoop f b x rest) v → Ev (fun f => pSeq f b (ts ++ rest)) v
  | .pre, ts, x => ∀ rest, stops rest = true → Ev (fun f => pPre f b (ts ++ rest)) (x, rest)
  | .but, ts, x => ∀ rest, noBut rest = true → Ev (fun f => pBut f b (ts ++ rest)) (x, rest)
  | .and, ts, x => ∀ rest v, noBut rest = true → Ev (fun f => andLoop f b x rest) v → Ev (fun f => pAnd f b (ts ++ rest)) v
  | .alt, ts, x => ∀ rest v, noAnd rest = true → Ev (fun f => altLoop f b x rest) v → Ev (fun f => pAlt f b (ts ++ rest)) v

theorem repLoop_end {x : E} {rest : List Tok} (h : noRep rest = true) : repLoop x rest = (x, rest) := by
  cases rest with
  | nil => rfl
  | cons t r => cases t <;> first | rfl | (cases h)

theorem sepLoop_end {b : Bool} {x : E} {rest : List Tok} (h : noSep rest = true) : Ev (fun f => sepLoop f b x rest) (x, rest) :=
  Ev.pure fun f => by
    cases rest with
    | nil => rfl
    | cons t r => cases t <;> first | rfl | (cases h)

theorem seqLoop_end {b : Bool} {x : E} {rest : List Tok} (h : begins b rest = false) : Ev (fun f => seqLoop f b x rest) (x, rest) :=
  Ev.pure fun f => by rw [seqLoop, h]; rfl

theorem butRest_end {b : Bool} {x : E} {rest : List Tok} (h : noBut rest = true) : Ev (fun f => butRest f b x rest) (x, rest) :=
  Ev.pure fun f => by
    cases rest with
    | nil => rfl
    | cons t r => cases t <;> first | rfl | (cases h)

theorem andLoop_end {b : Bool} {x : E} {rest : List Tok} (h : rest.head? ≠ some .amp) : Ev (fun f => andLoop f b x rest) (x, rest) :=
  Ev.pure fun f => by
    cases rest with
    | nil => rfl
    | cons t r => cases t <;> first | rfl | (simp at h)

theorem altLoop_end {b : Bool} {x : E} {rest : List Tok} (h : rest.head? ≠ some .bar) : Ev (fun f => altLoop f b x rest) (x, rest) :=
  Ev.pure fun f => by
    cases rest with
    | nil => rfl
    | cons t r => cases t <;> first | rfl | (simp at h)

theorem alt_closed {b : Bool} {t : Tok} (h1 : noAnd [t] = true) (h2 : t ≠ .bar) {ts rest : List Tok} {x : E} (h : Complete b .alt ts x) :
    Ev (fun f => close t (pAlt f b (ts ++ t :: rest))) (x, rest) := by
  have h3 : noAnd (t :: rest) = true := by cases t <;> first | rfl | (cases h1)
  exact (h (t :: rest) (x, t :: rest) h3 (altLoop_end (by simpa using h2))).map fun f hf => by rw [hf]; simp [close]

theorem noSep_begins {b : Bool} {us rest : List Tok} (h : begins b us = true) : noSep (us ++ rest) = true := by
  cases us with
  | nil => cases h
  | cons t us => cases t <;> first | rfl | (cases h)

theorem noAnd_head {ts : List Tok} (h : noAnd ts = true) : ts.head? ≠ some .amp := by
  cases ts with
  | nil => simp
  | cons t r => rintro e; cases e; cases h

theorem complete_join {b : Bool} {ts us : List Tok} {x y : E} (hj : joins b ts us) (ih1 : Complete b .seq ts x) (ih2 : Complete b .sep us y) :
    Complete b .seq (ts ++ us) (join b x y) := by
  intro rest v ho hr hv
  have hne : us ≠ [] := by rintro rfl; cases hj.2
  have ho2 : Ok b us rest := by intro h; exact ho ((open_append hne).trans h)
  have := ih1 (us ++ rest) v (fun h => by rw [hj.1] at h; cases h) (noSep_begins hj.2)
    (Ev.step (G := fun f => (pSep f b (us ++ rest)).bind fun p => seqLoop f b (join b x p.1) p.2)
      (fun f => by rw [seqLoop, begins_append hne, hj.2]; rfl)
      ((ih2 rest _ ho2 (noSep_noRep hr) (sepLoop_end hr)).bind hv fun f hf => by rw [hf]; rfl))
  simpa using this

theorem complete {b : Bool} {n : Lv} {ts : List Tok} {x : E} (d : D true b n ts x) : Complete b n ts x := by
  induction d with
  | @alt b ts us x y _ _ ih1 ih2 =>
    intro rest v hr hv
    have := ih1 (.bar :: us ++ rest) v rfl (Ev.step (G := fun f => (pAnd f b (us ++ rest)).bind fun p => altLoop f b (.alt x p.1) p.2)
      (fun f => by simp [altLoop]) ((ih2 rest _ (noAnd_noBut hr) (andLoop_end (noAnd_head hr))).bind hv fun f hf => by rw [hf]; rfl))
    simpa using this
  | @altOne b ts x _ ih =>
    intro rest v hr hv
    exact Ev.step (G := fun f => (pAnd f b (ts ++ rest)).bind fun p => altLoop f b p.1 p.2) (fun f => by rw [pAlt])
      ((ih rest _ (noAnd_noBut hr) (andLoop_end (noAnd_head hr))).bind hv fun f hf => by rw [hf]; rfl)
  | @and b ts us x y _ _ ih1 ih2 =>
    intro rest v hr hv
    have := ih1 (.amp :: us ++ rest) v rfl (Ev.step (G := fun f => (pBut f b (us ++ rest)).bind fun p => andLoop f b (.and x p.1) p.2)
      (fun f => by simp [andLoop]) ((ih2 rest hr).bind hv fun f hf => by rw [hf]; rfl))
    simpa using this
  | @andOne b ts x _ ih =>
    intro rest v hr hv
    exact Ev.step (G := fun f => (pBut f b (ts ++ rest)).bind fun p => andLoop f b p.1 p.2) (fun f => by rw [pAnd])
      ((ih rest hr).bind hv fun f hf => by rw [hf]; rfl)
  | @but b ts us x y _ _ ih1 ih2 =>
    intro rest hr
    have h2 : Ev (fun f => butRest f b x (.hat :: us ++ rest)) (.but x y, rest) :=
      Ev.step (G := fun f => (pBut f b (us ++ rest)).map fun p => (E.but x p.1, p.2)) (fun f => by simp [butRest]) ((ih2 rest hr).map fun f hf => by rw [hf]; rfl)
    have := Ev.step (F := fun f => pBut f b (ts ++ (.hat :: us ++ rest))) (G := fun f => (pPre f b (ts ++ (.hat :: us ++ rest))).bind fun p => butRest f b p.1 p.2) (fun f => by rw [pBut])
      ((ih1 (.hat :: us ++ rest) rfl).bind h2 fun f hf => by rw [hf]; rfl)
    simpa using this
  | @butOne b ts x _ ih =>
    intro rest hr
    exact Ev.step (G := fun f => (pPre f b (ts ++ rest)).bind fun p => butRest f b p.1 p.2) (fun f => by rw [pBut])
      ((ih rest (noBut_stops hr)).bind (butRest_end hr) fun f hf => by rw [hf]; rfl)
  | @neg b ts x _ ih =>
    intro rest hr
    exact Ev.step (G := fun f => (pPre f b (ts ++ rest)).map fun p => (E.neg p.1, p.2)) (fun f => by simp [pPre]) ((ih rest hr).map fun f hf => by rw [hf]; rfl)
  | @opt b ts x _ ih =>
    intro rest hr
    exact Ev.step (G := fun f => (pPre f b (ts ++ rest)).map fun p => (E.opt p.1, p.2)) (fun f => by simp [pPre]) ((ih rest hr).map fun f hf => by rw [hf]; rfl)
  | @preOne b ts x d ih =>
    intro rest hr
    refine Ev.step (fun f => ?_) (ih rest _ (fun _ => stops_begins hr) (stops_noSep hr) (seqLoop_end (stops_begins hr)))
    have h1 : noPrefix (ts ++ rest) = true := noPrefix_append (prefixFree d) fun _ => by
      cases rest with
      | nil => rfl
      | cons t r => cases t <;> first | rfl | (cases hr)
    generalize ts ++ rest = us at h1
    cases us with
    | nil => rfl
    | cons t r => cases t <;> first | rfl | (cases h1)
  | cat _ _ h ih1 ih2 => exact complete_join (h rfl) ih1 ih2
  | union _ _ h ih1 ih2 => exact complete_join (h rfl) ih1 ih2
  | @seqOne b ts x _ ih =>
    intro rest v ho hr hv
    exact Ev.step (G := fun f => (pSep f b (ts ++ rest)).bind fun p => seqLoop f b p.1 p.2) (fun f => by rw [pSeq])
      ((ih rest _ ho (noSep_noRep hr) (sepLoop_end hr)).bind hv fun f hf => by rw [hf]; rfl)
  | @sep b ts us x y _ _ ih1 ih2 =>
    intro rest v ho hr hv
    have h2 := ih2 rest fun h => ho ((open_at _ _).trans h)
    rw [repLoop_end hr] at h2
    have := ih1 (.at_ :: us ++ rest) v (fun _ => rfl) rfl (Ev.step (G := fun f => (pRep f b (us ++ rest)).bind fun p => sepLoop f b (.sepBy x p.1) p.2)
      (fun f => by simp [sepLoop]) (h2.bind hv fun f hf => by rw [hf]; rfl))
    simpa using this
  | @sepOne b ts x _ ih =>
    intro rest v ho hr hv
    have h2 := ih rest ho
    rw [repLoop_end hr] at h2
    exact Ev.step (G := fun f => (pRep f b (ts ++ rest)).bind fun p => sepLoop f b p.1 p.2) (fun f => by rw [pSep]) (h2.bind hv fun f hf => by rw [hf]; rfl)
  | star _ ih =>
    intro rest _
    have := ih (.star :: rest) fun _ => rfl
    simpa [repLoop] using this
  | plus _ ih =>
    intro rest _
    have := ih (.plus :: rest) fun _ => rfl
    simpa [repLoop] using this
  | @repOne b ts x _ ih =>
    intro rest ho
    exact Ev.step (G := fun f => (pAtom f b (ts ++ rest)).map fun p => repLoop p.1 p.2) (fun f => by rw [pRep]) ((ih rest ho).map fun f hf => by rw [hf]; rfl)
  | paren _ ih =>
    intro rest _
    exact Ev.step (fun f => by simp [pAtom]) (alt_closed (t := .rp) rfl (by simp) (rest := rest) ih)
  | bracket _ ih =>
    intro rest _
    exact Ev.step (fun f => by simp [pAtom]) (alt_closed (t := .rb) rfl (by simp) (rest := rest) ih)
  | dot => intro rest _; exact Ev.pure fun f => rfl
  | str => intro rest _; exact Ev.pure fun f => rfl
  | word => intro rest _; exact Ev.pure fun f => rfl
  | range => intro rest _; exact Ev.pure fun f => rfl
  | coll => intro rest _; exact Ev.pure fun f => rfl
  | named => intro rest _; exact Ev.pure fun f => by simp [pAtom]
  | @eps b =>
    intro rest ho
    have := ho rfl
    refine Ev.pure fun f => ?_
    cases rest with
    | nil => simp [pAtom]
    | cons t r =>
      cases t with
      | range s => simp only [begins] at this; subst this; simp [pAtom]
      | _ => first | (cases this; done) | simp [pAtom]

/-- The parser reads a list of tokens as an expression exactly if it is derived. -/
theorem reads_iff {b : Bool} {ts : List Tok} {x : E} {rest : List Tok} (hr : noAnd rest = true) (hb : rest.head? ≠ some .bar) :
    D true b .alt ts x ↔ Ev (fun f => pAlt f b (ts ++ rest)) (x, rest) := by
  constructor
  · intro d; exact complete d rest _ hr (altLoop_end hb)
  · rintro ⟨n, hn⟩
    obtain ⟨us, e, d, _⟩ := (sound n).alt _ _ _ _ (hn n (Nat.le_refl _))
    rw [List.append_cancel_right e]
    exact d

theorem unique {b : Bool} {ts : List Tok} {x y : E} (h : D true b .alt ts x) (h' : D true b .alt ts y) : x = y := by
  have := ((reads_iff (rest := []) rfl (by simp)).1 h).unique ((reads_iff (rest := []) rfl (by simp)).1 h')
  cases this; rfl

/-- The expression ends at the first token that cannot continue it. -/
theorem unique_rest {b : Bool} {ts us r s : List Tok} {x y : E} (h : D true b .alt ts x) (h' : D true b .alt us y)
    (hr : noAnd r = true) (hb : r.head? ≠ some .bar) (hs : noAnd s = true) (hc : s.head? ≠ some .bar) (e : ts ++ r = us ++ s) : x = y ∧ ts = us ∧ r = s := by
  have h1 := (reads_iff hr hb).1 h
  rw [e] at h1
  have := h1.unique ((reads_iff hs hc).1 h')
  cases this
  exact ⟨rfl, List.append_cancel_right e, rfl⟩

end Verif.LexSyn
