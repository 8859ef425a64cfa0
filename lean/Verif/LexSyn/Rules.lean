import Verif.LexSyn.Complete

/-!
# Bison's choices lose no expression; sections have one reading
-/

namespace Verif.LexSyn

/-! ## Resolving the conflicts -/

theorem atom_open {o b : Bool} {ts : List Tok} {x : E} (d : D o b .atom ts x) : (ts = [] ∨ begins b ts = true) ∧ (open_ ts = true → ts = []) := by
  cases d with
  | @paren _ ts _ _ => exact ⟨Or.inr rfl, fun h => by rw [open_last (.lp :: ts)] at h; cases h⟩
  | @bracket _ ts _ _ => exact ⟨Or.inr rfl, fun h => by rw [open_last (.lb :: ts)] at h; cases h⟩
  | eps => exact ⟨Or.inl rfl, fun _ => rfl⟩
  | dot => exact ⟨Or.inr rfl, fun h => by cases h⟩
  | str => exact ⟨Or.inr rfl, fun h => by cases h⟩
  | word => exact ⟨Or.inr rfl, fun h => by cases h⟩
  | range => exact ⟨Or.inr rfl, fun h => by cases h⟩
  | coll => exact ⟨Or.inr rfl, fun h => by cases h⟩
  | named => exact ⟨Or.inr rfl, fun h => by cases h⟩

theorem rep_open {o b : Bool} {ts : List Tok} {x : E} (d : D o b .rep ts x) (h : open_ ts = true) : ts = [] := by
  cases d with
  | star => rw [open_last] at h; cases h
  | plus => rw [open_last] at h; cases h
  | repOne d => exact (atom_open d).2 h

/-- Putting something behind a sequence, if it can be put behind each of its elements. -/
theorem seq_behind {b : Bool} {v : List Tok} {P : List Tok → Prop} (hv : ∀ us y, P us → D true b .sep us y → ∃ z, D true b .sep (us ++ v) z)
    {ts : List Tok} {x : E} (d : D true b .seq ts x) (h : ∀ us vs, ts = us ++ vs → vs ≠ [] ∨ us = [] → P vs) : ∃ z, D true b .seq (ts ++ v) z := by
  cases d with
  | seqOne d =>
    obtain ⟨z, h1⟩ := hv _ _ (h [] _ rfl (Or.inr rfl)) d
    exact ⟨z, .seqOne h1⟩
  | cat d1 d2 hj =>
    have hj := hj rfl
    have hne : ∀ {us : List Tok}, begins false us = true → us ≠ [] := by rintro us h rfl; cases h
    obtain ⟨z, h1⟩ := hv _ _ (h _ _ rfl (Or.inl (hne hj.2))) d2
    rw [List.append_assoc]
    exact ⟨_, d1.join h1 ⟨hj.1, (begins_append (hne hj.2)).trans hj.2⟩⟩
  | union d1 d2 hj =>
    have hj := hj rfl
    have hne : ∀ {us : List Tok}, begins true us = true → us ≠ [] := by rintro us h rfl; cases h
    obtain ⟨z, h1⟩ := hv _ _ (h _ _ rfl (Or.inl (hne hj.2))) d2
    rw [List.append_assoc]
    exact ⟨_, d1.join h1 ⟨hj.1, (begins_append (hne hj.2)).trans hj.2⟩⟩

theorem seq_sep {b : Bool} {ts us : List Tok} {x y : E} (d : D true b .seq ts x) (d' : D true b .rep us y) : ∃ z, D true b .seq (ts ++ .at_ :: us) z :=
  seq_behind (P := fun _ => True) (fun _ _ _ h => ⟨_, .sep h d'⟩) d fun _ _ _ _ => trivial

theorem seq_star {b : Bool} {t : Tok} (hs : ∀ us y, D true b .rep us y → ∃ z, D true b .rep (us ++ [t]) z) {ts : List Tok} {x : E} (d : D true b .seq ts x) :
    ∃ z, D true b .seq (ts ++ [t]) z :=
  seq_behind (P := fun _ => True) (fun us y _ h => by
    cases h with
    | sepOne h => obtain ⟨z, h1⟩ := hs _ _ h; exact ⟨z, .sepOne h1⟩
    | @sep _ us1 us2 _ _ h h2 =>
      obtain ⟨z, h1⟩ := hs _ _ h2
      have := D.sep h h1
      exact ⟨_, by simpa using this⟩) d fun _ _ _ _ => trivial

theorem seq_fill {b : Bool} {ts us : List Tok} {x y : E} (d : D true b .seq ts x) (ho : open_ ts = true) (d' : D true b .atom us y) : ∃ z, D true b .seq (ts ++ us) z :=
  seq_behind (P := fun vs => open_ vs = true) (fun vs y ho h => by
    cases h with
    | sepOne h => rw [rep_open h ho]; exact ⟨_, .sepOne (.repOne d')⟩
    | @sep _ us1 us2 _ _ h h2 =>
      rw [open_at] at ho
      rw [rep_open h2 ho]
      have := D.sep h (.repOne d')
      exact ⟨_, by simpa using this⟩) d fun us vs e h => by
    subst e
    rcases h with h | rfl
    · rwa [open_append h] at ho
    · exact ho

/-- The rest is put behind the last element, or into an open end. -/
theorem seq_any {b : Bool} {n : Lv} {us : List Tok} {y : E} (d' : D true b n us y) (hn : n = .sep ∨ n = .rep ∨ n = .atom) {ts : List Tok} {x : E} (d : D true b .seq ts x)
    (h : open_ ts = true ∨ begins b us = false) : ∃ z, D true b .seq (ts ++ us) z := by
  have hb : ∀ {b : Bool} {us vs : List Tok}, begins b (us ++ vs) = false → begins b us = false := by
    intro b us vs h
    cases us with
    | nil => rfl
    | cons t us => rwa [begins_append (by simp)] at h
  induction d' generalizing ts x with
  | @sep b us vs _ _ d1 d2 ih1 ih2 =>
    obtain ⟨z, h1⟩ := ih1 (Or.inl rfl) d (h.imp id hb)
    have := seq_sep h1 d2
    simpa using this
  | sepOne _ ih => exact ih (by simp) d h
  | @star b us _ _ ih =>
    obtain ⟨z, h1⟩ := ih (by simp) d (h.imp id hb)
    have := seq_star (t := .star) (fun us y h => ⟨_, .star h⟩) h1
    simpa using this
  | @plus b us _ _ ih =>
    obtain ⟨z, h1⟩ := ih (by simp) d (h.imp id hb)
    have := seq_star (t := .plus) (fun us y h => ⟨_, .plus h⟩) h1
    simpa using this
  | repOne _ ih => exact ih (by simp) d h
  | eps => exact ⟨x, by simpa using d⟩
  | paren d1 => rcases h with h | h; exact seq_fill d h (.paren d1); cases h
  | bracket d1 => rcases h with h | h; exact seq_fill d h (.bracket d1); cases h
  | dot => rcases h with h | h; exact seq_fill d h .dot; cases h
  | str => rcases h with h | h; exact seq_fill d h .str; cases h
  | word => rcases h with h | h; exact seq_fill d h .word; cases h
  | range => rcases h with h | h; exact seq_fill d h .range; cases h
  | coll => rcases h with h | h; exact seq_fill d h .coll; cases h
  | named => rcases h with h | h; exact seq_fill d h .named; cases h
  | _ => simp at hn

theorem seq_join {b : Bool} {ts us : List Tok} {x y : E} (d : D true b .seq ts x) (d' : D true b .sep us y) : ∃ z, D true b .seq (ts ++ us) z := by
  cases h : begins b us with
  | false => exact seq_any d' (Or.inl rfl) d (Or.inr h)
  | true =>
    cases h' : open_ ts with
    | true => exact seq_any d' (Or.inl rfl) d (Or.inl h')
    | false => exact ⟨_, d.join d' ⟨h', h⟩⟩

/-- Everything the productions derive, they derive in a way that respects the choices. -/
theorem resolve {o b : Bool} {n : Lv} {ts : List Tok} {x : E} (d : D o b n ts x) : ∃ y, D true b n ts y := by
  induction d with
  | alt _ _ ih1 ih2 => obtain ⟨y, h⟩ := ih1; obtain ⟨z, h'⟩ := ih2; exact ⟨_, .alt h h'⟩
  | altOne _ ih => obtain ⟨y, h⟩ := ih; exact ⟨_, .altOne h⟩
  | and _ _ ih1 ih2 => obtain ⟨y, h⟩ := ih1; obtain ⟨z, h'⟩ := ih2; exact ⟨_, .and h h'⟩
  | andOne _ ih => obtain ⟨y, h⟩ := ih; exact ⟨_, .andOne h⟩
  | but _ _ ih1 ih2 => obtain ⟨y, h⟩ := ih1; obtain ⟨z, h'⟩ := ih2; exact ⟨_, .but h h'⟩
  | butOne _ ih => obtain ⟨y, h⟩ := ih; exact ⟨_, .butOne h⟩
  | neg _ ih => obtain ⟨y, h⟩ := ih; exact ⟨_, .neg h⟩
  | opt _ ih => obtain ⟨y, h⟩ := ih; exact ⟨_, .opt h⟩
  | preOne _ ih => obtain ⟨y, h⟩ := ih; exact ⟨_, .preOne h⟩
  | cat _ _ _ ih1 ih2 => obtain ⟨y, h⟩ := ih1; obtain ⟨z, h'⟩ := ih2; exact seq_join h h'
  | union _ _ _ ih1 ih2 => obtain ⟨y, h⟩ := ih1; obtain ⟨z, h'⟩ := ih2; exact seq_join h h'
  | seqOne _ ih => obtain ⟨y, h⟩ := ih; exact ⟨_, .seqOne h⟩
  | sep _ _ ih1 ih2 => obtain ⟨y, h⟩ := ih1; obtain ⟨z, h'⟩ := ih2; exact ⟨_, .sep h h'⟩
  | sepOne _ ih => obtain ⟨y, h⟩ := ih; exact ⟨_, .sepOne h⟩
  | star _ ih => obtain ⟨y, h⟩ := ih; exact ⟨_, .star h⟩
  | plus _ ih => obtain ⟨y, h⟩ := ih; exact ⟨_, .plus h⟩
  | repOne _ ih => obtain ⟨y, h⟩ := ih; exact ⟨_, .repOne h⟩
  | paren _ ih => obtain ⟨y, h⟩ := ih; exact ⟨_, .paren h⟩
  | bracket _ ih => obtain ⟨y, h⟩ := ih; exact ⟨_, .bracket h⟩
  | dot => exact ⟨_, .dot⟩
  | str => exact ⟨_, .str⟩
  | word => exact ⟨_, .word⟩
  | range => exact ⟨_, .range⟩
  | coll => exact ⟨_, .coll⟩
  | named => exact ⟨_, .named⟩
  | eps => exact ⟨_, .eps⟩

theorem D.weaken {b : Bool} {n : Lv} {ts : List Tok} {x : E} (d : D true b n ts x) : D false b n ts x := by
  induction d with
  | alt _ _ ih1 ih2 => exact .alt ih1 ih2
  | altOne _ ih => exact .altOne ih
  | and _ _ ih1 ih2 => exact .and ih1 ih2
  | andOne _ ih => exact .andOne ih
  | but _ _ ih1 ih2 => exact .but ih1 ih2
  | butOne _ ih => exact .butOne ih
  | neg _ ih => exact .neg ih
  | opt _ ih => exact .opt ih
  | preOne _ ih => exact .preOne ih
  | cat _ _ _ ih1 ih2 => exact .cat ih1 ih2 (by simp)
  | union _ _ _ ih1 ih2 => exact .union ih1 ih2 (by simp)
  | seqOne _ ih => exact .seqOne ih
  | sep _ _ ih1 ih2 => exact .sep ih1 ih2
  | sepOne _ ih => exact .sepOne ih
  | star _ ih => exact .star ih
  | plus _ ih => exact .plus ih
  | repOne _ ih => exact .repOne ih
  | paren _ ih => exact .paren ih
  | bracket _ ih => exact .bracket ih
  | dot => exact .dot
  | str => exact .str
  | word => exact .word
  | range => exact .range
  | coll => exact .coll
  | named => exact .named
  | eps => exact .eps

/-! ## Sections -/

/-- What ends a rule: code, action and semicolon. -/
inductive End : List Tok → Text → Act → Prop
  | mk {cs c as a} : CodeOpt cs c → ActOpt as a → End (cs ++ as ++ [.semi]) c a

theorem End.unique {ts us r s : List Tok} {c d : Text} {a e : Act} (h : End ts c a) (h' : End us d e) (he : ts ++ r = us ++ s) : c = d ∧ a = e ∧ ts = us ∧ r = s := by
  obtain ⟨h1, h2⟩ := h
  obtain ⟨h3, h4⟩ := h'
  cases h1 <;> cases h2 <;> cases h3 <;> cases h4 <;> simp at he <;> simp [he]

/-- What follows the first expression of a declaration. -/
inductive Tail : List Tok → (E → Decl) → Prop
  | define {s} : Tail [.arrow, .ident s, .semi] (.define s)
  | rule {ts c a} : End ts c a → Tail ts fun x => .rule x .nothing c a
  | lookahead {vs y ts c a} : D true false .alt vs y → End ts c a → Tail (.la :: .lp :: vs ++ .rp :: ts) fun x => .rule x (.lookahead y) c a
  | barrier {vs y ts c a} : D true false .alt vs y → End ts c a → Tail (.ba :: .lp :: vs ++ .rp :: ts) fun x => .rule x (.barrier y) c a

/-- The first token of an end. -/
theorem End.first {ts r : List Tok} {c : Text} {a : Act} (h : End ts c a) : ∃ t u, ts ++ r = t :: u ∧ noAnd (t :: u) = true ∧ t ≠ .bar ∧ t ≠ .arrow ∧ t ≠ .la ∧ t ≠ .ba := by
  obtain ⟨h1, h2⟩ := h
  cases h1 <;> cases h2 <;> exact ⟨_, _, rfl, rfl, by simp, by simp, by simp, by simp⟩

theorem Tail.first {ts r : List Tok} {g : E → Decl} (h : Tail ts g) : noAnd (ts ++ r) = true ∧ (ts ++ r).head? ≠ some .bar := by
  cases h with
  | define => exact ⟨rfl, by simp⟩
  | rule h =>
    obtain ⟨t, u, e, h1, h2, _⟩ := h.first (r := r)
    rw [e]
    exact ⟨h1, by simpa using h2⟩
  | lookahead => exact ⟨rfl, by simp⟩
  | barrier => exact ⟨rfl, by simp⟩

theorem tail_unique {ts us r s : List Tok} {g g' : E → Decl} (h : Tail ts g) (h' : Tail us g') (he : ts ++ r = us ++ s) : g = g' ∧ ts = us ∧ r = s := by
  cases h with
  | define =>
    cases h' with
    | define => simp at he; simp [he]
    | rule h => obtain ⟨t, u, e, _, _, h3, _⟩ := h.first (r := s); rw [e] at he; simp at he; exact absurd he.1.symm h3
    | lookahead => simp at he
    | barrier => simp at he
  | rule h =>
    cases h' with
    | define => obtain ⟨t, u, e, _, _, h3, _⟩ := h.first (r := r); rw [e] at he; simp at he; exact absurd he.1 h3
    | rule h' => obtain ⟨rfl, rfl, rfl, rfl⟩ := h.unique h' he; exact ⟨rfl, rfl, rfl⟩
    | lookahead => obtain ⟨t, u, e, _, _, _, h3, _⟩ := h.first (r := r); rw [e] at he; simp at he; exact absurd he.1 h3
    | barrier => obtain ⟨t, u, e, _, _, _, _, h3⟩ := h.first (r := r); rw [e] at he; simp at he; exact absurd he.1 h3
  | @lookahead vs y ts c a d h =>
    cases h' with
    | define => simp at he
    | rule h => obtain ⟨t, u, e, _, _, _, h3, _⟩ := h.first (r := s); rw [e] at he; simp at he; exact absurd he.1.symm h3
    | @lookahead ws z us d' a' d2 h' =>
      have he : vs ++ .rp :: (ts ++ r) = ws ++ .rp :: (us ++ s) := by simpa using he
      obtain ⟨rfl, rfl, e⟩ := unique_rest d d2 rfl (by simp) rfl (by simp) he
      obtain ⟨rfl, rfl, rfl, rfl⟩ := h.unique h' (List.cons.inj e).2
      exact ⟨rfl, rfl, rfl⟩
    | barrier => simp at he
  | @barrier vs y ts c a d h =>
    cases h' with
    | define => simp at he
    | rule h => obtain ⟨t, u, e, _, _, _, _, h3⟩ := h.first (r := s); rw [e] at he; simp at he; exact absurd he.1.symm h3
    | lookahead => simp at he
    | @barrier ws z us d' a' d2 h' =>
      have he : vs ++ .rp :: (ts ++ r) = ws ++ .rp :: (us ++ s) := by simpa using he
      obtain ⟨rfl, rfl, e⟩ := unique_rest d d2 rfl (by simp) rfl (by simp) he
      obtain ⟨rfl, rfl, rfl, rfl⟩ := h.unique h' (List.cons.inj e).2
      exact ⟨rfl, rfl, rfl⟩

/-- One declaration. -/
inductive Piece : List Tok → Decl → Prop
  | expr {ts x us g} : D true false .alt ts x → Tail us g → ts ++ us ≠ [.semi] → Piece (ts ++ us) (g x)
  | fail {c} : Piece [.fail, .code c] (.fail c)
  | enter {c} : Piece [.enter, .code c] (.enter c)
  | leave {c} : Piece [.leave, .code c] (.leave c)

theorem D.noKey {b : Bool} {n : Lv} {ts : List Tok} {x : E} (d : D true b n ts x) : ∀ t ∈ ts, t ≠ .fail ∧ t ≠ .enter ∧ t ≠ .leave ∧ t ≠ .semi := by
  induction d <;> simp_all <;> grind

theorem Tail.noKey {r u : List Tok} {t : Tok} {g : E → Decl} {us : List Tok} (h : Tail us g) (e : us ++ r = t :: u) : t ≠ .fail ∧ t ≠ .enter ∧ t ≠ .leave := by
  cases h with
  | define => simp at e; simp [← e.1]
  | rule h =>
    obtain ⟨h1, h2⟩ := h
    cases h1 <;> cases h2 <;> simp at e <;> simp [← e.1]
  | lookahead => simp at e; simp [← e.1]
  | barrier => simp at e; simp [← e.1]

theorem expr_noKey {ts us r u : List Tok} {t : Tok} {x : E} {g : E → Decl} (d : D true false .alt ts x) (h : Tail us g) (e : ts ++ us ++ r = t :: u) :
    t ≠ .fail ∧ t ≠ .enter ∧ t ≠ .leave := by
  cases ts with
  | nil => exact h.noKey (by simpa using e)
  | cons t' ts =>
    simp at e
    obtain ⟨h1, h2, h3, _⟩ := d.noKey t' (by simp)
    rw [← e.1]
    exact ⟨h1, h2, h3⟩

theorem piece_unique {p q r s : List Tok} {d e : Decl} (h : Piece p d) (h' : Piece q e) (he : p ++ r = q ++ s) : d = e ∧ p = q ∧ r = s := by
  cases h with
  | expr d1 h1 _ =>
    cases h' with
    | expr d2 h2 _ =>
      rw [List.append_assoc, List.append_assoc] at he
      obtain ⟨rfl, rfl, e⟩ := unique_rest d1 d2 (h1.first).1 (h1.first).2 (h2.first).1 (h2.first).2 he
      obtain ⟨rfl, rfl, rfl⟩ := tail_unique h1 h2 e
      exact ⟨rfl, rfl, rfl⟩
    | fail => exact absurd rfl (expr_noKey d1 h1 he).1
    | enter => exact absurd rfl (expr_noKey d1 h1 he).2.1
    | leave => exact absurd rfl (expr_noKey d1 h1 he).2.2
  | fail =>
    cases h' with
    | expr d2 h2 _ => exact absurd rfl (expr_noKey d2 h2 he.symm).1
    | fail => simp at he; simp [he]
    | enter => simp at he
    | leave => simp at he
  | enter =>
    cases h' with
    | expr d2 h2 _ => exact absurd rfl (expr_noKey d2 h2 he.symm).2.1
    | fail => simp at he
    | enter => simp at he; simp [he]
    | leave => simp at he
  | leave =>
    cases h' with
    | expr d2 h2 _ => exact absurd rfl (expr_noKey d2 h2 he.symm).2.2
    | fail => simp at he
    | enter => simp at he
    | leave => simp at he; simp [he]

/-- A declaration does not begin with a semicolon. -/
theorem Piece.first {p r s : List Tok} {d : Decl} (h : Piece p d) : p ++ r ≠ .semi :: s := by
  intro e
  cases h with
  | @expr ts x us g d h hne =>
    cases ts with
    | nil =>
      have e : us ++ r = .semi :: s := by simpa using e
      cases h with
      | define => simp at e
      | rule h =>
        obtain ⟨h1, h2⟩ := h
        cases h1 <;> cases h2 <;> simp at e
        simp at hne
      | lookahead => simp at e
      | barrier => simp at e
    | cons t ts =>
      simp at e
      exact (d.noKey t (by simp)).2.2.2 e.1
  | fail => simp at e
  | enter => simp at e
  | leave => simp at e

theorem Ds.pieces {us : List Tok} {ds : List Decl} (h : Ds true us ds) : us = [] ∧ ds = [] ∨ ∃ p d vs es, Piece p d ∧ Ds true vs es ∧ us = p ++ vs ∧ ds = d :: es := by
  have ends : ∀ {ts cs as : List Tok} {c : Text} {a : Act}, CodeOpt cs c → ActOpt as a → ts ++ cs ++ as ≠ [] → ts ++ (cs ++ as ++ [.semi]) ≠ [.semi] := by
    intro ts cs as c a _ _ h e
    have h1 := congrArg List.length e
    simp at h1
    exact h (by rw [List.length_eq_zero_iff.1 (show ts.length = 0 by omega), List.length_eq_zero_iff.1 (show cs.length = 0 by omega),
      List.length_eq_zero_iff.1 (show as.length = 0 by omega)]; rfl)
  cases h with
  | @define ts x s us ds d h => exact Or.inr ⟨ts ++ [.arrow, .ident s, .semi], _, us, ds, .expr d .define (by intro e; have := congrArg List.length e; simp at this), h, by simp, rfl⟩
  | @rule ts x cs c as a us ds d h1 h2 hne h =>
    exact Or.inr ⟨ts ++ (cs ++ as ++ [.semi]), _, us, ds, .expr d (.rule ⟨h1, h2⟩) (ends h1 h2 (hne rfl)), h, by simp, rfl⟩
  | @lookahead ts x vs y cs c as a us ds d d' h1 h2 h =>
    exact Or.inr ⟨ts ++ (.la :: .lp :: vs ++ .rp :: (cs ++ as ++ [.semi])), _, us, ds,
      .expr d (.lookahead d' ⟨h1, h2⟩) (by intro e; have := congrArg List.length e; simp at this; omega), h, by simp, rfl⟩
  | @barrier ts x vs y cs c as a us ds d d' h1 h2 h =>
    exact Or.inr ⟨ts ++ (.ba :: .lp :: vs ++ .rp :: (cs ++ as ++ [.semi])), _, us, ds,
      .expr d (.barrier d' ⟨h1, h2⟩) (by intro e; have := congrArg List.length e; simp at this; omega), h, by simp, rfl⟩
  | @fail c us ds h => exact Or.inr ⟨[.fail, .code c], _, us, ds, .fail, h, rfl, rfl⟩
  | @enter c us ds h => exact Or.inr ⟨[.enter, .code c], _, us, ds, .enter, h, rfl, rfl⟩
  | @leave c us ds h => exact Or.inr ⟨[.leave, .code c], _, us, ds, .leave, h, rfl, rfl⟩
  | nil => exact Or.inl ⟨rfl, rfl⟩

theorem Piece.ne_nil {p : List Tok} {d : Decl} (h : Piece p d) : p ≠ [] := by
  cases h with
  | expr _ h _ => cases h with
    | rule h => obtain ⟨_, _⟩ := h; simp
    | _ => simp
  | _ => simp

theorem section_unique {us vs r s : List Tok} {ds es : List Decl} (h : Ds true us ds) (h' : Ds true vs es) (e : us ++ .semi :: r = vs ++ .semi :: s) :
    ds = es ∧ us = vs ∧ r = s := by
  induction hn : us.length using Nat.strongRecOn generalizing us vs ds es with
  | _ n ih =>
    rcases h.pieces with ⟨rfl, rfl⟩ | ⟨p, d, us', ds', hp, h1, rfl, rfl⟩
    · rcases h'.pieces with ⟨rfl, rfl⟩ | ⟨q, d', vs', es', hq, h2, rfl, rfl⟩
      · simp at e; simp [e]
      · rw [List.append_assoc] at e
        exact absurd e.symm hq.first
    · rcases h'.pieces with ⟨rfl, rfl⟩ | ⟨q, d', vs', es', hq, h2, rfl, rfl⟩
      · rw [List.append_assoc] at e
        exact absurd e hp.first
      · rw [List.append_assoc, List.append_assoc] at e
        obtain ⟨rfl, rfl, e'⟩ := piece_unique hp hq e
        have := List.length_pos_iff.2 hp.ne_nil
        obtain ⟨rfl, rfl, rfl⟩ := ih us'.length (by simp at hn; omega) h1 h2 e' rfl
        exact ⟨rfl, rfl, rfl⟩

end Verif.LexSyn
