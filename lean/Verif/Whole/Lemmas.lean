import Verif.Whole.Model
import Verif.Whole.Spec
import Verif.Read.Props
import Mathlib.Tactic.ByContra

/-!
# Lemmas: the parser on the lexer does what the parser on the sequence of tokens does
-/

namespace Verif.Whole

open Verif.Gen Verif.TokStream

variable {D : Read.Spec} {H : Host} {U : User} {inp : Nat → Nat}

/-- The surroundings of the parser on the sequence. -/
def env (U : User) (inp : Nat → Nat) : Env := ⟨inp, U.oracle, U.act⟩

/-- The setting. -/
structure Fit (D : Read.Spec) (H : Host) (inp : Nat → Nat) : Prop where
  made : Read.Made D H.L
  adv : D.Advances
  fuel : 5 * D.n + 5 ≤ H.fuel
  inj : ∀ a b, H.kind a = H.kind b → a = b
  seq : Sequence D H.kind inp

def Mark.of (v : Saved) : Mark := ⟨v.pos, v.user⟩

/-- The states correspond. -/
structure Rel (D : Read.Spec) (H : Host) (inp : Nat → Nat) (σ : PState) (st : State) : Prop where
  good : Read.Good D σ.lx
  idx : σ.lx.str.idx = st.pos + 1
  tok : σ.tok = H.kind (inp st.pos)
  asked : σ.asked = st.asked
  blocked : σ.blocked = st.blocked
  errors : σ.errors = st.errors
  user : σ.user = st.user
  recovered : σ.recovered = st.recovered
  saved : σ.saved = st.saved.map fun v => (v.1, Mark.of v.2)
  blocks : σ.blocks = st.blocks
  bound : ∀ v ∈ st.saved, v.2.pos < σ.lx.str.size

/-- Outcomes correspond; the stream has `n` tokens or more. -/
def RelO (D : Read.Spec) (H : Host) (inp : Nat → Nat) (n : Nat) : Option (Out × PState) → Option (Out × State) → Prop
  | none, none => True
  | some (o, σ), some (o', st) => o = o' ∧ Rel D H inp σ st ∧ n ≤ σ.lx.str.size
  | _, _ => False

theorem RelO.mono {n m : Nat} (h : n ≤ m) : ∀ {a b}, RelO D H inp m a b → RelO D H inp n a b
  | none, none, _ => trivial
  | some (_, _), some (_, _), ⟨h1, h2, h3⟩ => ⟨h1, h2, Nat.le_trans h h3⟩

theorem Rel.ok {σ : PState} {st : State} (o : Out) (h : Rel D H inp σ st) : RelO D H inp σ.lx.str.size (some (o, σ)) (some (o, st)) := ⟨rfl, h, Nat.le_refl _⟩

/-- The token at a position. -/
theorem Fit.token (F : Fit D H inp) {ts : List Tok} (h : Read.Tokens D 0 0 ts) {p : Nat} {t : Tok} (ht : ts[p]? = some t) : t.kind = H.kind (inp p) := by
  obtain ⟨us, u, h1, h2, h3⟩ := F.seq p
  rw [h.unique h1 p t u ht h2, h3]

/-- `yylex()` when the index is `p`. -/
theorem Fit.lexes (F : Fit D H inp) (σ : PState) (hg : Read.Good D σ.lx) : ∃ σ', σ.lex H = some σ' ∧ Read.Good D σ'.lx ∧ σ'.lx.str.idx = σ.lx.str.idx + 1 ∧
    σ'.tok = H.kind (inp σ.lx.str.idx) ∧ σ.lx.str.size ≤ σ'.lx.str.size ∧ σ' = { σ with lx := σ'.lx, tok := σ'.tok } := by
  obtain ⟨⟨s', t⟩, hr⟩ := Read.reads F.made F.adv D.n σ.lx hg.le (by omega) H.fuel F.fuel
  obtain ⟨g1, g2, g3, g4, g5⟩ := Read.read_good F.made hg hr
  refine ⟨{ σ with lx := s', tok := t.kind }, by simp [PState.lex, hr], g1, g2, ?_, by rw [g5]; omega, rfl⟩
  have := g1.tokens [] .nil
  rw [List.append_nil] at this
  exact F.token this g3

theorem Rel.lex (F : Fit D H inp) {σ : PState} {st : State} (h : Rel D H inp σ st) : ∃ σ', σ.lex H = some σ' ∧ Rel D H inp σ' st.lex ∧ σ.lx.str.size ≤ σ'.lx.str.size := by
  obtain ⟨σ', h1, h2, h3, h4, h5, h6⟩ := F.lexes σ h.good
  refine ⟨σ', h1, ?_, h5⟩
  have hi := h.idx
  rw [h6]
  exact ⟨h2, by simp only [State.lex]; omega, by simp only [State.lex]; rw [h4, hi], h.asked, h.blocked, h.errors, h.user, h.recovered, h.saved, h.blocks,
    fun v hv => Nat.lt_of_lt_of_le (h.bound v hv) h5⟩

theorem Rel.toks (F : Fit D H inp) {σ : PState} {st : State} (h : Rel D H inp σ st) (t : Nat) : σ.tok = H.kind t ↔ inp st.pos = t := by
  rw [h.tok]
  exact ⟨F.inj _ _, fun e => by rw [e]⟩

theorem Rel.any (F : Fit D H inp) {σ : PState} {st : State} (h : Rel D H inp σ st) (ts : List Nat) : ts.any (fun t => σ.tok == H.kind t) = decide (inp st.pos ∈ ts) := by
  rw [Bool.eq_iff_iff]
  simp only [List.any_eq_true, beq_iff_eq, decide_eq_true_eq]
  constructor
  · rintro ⟨t, ht, e⟩
    rw [(h.toks F t).1 e]; exact ht
  · intro hm
    exact ⟨_, hm, h.tok⟩

theorem eval_eq (F : Fit D H inp) {σ : PState} {st : State} (h : Rel D H inp σ st) (t : Test) (k : Nat) : eval H U σ.tok t k = t.eval (env U inp) st.pos k := by
  induction t generalizing k with
  | always => rfl
  | toks ts => simp only [eval, Test.eval, h.any F]; rfl
  | or a b iha ihb =>
    simp only [eval, Test.eval, iha, ihb]
    obtain ⟨v, k'⟩ := Test.eval (env U inp) st.pos a k
    cases v <;> rfl
  | user a ih => simp only [eval, Test.eval, ih]; rfl

theorem pick_eq (F : Fit D H inp) {σ : PState} {st : State} (h : Rel D H inp σ st) (rs : List Row) (k : Nat) : pick H U σ.tok rs k = Gen.pick (env U inp) (inp st.pos) rs k := by
  induction rs generalizing k with
  | nil => rfl
  | cons r rs ih =>
    have e : (σ.tok = H.kind r.tok) ↔ r.tok = inp st.pos := (h.toks F r.tok).trans eq_comm
    simp only [pick, Gen.pick, e, ih]
    rfl

theorem Rel.withAsked {σ : PState} {st : State} (h : Rel D H inp σ st) (k : Nat) : Rel D H inp { σ with asked := k } { st with asked := k } := { h with asked := rfl }

theorem complain_rel {σ : PState} {st : State} (h : Rel D H inp σ st) (c : Nat) : RelO D H inp σ.lx.str.size (some (complain c σ)) (some (Gen.complain c st)) := by
  unfold complain Gen.complain
  rw [h.blocked]
  split
  · exact ⟨rfl, { h with errors := congrArg (· + 1) h.errors, blocked := by first | exact h.blocked | rfl }, Nat.le_refl _⟩
  · exact ⟨rfl, h, Nat.le_refl _⟩

theorem closes_rel (F : Fit D H inp) {σ : PState} {st : State} (h : Rel D H inp σ st) (r : Row) :
    (closes H U r σ).1 = (Gen.closes (env U inp) r st).1 ∧ Rel D H inp (closes H U r σ).2 (Gen.closes (env U inp) r st).2 ∧ σ.lx.str.size ≤ (closes H U r σ).2.lx.str.size := by
  have e := h.toks F r.tok2
  unfold closes Gen.closes
  by_cases h1 : inp st.pos = r.tok2
  · rw [if_pos (e.2 h1), if_pos (show (env U inp).inp st.pos = r.tok2 from h1)]
    split
    · exact ⟨by rw [h.asked]; rfl, by rw [h.asked]; exact h.withAsked _, Nat.le_refl _⟩
    · exact ⟨rfl, h, Nat.le_refl _⟩
  · rw [if_neg (fun hh => h1 (e.1 hh)), if_neg (show ¬ (env U inp).inp st.pos = r.tok2 from h1)]
    exact ⟨rfl, h, Nat.le_refl _⟩

theorem Rel.enter {σ : PState} {st : State} (h : Rel D H inp σ st) : Rel D H inp σ.enter st.enter :=
  { h with saved := rfl, blocks := rfl, bound := fun v hv => by simp [State.enter] at hv }

theorem Rel.back {σ σ' : PState} {st st' : State} (h : Rel D H inp σ st) (h' : Rel D H inp σ' st') (hn : σ.lx.str.size ≤ σ'.lx.str.size) : Rel D H inp (σ'.back σ) (st'.back st) :=
  { h' with saved := h.saved, blocks := h.blocks, bound := fun v hv => Nat.lt_of_lt_of_le (h.bound v hv) hn }

theorem andThen_rel {n : Nat} {a : Option (Out × PState)} {b : Option (Out × State)} (h : RelO D H inp n a b) {k : PState → Option (Out × PState)} {k' : State → Option (Out × State)}
    (hk : ∀ σ st, Rel D H inp σ st → n ≤ σ.lx.str.size → RelO D H inp σ.lx.str.size (k σ) (k' st)) : RelO D H inp n (andThen a k) (Gen.andThen b k') := by
  match a, b, h with
  | none, none, _ => trivial
  | some (o, σ), some (o', st), ⟨e, h1, h2⟩ =>
    subst e
    cases o with
    | ok => exact (hk σ st h1 h2).mono h2
    | failed => exact ⟨rfl, h1, h2⟩
    | goto i => exact ⟨rfl, h1, h2⟩

theorem returned_rel {σ : PState} {st : State} (h : Rel D H inp σ st) (c : Nat) {a : Option (Out × PState)} {b : Option (Out × State)} (hab : RelO D H inp σ.lx.str.size a b) :
    RelO D H inp σ.lx.str.size (a.map (returned c σ)) (b.map (Gen.returned c st)) := by
  match a, b, hab with
  | none, none, _ => trivial
  | some (o, σ'), some (o', st'), ⟨e, h1, h2⟩ =>
    subst e
    cases o with
    | ok => exact ⟨rfl, h.back h1 h2, h2⟩
    | failed => exact (complain_rel (h.back h1 h2) c).mono h2
    | goto i => exact (complain_rel (h.back h1 h2) c).mono h2

theorem lex_bind (F : Fit D H inp) {σ : PState} {st : State} (h : Rel D H inp σ st) {k : PState → Option (Out × PState)} {b : Option (Out × State)}
    (hk : ∀ σ', Rel D H inp σ' st.lex → σ.lx.str.size ≤ σ'.lx.str.size → RelO D H inp σ'.lx.str.size (k σ') b) : RelO D H inp σ.lx.str.size ((σ.lex H).bind k) b := by
  obtain ⟨σ', h1, h2, h3⟩ := h.lex F
  rw [h1, Option.bind_some]
  exact (hk σ' h2 h3).mono h3

theorem lookup_map (i : Nat) (l : List (Nat × Saved)) : lookup i (l.map fun v => (v.1, Mark.of v.2)) = (lookup i l).map Mark.of := by
  unfold lookup
  rw [List.find?_map, Option.map_map, Option.map_map]
  rfl

theorem lookup_mem {α : Type} {i : Nat} {l : List (Nat × α)} {v : α} (h : lookup i l = some v) : ∃ j, (j, v) ∈ l := by
  unfold lookup at h
  simp only [Option.map_eq_some_iff] at h
  obtain ⟨⟨j, v'⟩, h1, rfl⟩ := h
  exact ⟨j, List.mem_of_find?_eq_some h1⟩

/-- The simulation. -/
theorem exec_rel (F : Fit D H inp) (P : Nat → Option Stmt) (eofTok : Nat) : ∀ (f : Nat) (s : Stmt) (σ : PState) (st : State), Rel D H inp σ st →
    RelO D H inp σ.lx.str.size (exec P eofTok H U f s σ) (Gen.exec P eofTok (env U inp) f s st) := by
  intro f
  induction f with
  | zero => intro s σ st _; exact trivial
  | succ f ih =>
    intro s σ st h
    show RelO D H inp σ.lx.str.size (step P eofTok H U (exec P eofTok H U f) s σ) (Gen.step P eofTok (env U inp) (Gen.exec P eofTok (env U inp) f) s st)
    generalize hgo : exec P eofTok H U f = go at ih ⊢
    generalize hgo' : Gen.exec P eofTok (env U inp) f = go' at ih ⊢
    clear hgo hgo'
    cases s with
    | skip => exact h.ok _
    | seq a b => exact andThen_rel (ih a σ st h) fun σ' st' h' _ => ih b σ' st' h'
    | test t c =>
      simp only [step, Gen.step]
      have e := h.toks F t
      by_cases ht : inp st.pos = t
      · rw [if_pos (e.2 ht), if_pos (show (env U inp).inp st.pos = t from ht)]; exact h.ok _
      · rw [if_neg (fun hh => ht (e.1 hh)), if_neg (show ¬ (env U inp).inp st.pos = t from ht)]; exact complain_rel h c
    | lex =>
      simp only [step, Gen.step]
      obtain ⟨σ', h1, h2, h3⟩ := h.lex F
      rw [h1]
      exact ⟨rfl, h2, h3⟩
    | call s c =>
      simp only [step, Gen.step]
      cases P s with
      | none => trivial
      | some b => exact returned_rel h c (ih b _ _ h.enter)
    | code n => exact ⟨rfl, { h with user := by rw [h.user]; rfl }, Nat.le_refl _⟩
    | ite t a b =>
      simp only [step, Gen.step, eval_eq F h, h.asked]
      split
      · exact ih a _ _ (h.withAsked _)
      · exact ih b _ _ (h.withAsked _)
    | fail c => exact h.ok _
    | «while» t b =>
      simp only [step, Gen.step, eval_eq F h, h.asked]
      split
      · exact andThen_rel (ih b _ _ (h.withAsked _)) fun σ' st' h' _ => ih _ σ' st' h'
      · exact (h.withAsked _).ok _
    | doWhile b t =>
      refine andThen_rel (ih b σ st h) fun σ' st' h' _ => ?_
      simp only [eval_eq F h', h'.asked]
      split
      · exact ih _ _ _ (h'.withAsked _)
      · exact (h'.withAsked _).ok _
    | save i =>
      refine ⟨rfl, { h with saved := ?_, bound := ?_ }, Nat.le_refl _⟩
      · simp only [List.map_cons, Mark.of, PState.here, h.idx, h.user, h.saved]
        simp
      · intro v hv
        rcases List.mem_cons.1 hv with rfl | hv
        · have := h.good.le
          have := h.idx
          simp only; omega
        · exact h.bound v hv
    | block i =>
      exact ⟨rfl, { h with blocks := by simp only [h.blocks, h.blocked], blocked := rfl }, Nat.le_refl _⟩
    | unblock i =>
      simp only [step, Gen.step, h.blocks]
      cases lookup i st.blocks with
      | none => trivial
      | some b => exact ⟨rfl, { h with blocked := rfl, blocks := by first | exact h.blocks | rfl }, Nat.le_refl _⟩
    | tryc i body after handler =>
      simp only [step, Gen.step]
      have hb := ih body σ st h
      revert hb
      generalize go body σ = x
      generalize go' body st = y
      intro hb
      match x, y, hb with
      | none, none, _ => trivial
      | some (o, σ'), some (o', st'), hr =>
        obtain ⟨e, h1, h2⟩ := hr
        subst e
        cases o with
        | ok => exact (ih after _ _ h1).mono h2
        | failed => exact ⟨rfl, h1, h2⟩
        | goto j =>
          simp only [Option.bind_some]
          split
          · exact (ih handler _ _ h1).mono h2
          · exact ⟨rfl, h1, h2⟩
    | restore i =>
      have hl0 : lookup i σ.saved = (lookup i st.saved).map Mark.of := by rw [h.saved, lookup_map]
      simp only [step, Gen.step, hl0]
      cases lookup i st.saved with
      | none => trivial
      | some v => exact ⟨rfl, { h with user := rfl }, Nat.le_refl _⟩
    | rewind i =>
      have hl0 : lookup i σ.saved = (lookup i st.saved).map Mark.of := by rw [h.saved, lookup_map]
      simp only [step, Gen.step, hl0]
      cases hl : lookup i st.saved with
      | none => trivial
      | some v =>
        obtain ⟨j, hj⟩ := lookup_mem hl
        have hb := h.bound _ hj
        simp only at hb
        have hr : σ.lx.str.rewind (v.pos : Int) = some { σ.lx.str with idx := v.pos } := by
          unfold Stream.rewind
          rw [if_pos (by omega)]
          simp
        obtain ⟨σ', h1, h2, h3, h4, h5, h6⟩ := F.lexes { σ with lx := { σ.lx with str := { σ.lx.str with idx := v.pos } } }
          ⟨by simp only [Stream.size] at hb ⊢; omega, h.good.cont, h.good.tokens⟩
        have e : σ.rewind H (Mark.of v).start = some σ' := by
          unfold PState.rewind
          show (σ.lx.str.rewind (v.pos : Int)).bind _ = _
          rw [hr, Option.bind_some, h1]
        simp only [Option.map_some, Option.bind_some, e]
        refine ⟨rfl, ?_, h5⟩
        rw [h6]
        exact ⟨h2, h3, h4, h.asked, h.blocked, h.errors, h.user, h.recovered, by rw [← h.saved], h.blocks, fun w hw => Nat.lt_of_lt_of_le (h.bound w hw) h5⟩
    | step i =>
      have hl0 : lookup i σ.saved = (lookup i st.saved).map Mark.of := by rw [h.saved, lookup_map]
      simp only [step, Gen.step, hl0]
      cases hl : lookup i st.saved with
      | none => trivial
      | some v =>
        simp only [Option.map_some, Option.bind_some]
        have h' : Rel D H inp { σ with recovered := σ.recovered + 1 } { st with recovered := st.recovered + 1 } := { h with recovered := congrArg (· + 1) h.recovered }
        have e : ((Mark.of v).start = PState.here { σ with recovered := σ.recovered + 1 } ∧ σ.tok ≠ H.kind eofTok) ↔ (v.pos = st.pos ∧ (env U inp).inp st.pos ≠ eofTok) := by
          refine and_congr ?_ (not_congr (h.toks F eofTok))
          simp only [Mark.of, PState.here, h.idx]
          omega
        by_cases hc : v.pos = st.pos ∧ (env U inp).inp st.pos ≠ eofTok
        · rw [if_pos (e.2 hc), if_pos hc]
          obtain ⟨σ', h1, h2, h3⟩ := h'.lex F
          rw [h1]
          exact ⟨rfl, h2, h3⟩
        · rw [if_neg (fun hh => hc (e.1 hh)), if_neg hc]
          exact ⟨rfl, h', Nat.le_refl _⟩
    | skipTo ts =>
      simp only [step, Gen.step, h.any F]
      have e := h.toks F eofTok
      by_cases hc : inp st.pos = eofTok ∨ inp st.pos ∈ ts
      · rw [if_pos (by rcases hc with hc | hc; exacts [Or.inl (e.2 hc), Or.inr (by simpa using hc)]), if_pos (show (env U inp).inp st.pos = eofTok ∨ (env U inp).inp st.pos ∈ ts from hc)]
        exact h.ok _
      · rw [if_neg (by simp only [not_or] at hc ⊢; exact ⟨fun hh => hc.1 (e.1 hh), by simpa using hc.2⟩),
          if_neg (show ¬ ((env U inp).inp st.pos = eofTok ∨ (env U inp).inp st.pos ∈ ts) from hc)]
        exact lex_bind F h fun σ' h1 _ => ih _ σ' _ h1
    | eof =>
      simp only [step, Gen.step]
      have e := h.toks F eofTok
      by_cases ht : inp st.pos = eofTok
      · rw [if_pos (e.2 ht), if_pos (show (env U inp).inp st.pos = eofTok from ht)]; exact h.ok _
      · rw [if_neg (fun hh => ht (e.1 hh)), if_neg (show ¬ (env U inp).inp st.pos = eofTok from ht)]; exact h.ok _
    | opLoop d expect stack =>
      cases expect with
      | true =>
        simp only [step, Gen.step, pick_eq F h, h.asked]
        have h' : ∀ k, Rel D H inp { σ with asked := k } { st with asked := k } := h.withAsked
        show RelO D H inp σ.lx.str.size _ _
        have hp : Gen.pick (env U inp) ((env U inp).inp st.pos) d.after st.asked = Gen.pick (env U inp) (inp st.pos) d.after st.asked := rfl
        rw [hp]
        generalize Gen.pick (env U inp) (inp st.pos) d.after st.asked = v
        obtain ⟨o, k⟩ := v
        cases o with
        | none => exact (h' k).ok _
        | some r =>
          simp only
          cases hk : r.kind with
          | post => exact lex_bind F (h' k) fun σ' h1 _ => ih _ σ' _ h1
          | bin => exact lex_bind F (h' k) fun σ' h1 _ => ih _ σ' _ h1
          | tern =>
            simp only
            cases settle r.prio r.left stack with
            | some ps => exact lex_bind F (h' k) fun σ' h1 _ => ih _ σ' _ h1
            | none =>
              refine lex_bind F (h' k) fun σ' h1 _ => andThen_rel (ih _ σ' _ h1) fun σ2 st2 h2 _ => ?_
              obtain ⟨c1, c2, c3⟩ := closes_rel (U := U) F h2 r
              simp only [c1]
              split
              · exact (lex_bind F c2 fun σ' h1 _ => ih _ σ' _ h1).mono c3
              · exact (c2.ok _).mono c3
          | pre => trivial
          | paren => trivial
      | false =>
        simp only [step, Gen.step, pick_eq F h, h.asked]
        have h' : ∀ k, Rel D H inp { σ with asked := k } { st with asked := k } := h.withAsked
        show RelO D H inp σ.lx.str.size _ _
        have hp : Gen.pick (env U inp) ((env U inp).inp st.pos) d.before st.asked = Gen.pick (env U inp) (inp st.pos) d.before st.asked := rfl
        rw [hp]
        generalize Gen.pick (env U inp) (inp st.pos) d.before st.asked = v
        obtain ⟨o, k⟩ := v
        cases o with
        | none =>
          simp only [eval_eq F h]
          split
          · exact andThen_rel (ih _ _ _ (h.withAsked _)) fun σ' st' h1 _ => ih _ σ' _ h1
          · exact ⟨rfl, { h.withAsked _ with errors := congrArg (· + 1) h.errors }, Nat.le_refl _⟩
        | some r =>
          simp only
          cases hk : r.kind with
          | pre => exact lex_bind F (h' k) fun σ' h1 _ => ih _ σ' _ h1
          | paren =>
            refine lex_bind F (h' k) fun σ' h1 _ => ?_
            revert h1
            generalize hst : State.lex _ = st1
            have hk : st1.asked = k := by rw [← hst]; rfl
            intro h1
            have e1 := eval_eq (U := U) F h1 d.selfTest σ'.asked
            rw [h1.asked, hk] at e1
            dsimp only
            rw [h1.asked, hk, e1]
            split
            · refine andThen_rel (ih _ _ _ (h1.withAsked _)) fun σ2 st2 h2 _ => ?_
              obtain ⟨c1, c2, c3⟩ := closes_rel (U := U) F h2 r
              simp only [c1]
              split
              · exact (lex_bind F c2 fun σ' h1 _ => ih _ σ' _ h1).mono c3
              · exact (c2.ok _).mono c3
            · exact (h1.withAsked _).ok _
          | post => trivial
          | bin => trivial
          | tern => trivial

end Verif.Whole
