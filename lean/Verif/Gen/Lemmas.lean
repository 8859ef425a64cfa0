import Verif.Gen.Model

/-! # Lemmas on running generated parsers: fuel, local variables, recoveries -/

namespace Verif.Gen

open Verif.Grammar

/-- `go'` gives all results `go` gives. -/
def Ext (go go' : Stmt → State → Option (Out × State)) : Prop := ∀ s st r, go s st = some r → go' s st = some r

theorem andThen_some {r k o st'} (h : andThen r k = some (o, st')) :
    (∃ st1, r = some (.ok, st1) ∧ k st1 = some (o, st')) ∨ (o ≠ .ok ∧ r = some (o, st')) := by
  unfold andThen at h
  split at h
  · exact .inl ⟨_, rfl, h⟩
  · rename_i hr
    refine .inr ⟨?_, h⟩
    rintro rfl
    exact hr _ h

theorem andThen_ok {r k st'} (h : andThen r k = some (.ok, st')) : ∃ st1, r = some (.ok, st1) ∧ k st1 = some (.ok, st') := by
  rcases andThen_some h with h | ⟨h, -⟩
  · exact h
  · exact absurd rfl h

theorem andThen_ext {r r' k k' x} (hr : ∀ x, r = some x → r' = some x) (hk : ∀ st x, k st = some x → k' st = some x)
    (h : andThen r k = some x) : andThen r' k' = some x := by
  rcases x with ⟨o, st'⟩
  rcases andThen_some h with ⟨st1, h1, h2⟩ | ⟨ho, h1⟩
  · rw [hr _ h1]; exact hk _ _ h2
  · rw [hr _ h1]
    unfold andThen
    split
    · rename_i heq; simp only [Option.some.injEq, Prod.mk.injEq] at heq; exact absurd heq.1 ho
    · rfl

theorem step_ext {P eofTok E go go'} (hx : Ext go go') {s st r} (h : step P eofTok E go s st = some r) :
    step P eofTok E go' s st = some r := by
  cases s with
  | seq a b => exact andThen_ext (hx _ _) (hx _) h
  | call s c =>
    simp only [step, Option.bind_eq_some_iff, Option.map_eq_some_iff] at h ⊢
    obtain ⟨b, h1, x, h2, h3⟩ := h
    exact ⟨b, h1, x, hx _ _ _ h2, h3⟩
  | ite t a b =>
    simp only [step] at h ⊢
    split at h <;> rename_i hc
    · rw [if_pos hc]; exact hx _ _ _ h
    · rw [if_neg hc]; exact hx _ _ _ h
  | «while» t b =>
    simp only [step] at h ⊢
    split at h <;> rename_i hc
    · rw [if_pos hc]; exact andThen_ext (hx _ _) (hx _) h
    · rw [if_neg hc]; exact h
  | doWhile b t =>
    simp only [step] at h ⊢
    refine andThen_ext (hx _ _) (fun st x h => ?_) h
    split at h <;> rename_i hc
    · rw [if_pos hc]; exact hx _ _ _ h
    · rw [if_neg hc]; exact h
  | tryc i body after handler =>
    simp only [step, Option.bind_eq_some_iff] at h ⊢
    obtain ⟨x, h1, h2⟩ := h
    refine ⟨x, hx _ _ _ h1, ?_⟩
    split at h2
    · exact hx _ _ _ h2
    · split at h2 <;> rename_i hc
      · rw [if_pos hc]; exact hx _ _ _ h2
      · rw [if_neg hc]; exact h2
    · exact h2
  | skipTo ts =>
    simp only [step] at h ⊢
    split at h <;> rename_i hc
    · rw [if_pos hc]; exact h
    · rw [if_neg hc]; exact hx _ _ _ h
  | opLoop d e stack =>
    cases e
    · simp only [step] at h ⊢
      split at h
      · rename_i r hr
        split at h
        · exact hx _ _ _ h
        · split at h <;> rename_i hc
          · rw [if_pos hc]
            refine andThen_ext (hx _ _) (fun st x h => ?_) h
            split at h <;> rename_i hc
            · rw [if_pos hc]; exact hx _ _ _ h
            · rw [if_neg hc]; exact h
          · rw [if_neg hc]; exact h
        · exact h
      · split at h <;> rename_i hc
        · rw [if_pos hc]; exact andThen_ext (hx _ _) (hx _) h
        · rw [if_neg hc]; exact h
    · simp only [step] at h ⊢
      split at h
      · exact h
      · split at h
        · exact hx _ _ _ h
        · exact hx _ _ _ h
        · split at h
          · exact hx _ _ _ h
          · refine andThen_ext (hx _ _) (fun st x h => ?_) h
            split at h <;> rename_i hc
            · rw [if_pos hc]; exact hx _ _ _ h
            · rw [if_neg hc]; exact h
        · exact h
  | _ => exact h

theorem exec_succ {P eofTok E} : ∀ f, Ext (exec P eofTok E f) (exec P eofTok E (f + 1))
  | 0 => fun _ _ _ h => nomatch h
  | f + 1 => fun _ _ _ h => step_ext (exec_succ f) h

theorem exec_mono {P eofTok E f g s st r} (hfg : f ≤ g) (h : exec P eofTok E f s st = some r) : exec P eofTok E g s st = some r := by
  induction hfg with
  | refl => exact h
  | step _ ih => exact exec_succ _ _ _ _ ih

/-- A relation between states before and after that every statement of a class respects. -/
structure Inv (P : Nat → Option Stmt) (R : State → State → Prop) (A : Stmt → Prop) : Prop where
  refl : ∀ st, R st st
  trans : ∀ {a b c}, R a b → R b c → R a c
  asked : ∀ st k, R st { st with asked := k }
  lex : ∀ st : State, R st st.lex
  user : ∀ st u, R st { st with user := u }
  error : ∀ st : State, (st.blocked = true → ∃ d e l, A (.opLoop d e l)) → R st { st with errors := st.errors + 1 }
  save : ∀ st i v, A (.save i) → R st { st with saved := (i, v) :: st.saved }
  block : ∀ st i, A (.block i) → R st { st with blocks := (i, st.blocked) :: st.blocks, blocked := true }
  unblock : ∀ st i b, A (.unblock i) → lookup i st.blocks = some b → R st { st with blocked := b }
  rewind : ∀ st p, R st { st with pos := p }
  recovered : ∀ (st : State) i, A (.step i) → R st { st with recovered := st.recovered + 1 }
  back : ∀ st st1 : State, ∀ s c b, A (.call s c) → P s = some b → (A b → R st.enter st1) → R st (st1.back st)
  seq : ∀ {a b}, A (.seq a b) → A a ∧ A b
  ite : ∀ {t a b}, A (.ite t a b) → A a ∧ A b
  loop : ∀ {t b}, A (.while t b) → A b
  loop' : ∀ {t b}, A (.doWhile b t) → A b
  tryc : ∀ {i a b c}, A (.tryc i a b c) → A a ∧ A b ∧ A c
  op : ∀ {d e l}, A (.opLoop d e l) → (∀ e l, A (.opLoop d e l)) ∧ A (.call d.self 0) ∧ A (.call d.base 0)

section
variable {P : Nat → Option Stmt} {R : State → State → Prop} {A : Stmt → Prop}

theorem Inv.complain (I : Inv P R A) {c st} : R st (complain c st).2 := by
  unfold Gen.complain; dsimp only; split
  · rename_i h
    exact I.error _ fun hb => absurd hb h.2
  · exact I.refl _

theorem Inv.closes (I : Inv P R A) {E r st} : R st (closes E r st).2 := by
  unfold Gen.closes; split
  · split
    · exact I.asked _ _
    · exact I.refl _
  · exact I.refl _

theorem Inv.returned (I : Inv P R A) {c st x s d b} (ha : A (.call s d)) (hb : P s = some b) (h : A b → R st.enter x.2) :
    R st (returned c st x).2 := by
  rcases x with ⟨o, st'⟩
  have := I.back _ _ _ _ _ ha hb h
  cases o
  · exact this
  · exact I.trans this I.complain
  · exact I.trans this I.complain

theorem Inv.step (I : Inv P R A) {eofTok E go} (hgo : ∀ s st o st', A s → go s st = some (o, st') → R st st')
    {s st o st'} (hs : A s) (h : step P eofTok E go s st = some (o, st')) : R st st' := by
  have hgo' : ∀ {s st o st'} {st0 : State}, A s → go s st = some (o, st') → R st0 st → R st0 st' :=
    fun hs h h0 => I.trans h0 (hgo _ _ _ _ hs h)
  cases s with
  | skip => simp only [Gen.step, Option.some.injEq, Prod.mk.injEq] at h; rw [← h.2]; exact I.refl _
  | lex => simp only [Gen.step, Option.some.injEq, Prod.mk.injEq] at h; rw [← h.2]; exact I.lex _
  | code n => simp only [Gen.step, Option.some.injEq, Prod.mk.injEq] at h; rw [← h.2]; exact I.user _ _
  | fail c => simp only [Gen.step, Option.some.injEq, Prod.mk.injEq] at h; rw [← h.2]; exact I.refl _
  | seq a b =>
    have hp := I.seq hs
    rcases andThen_some h with ⟨st1, h1, h2⟩ | ⟨-, h1⟩
    · exact hgo' hp.2 h2 (hgo _ _ _ _ hp.1 h1)
    · exact hgo _ _ _ _ hp.1 h1
  | test t c =>
    simp only [Gen.step] at h
    split at h
    · simp only [Option.some.injEq, Prod.mk.injEq] at h; rw [← h.2]; exact I.refl _
    · have e := congrArg Prod.snd (Option.some.inj h)
      rw [← show (Gen.complain c st).2 = st' from e]; exact I.complain
  | call s c =>
    simp only [Gen.step, Option.bind_eq_some_iff, Option.map_eq_some_iff] at h
    obtain ⟨b, h1, x, h2, h3⟩ := h
    rw [← show (Gen.returned c st x).2 = st' from congrArg Prod.snd h3]
    exact I.returned hs h1 fun hb => hgo _ _ _ _ hb h2
  | ite t a b =>
    have hp := I.ite hs
    simp only [Gen.step] at h
    split at h
    · exact hgo' hp.1 h (I.asked _ _)
    · exact hgo' hp.2 h (I.asked _ _)
  | «while» t b =>
    simp only [Gen.step] at h
    split at h
    · rcases andThen_some h with ⟨st1, h1, h2⟩ | ⟨-, h1⟩
      · exact hgo' hs h2 (hgo' (I.loop hs) h1 (I.asked _ _))
      · exact hgo' (I.loop hs) h1 (I.asked _ _)
    · simp only [Option.some.injEq, Prod.mk.injEq] at h; rw [← h.2]; exact I.asked _ _
  | doWhile b t =>
    rcases andThen_some h with ⟨st1, h1, h2⟩ | ⟨-, h1⟩
    · refine I.trans (hgo _ _ _ _ (I.loop' hs) h1) ?_
      dsimp only at h2
      split at h2
      · exact hgo' hs h2 (I.asked _ _)
      · simp only [Option.some.injEq, Prod.mk.injEq] at h2; rw [← h2.2]; exact I.asked _ _
    · exact hgo _ _ _ _ (I.loop' hs) h1
  | save j =>
    simp only [Gen.step, Option.some.injEq, Prod.mk.injEq] at h; rw [← h.2]
    exact I.save _ _ _ hs
  | block j =>
    simp only [Gen.step, Option.some.injEq, Prod.mk.injEq] at h; rw [← h.2]
    exact I.block _ _ hs
  | unblock j =>
    simp only [Gen.step, Option.map_eq_some_iff, Prod.mk.injEq] at h
    obtain ⟨b, hb, -, h⟩ := h; rw [← h]; exact I.unblock _ _ _ hs hb
  | restore j =>
    simp only [Gen.step, Option.map_eq_some_iff, Prod.mk.injEq] at h
    obtain ⟨b, -, -, h⟩ := h; rw [← h]; exact I.user _ _
  | rewind j =>
    simp only [Gen.step, Option.map_eq_some_iff, Prod.mk.injEq] at h
    obtain ⟨b, -, -, h⟩ := h; rw [← h]; exact I.rewind _ _
  | step j =>
    simp only [Gen.step, Option.map_eq_some_iff, Prod.mk.injEq] at h
    obtain ⟨b, -, -, h⟩ := h; rw [← h]; split
    · exact I.trans (I.recovered _ _ hs) (I.lex _)
    · exact I.recovered _ _ hs
  | tryc j body after handler =>
    have hp := I.tryc hs
    simp only [Gen.step, Option.bind_eq_some_iff] at h
    obtain ⟨⟨o1, st1⟩, h1, h2⟩ := h
    refine I.trans (hgo _ _ _ _ hp.1 h1) ?_
    cases o1 with
    | ok => exact hgo _ _ _ _ hp.2.1 h2
    | failed => simp only [Option.some.injEq, Prod.mk.injEq] at h2; rw [← h2.2]; exact I.refl _
    | goto k =>
      dsimp only at h2
      split at h2
      · exact hgo _ _ _ _ hp.2.2 h2
      · simp only [Option.some.injEq, Prod.mk.injEq] at h2; rw [← h2.2]; exact I.refl _
  | skipTo ts =>
    simp only [Gen.step] at h
    split at h
    · simp only [Option.some.injEq, Prod.mk.injEq] at h; rw [← h.2]; exact I.refl _
    · exact hgo' hs h (I.lex _)
  | eof =>
    simp only [Gen.step] at h
    split at h <;> (simp only [Option.some.injEq, Prod.mk.injEq] at h; rw [← h.2]; exact I.refl _)
  | opLoop d e stack =>
    obtain ⟨hn, hc, hb⟩ := I.op hs
    cases e
    · simp only [Gen.step] at h
      split at h
      · split at h
        · exact hgo' (hn _ _) h (I.trans (I.asked _ _) (I.lex _))
        · split at h
          · rcases andThen_some h with ⟨st1, h1, h2⟩ | ⟨-, h1⟩
            · refine I.trans (hgo' hc h1 (I.trans (I.trans (I.asked _ _) (I.lex _)) (I.asked _ _))) ?_
              split at h2
              · exact hgo' (hn _ _) h2 (I.trans I.closes (I.lex _))
              · simp only [Option.some.injEq, Prod.mk.injEq] at h2; rw [← h2.2]; exact I.closes
            · exact hgo' hc h1 (I.trans (I.trans (I.asked _ _) (I.lex _)) (I.asked _ _))
          · simp only [Option.some.injEq, Prod.mk.injEq] at h; rw [← h.2]
            exact I.trans (I.trans (I.asked _ _) (I.lex _)) (I.asked _ _)
        · cases h
      · split at h
        · rcases andThen_some h with ⟨st1, h1, h2⟩ | ⟨-, h1⟩
          · exact hgo' (hn _ _) h2 (hgo' hb h1 (I.trans (I.asked _ _) (I.asked _ _)))
          · exact hgo' hb h1 (I.trans (I.asked _ _) (I.asked _ _))
        · simp only [Option.some.injEq, Prod.mk.injEq] at h; rw [← h.2]
          have := I.error { st with asked := (Test.eval E st.pos d.baseTest (pick E (E.inp st.pos) d.before st.asked).snd).snd }
            fun _ => ⟨_, _, _, hs⟩
          exact I.trans (I.asked _ _) this
    · simp only [Gen.step] at h
      split at h
      · simp only [Option.some.injEq, Prod.mk.injEq] at h; rw [← h.2]; exact I.asked _ _
      · split at h
        · exact hgo' (hn _ _) h (I.trans (I.asked _ _) (I.lex _))
        · exact hgo' (hn _ _) h (I.trans (I.asked _ _) (I.lex _))
        · split at h
          · exact hgo' (hn _ _) h (I.trans (I.asked _ _) (I.lex _))
          · rcases andThen_some h with ⟨st1, h1, h2⟩ | ⟨-, h1⟩
            · refine I.trans (hgo' hc h1 (I.trans (I.asked _ _) (I.lex _))) ?_
              split at h2
              · exact hgo' (hn _ _) h2 (I.trans I.closes (I.lex _))
              · simp only [Option.some.injEq, Prod.mk.injEq] at h2; rw [← h2.2]; exact I.closes
            · exact hgo' hc h1 (I.trans (I.asked _ _) (I.lex _))
        · cases h

theorem Inv.exec (I : Inv P R A) {eofTok E} : ∀ f s st o st', A s → exec P eofTok E f s st = some (o, st') → R st st'
  | 0, _, _, _, _, _, h => nomatch h
  | f + 1, _, _, _, _, hs, h => I.step (I.exec f) hs h

end

/-- The statement sets the variables of try block `i`. -/
def Stmt.sets (i : Nat) : Stmt → Prop
  | .save j => j = i
  | .block j => j = i
  | .seq a b => a.sets i ∨ b.sets i
  | .ite _ a b => a.sets i ∨ b.sets i
  | .while _ b => b.sets i
  | .doWhile b _ => b.sets i
  | .tryc _ a b c => a.sets i ∨ b.sets i ∨ c.sets i
  | _ => False

/-- What a run of a statement cannot change: the variables of try blocks it does not set. -/
def Keeps (i : Nat) (st st' : State) : Prop := lookup i st'.saved = lookup i st.saved ∧ lookup i st'.blocks = lookup i st.blocks

theorem lookup_cons_ne {α : Type} {i j : Nat} {x : α} {l} (h : j ≠ i) : lookup i ((j, x) :: l) = lookup i l := by
  simp [lookup, h]

theorem lookup_cons_eq {α : Type} {i : Nat} {x : α} {l} : lookup i ((i, x) :: l) = some x := by
  simp [lookup]

theorem inv_keeps {P i} : Inv P (Keeps i) (fun s => ¬ s.sets i) where
  refl _ := ⟨rfl, rfl⟩
  trans h h' := ⟨h'.1.trans h.1, h'.2.trans h.2⟩
  asked _ _ := ⟨rfl, rfl⟩
  lex _ := ⟨rfl, rfl⟩
  user _ _ := ⟨rfl, rfl⟩
  error _ _ := ⟨rfl, rfl⟩
  save _ _ _ h := ⟨lookup_cons_ne h, rfl⟩
  block _ _ h := ⟨rfl, lookup_cons_ne h⟩
  unblock _ _ _ _ _ := ⟨rfl, rfl⟩
  rewind _ _ := ⟨rfl, rfl⟩
  recovered _ _ _ := ⟨rfl, rfl⟩
  back _ _ _ _ _ _ _ _ := ⟨rfl, rfl⟩
  seq h := not_or.mp h
  ite h := not_or.mp h
  loop h := h
  loop' h := h
  tryc h := ⟨fun x => h (.inl x), fun x => h (.inr (.inl x)), fun x => h (.inr (.inr x))⟩
  op _ := ⟨fun _ _ => by simp [Stmt.sets], by simp [Stmt.sets], by simp [Stmt.sets]⟩

theorem exec_keeps {P eofTok E i f s st o st'} (hs : ¬ Stmt.sets i s) (h : exec P eofTok E f s st = some (o, st')) : Keeps i st st' :=
  inv_keeps.exec f s st o st' hs h

theorem inv_recovered {P} : Inv P (fun st st' => st.recovered ≤ st'.recovered) (fun _ => True) where
  refl _ := Nat.le_refl _
  trans h h' := Nat.le_trans h h'
  asked _ _ := Nat.le_refl _
  lex _ := Nat.le_refl _
  user _ _ := Nat.le_refl _
  error _ _ := Nat.le_refl _
  save _ _ _ _ := Nat.le_refl _
  block _ _ _ := Nat.le_refl _
  unblock _ _ _ _ _ := Nat.le_refl _
  rewind _ _ := Nat.le_refl _
  recovered _ _ _ := Nat.le_succ _
  back _ _ _ _ _ _ _ h := h trivial
  seq _ := ⟨trivial, trivial⟩
  ite _ := ⟨trivial, trivial⟩
  loop _ := trivial
  loop' _ := trivial
  tryc _ := ⟨trivial, trivial, trivial⟩
  op _ := ⟨fun _ _ => trivial, trivial, trivial⟩

/-- Recoveries are only counted up. -/
theorem exec_recovered {P eofTok E f s st o st'} (h : exec P eofTok E f s st = some (o, st')) : st.recovered ≤ st'.recovered :=
  inv_recovered.exec f s st o st' trivial h

end Verif.Gen
