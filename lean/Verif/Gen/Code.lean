import Verif.Gen.Lemmas
import Verif.Gen.Spec

/-! # What the code generator emits: numbers of try blocks, and the exits of statements -/

namespace Verif.Gen

open Verif.Grammar

section
variable {K : Ctx} {self : Nat}

/-- The numbers of the try blocks of a statement lie in a range. -/
def Within (k k' : Nat) (s : Stmt) : Prop := ∀ i, s.sets i → k < i ∧ i ≤ k'

theorem Within.mono {a b a' b' s} (h : Within a b s) (ha : a' ≤ a) (hb : b ≤ b') : Within a' b' s := fun i hi =>
  ⟨Nat.lt_of_le_of_lt ha (h i hi).1, Nat.le_trans (h i hi).2 hb⟩

theorem gen_ids (g : Nat) :
    (∀ n c k s k', gen K self g n c k = some (s, k') → k ≤ k' ∧ Within k k' s) ∧
    (∀ ns c k s k', genAlts K self g ns c k = some (s, k') → k ≤ k' ∧ Within k k' s) ∧
    (∀ r i y c k t s k', genRule K self g r i y c k = some (t, s, k') → k ≤ k' ∧ Within k k' s) := by
  induction g with
  | zero =>
    exact ⟨fun _ _ _ _ _ h => by simp [gen] at h, fun _ _ _ _ _ h => by simp [genAlts] at h,
      fun _ _ _ _ _ _ _ _ h => by simp [genRule] at h⟩
  | succ g ih =>
    obtain ⟨ihg, iha, ihr⟩ := ih
    have triv : ∀ {k k' s s'}, (∀ i, ¬ Stmt.sets i s) → some (s, k) = some (s', k') → k ≤ k' ∧ Within k k' s' := by
      intro k k' s s' h e
      simp only [Option.some.injEq, Prod.mk.injEq] at e
      obtain ⟨rfl, rfl⟩ := e
      exact ⟨Nat.le_refl _, fun i hi => absurd hi (h i)⟩
    refine ⟨fun n c k s k' h => ?_, fun ns c k s k' h => ?_, fun r i y c k t s k' h => ?_⟩
    · unfold gen at h
      split at h
      · cases h
      · exact triv (by simp [Stmt.sets]) h
      · exact triv (by simp [Stmt.sets]) h
      · exact triv (by simp [Stmt.sets]) h
      · exact triv (by simp [Stmt.sets]) h
      · simp only [Option.map_eq_some_iff, Prod.mk.injEq] at h
        obtain ⟨⟨b, k1⟩, h1, rfl, rfl⟩ := h
        have := ihg _ _ _ _ _ h1
        exact this
      · simp only [Option.map_eq_some_iff, Prod.mk.injEq] at h
        obtain ⟨⟨b, k1⟩, h1, rfl, rfl⟩ := h
        have := ihg _ _ _ _ _ h1
        exact this
      · exact triv (by simp [Stmt.sets]) h
      · simp only [Option.map_eq_some_iff, Prod.mk.injEq] at h
        obtain ⟨⟨b, k1⟩, h1, rfl, rfl⟩ := h
        obtain ⟨h2, h3⟩ := ihg _ _ _ _ _ h1
        refine ⟨h2, fun i hi => ?_⟩
        rcases hi with hi | hi
        · exact h3 i hi
        · exact hi.elim
      · exact ihg _ _ _ _ _ h
      · exact ihg _ _ _ _ _ h
      · simp only [Option.bind_eq_some_iff] at h
        obtain ⟨a, -, b, -, h⟩ := h
        exact iha _ _ _ _ _ h
      · simp only [Option.bind_eq_some_iff, Option.map_eq_some_iff, Prod.mk.injEq] at h
        obtain ⟨⟨a, k1⟩, h1, ⟨b, k2⟩, h2, rfl, rfl⟩ := h
        obtain ⟨l1, w1⟩ := ihg _ _ _ _ _ h1
        obtain ⟨l2, w2⟩ := ihg _ _ _ _ _ h2
        refine ⟨Nat.le_trans l1 l2, fun i hi => ?_⟩
        rcases hi with hi | hi
        · exact w1.mono (Nat.le_refl _) l2 i hi
        · exact w2.mono l1 (Nat.le_refl _) i hi
      · simp only [Option.map_eq_some_iff, Prod.mk.injEq] at h
        obtain ⟨⟨t, b, k1⟩, h1, rfl, rfl⟩ := h
        obtain ⟨l1, w1⟩ := ihr _ _ _ _ _ _ _ _ h1
        refine ⟨l1, fun i hi => ?_⟩
        rcases hi with hi | hi
        · exact w1 i hi
        · exact hi.elim
      · simp only [Option.map_eq_some_iff, Prod.mk.injEq] at h
        obtain ⟨⟨b, k1⟩, h1, rfl, rfl⟩ := h
        obtain ⟨l1, w1⟩ := ihg _ _ _ _ _ h1
        refine ⟨by dsimp only; omega, fun i hi => ?_⟩
        simp only [Stmt.sets, or_false] at hi
        dsimp only
        rcases hi with hi | hi
        · omega
        · have := w1 i hi; omega
      · simp only [Option.bind_eq_some_iff, Option.map_eq_some_iff, Prod.mk.injEq] at h
        obtain ⟨⟨b, k1⟩, h1, ⟨d, k2⟩, h2, rfl, rfl⟩ := h
        obtain ⟨l1, w1⟩ := ihg _ _ _ _ _ h1
        obtain ⟨l2, w2⟩ := ihg _ _ _ _ _ h2
        refine ⟨by dsimp only; omega, fun i hi => ?_⟩
        simp only [Stmt.sets, false_or] at hi
        dsimp only
        rcases hi with hi | hi | hi | hi
        · omega
        · omega
        · have := w1 i hi; omega
        · have := w2 i hi; omega
      · simp only [Option.map_eq_some_iff, Prod.mk.injEq] at h
        obtain ⟨d, -, rfl, rfl⟩ := h
        exact triv (by simp [Stmt.sets]) rfl
      · exact triv (by simp [Stmt.sets]) h
      · split at h
        · exact triv (by simp [Stmt.sets]) h
        · exact ihg _ _ _ _ _ h
    · cases ns with
      | nil => unfold genAlts at h; exact triv (by simp [Stmt.sets]) h
      | cons n ns =>
        unfold genAlts at h
        simp only [Option.bind_eq_some_iff, Option.map_eq_some_iff, Prod.mk.injEq] at h
        obtain ⟨⟨a, k1⟩, h1, ⟨b, k2⟩, h2, rfl, rfl⟩ := h
        obtain ⟨l1, w1⟩ := ihg _ _ _ _ _ h1
        obtain ⟨l2, w2⟩ := iha _ _ _ _ _ h2
        refine ⟨Nat.le_trans l1 l2, fun i hi => ?_⟩
        rcases hi with hi | hi
        · exact w1.mono (Nat.le_refl _) l2 i hi
        · exact w2.mono l1 (Nat.le_refl _) i hi
    · unfold genRule at h
      simp only [Option.bind_eq_some_iff, Option.map_eq_some_iff, Prod.mk.injEq] at h
      obtain ⟨t', -, ⟨b, k1⟩, h1, -, rfl, rfl⟩ := h
      obtain ⟨l1, w1⟩ := ihg _ _ _ _ _ h1
      refine ⟨l1, fun i hi => ?_⟩
      rcases hi with hi | hi
      · exact hi.elim
      · split at hi
        · rcases hi with hi | hi
          · exact w1 i hi
          · exact hi.elim
        · exact w1 i hi

theorem gen_le {g n c k s k'} (h : gen K self g n c k = some (s, k')) : k ≤ k' := ((gen_ids g).1 _ _ _ _ _ h).1
theorem gen_within {g n c k s k'} (h : gen K self g n c k = some (s, k')) : Within k k' s := ((gen_ids g).1 _ _ _ _ _ h).2

end

/-- All exits of the statement are `return false` or lead to catch `c` (or to the catch of a try block inside). -/
def Stmt.exits (c : Nat) : Stmt → Prop
  | .test _ d => d = c
  | .call _ d => d = c
  | .fail d => d = c
  | .seq a b => a.exits c ∧ b.exits c
  | .ite _ a b => a.exits c ∧ b.exits c
  | .while _ b => b.exits c
  | .doWhile b _ => b.exits c
  | .tryc i a b h => a.exits i ∧ b.exits c ∧ h.exits c
  | _ => True

section
variable {K : Ctx} {self : Nat}

theorem gen_exits_all (g : Nat) :
    (∀ n c k s k', gen K self g n c k = some (s, k') → s.exits c) ∧
    (∀ ns c k s k', genAlts K self g ns c k = some (s, k') → s.exits c) ∧
    (∀ r i y c k t s k', genRule K self g r i y c k = some (t, s, k') → s.exits c) := by
  induction g with
  | zero =>
    exact ⟨fun _ _ _ _ _ h => by simp [gen] at h, fun _ _ _ _ _ h => by simp [genAlts] at h,
      fun _ _ _ _ _ _ _ _ h => by simp [genRule] at h⟩
  | succ g ih =>
    obtain ⟨ihg, iha, ihr⟩ := ih
    have triv : ∀ {k k' : Nat} {c s s'}, Stmt.exits c s → some (s, k) = some (s', k') → Stmt.exits c s' := by
      intro k k' c s s' h e
      simp only [Option.some.injEq, Prod.mk.injEq] at e
      obtain ⟨rfl, rfl⟩ := e
      exact h
    refine ⟨fun n c k s k' h => ?_, fun ns c k s k' h => ?_, fun r i y c k t s k' h => ?_⟩
    · unfold gen at h
      split at h
      · cases h
      · exact triv (by simp [Stmt.exits]) h
      · exact triv (by simp [Stmt.exits]) h
      · exact triv (by simp [Stmt.exits]) h
      · exact triv (by simp [Stmt.exits]) h
      · simp only [Option.map_eq_some_iff, Prod.mk.injEq] at h
        obtain ⟨⟨b, k1⟩, h1, rfl, rfl⟩ := h
        have := ihg _ _ _ _ _ h1
        exact this
      · simp only [Option.map_eq_some_iff, Prod.mk.injEq] at h
        obtain ⟨⟨b, k1⟩, h1, rfl, rfl⟩ := h
        have := ihg _ _ _ _ _ h1
        exact this
      · exact triv (by simp [Stmt.exits]) h
      · simp only [Option.map_eq_some_iff, Prod.mk.injEq] at h
        obtain ⟨⟨b, k1⟩, h1, rfl, rfl⟩ := h
        exact ⟨ihg _ _ _ _ _ h1, trivial⟩
      · exact ihg _ _ _ _ _ h
      · exact ihg _ _ _ _ _ h
      · simp only [Option.bind_eq_some_iff] at h
        obtain ⟨a, -, b, -, h⟩ := h
        exact iha _ _ _ _ _ h
      · simp only [Option.bind_eq_some_iff, Option.map_eq_some_iff, Prod.mk.injEq] at h
        obtain ⟨⟨a, k1⟩, h1, ⟨b, k2⟩, h2, rfl, rfl⟩ := h
        exact ⟨ihg _ _ _ _ _ h1, ihg _ _ _ _ _ h2⟩
      · simp only [Option.map_eq_some_iff, Prod.mk.injEq] at h
        obtain ⟨⟨t, b, k1⟩, h1, rfl, rfl⟩ := h
        exact ⟨ihr _ _ _ _ _ _ _ _ h1, trivial⟩
      · simp only [Option.map_eq_some_iff, Prod.mk.injEq] at h
        obtain ⟨⟨b, k1⟩, h1, rfl, rfl⟩ := h
        exact ⟨trivial, ihg _ _ _ _ _ h1, trivial, trivial, trivial, trivial⟩
      · simp only [Option.bind_eq_some_iff, Option.map_eq_some_iff, Prod.mk.injEq] at h
        obtain ⟨⟨b, k1⟩, h1, ⟨d, k2⟩, h2, rfl, rfl⟩ := h
        exact ⟨trivial, trivial, ihg _ _ _ _ _ h1, trivial, trivial, trivial, trivial, ihg _ _ _ _ _ h2⟩
      · simp only [Option.map_eq_some_iff, Prod.mk.injEq] at h
        obtain ⟨d, -, rfl, rfl⟩ := h
        trivial
      · exact triv (by simp [Stmt.exits]) h
      · split at h
        · exact triv (by simp [Stmt.exits]) h
        · exact ihg _ _ _ _ _ h
    · cases ns with
      | nil => unfold genAlts at h; exact triv (by simp [Stmt.exits]) h
      | cons n ns =>
        unfold genAlts at h
        simp only [Option.bind_eq_some_iff, Option.map_eq_some_iff, Prod.mk.injEq] at h
        obtain ⟨⟨a, k1⟩, h1, ⟨b, k2⟩, h2, rfl, rfl⟩ := h
        exact ⟨ihg _ _ _ _ _ h1, iha _ _ _ _ _ h2⟩
    · unfold genRule at h
      simp only [Option.bind_eq_some_iff, Option.map_eq_some_iff, Prod.mk.injEq] at h
      obtain ⟨t', -, ⟨b, k1⟩, h1, -, rfl, rfl⟩ := h
      refine ⟨trivial, ?_⟩
      split
      · exact ⟨ihg _ _ _ _ _ h1, trivial⟩
      · exact ihg _ _ _ _ _ h1

theorem gen_exits {g n c k s k'} (h : gen K self g n c k = some (s, k')) : s.exits c := (gen_exits_all g).1 _ _ _ _ _ h

end

/-- The outcomes allowed by `exits c`. -/
def Leaves (c : Nat) (o : Out) : Prop := o = .ok ∨ o = .failed ∨ (c ≠ 0 ∧ o = .goto c)

theorem leave_leaves (c : Nat) : Leaves c (leave c) := by
  unfold leave Leaves; split
  · exact .inr (.inl rfl)
  · rename_i h; exact .inr (.inr ⟨h, rfl⟩)

theorem returned_leaves {c st x} : Leaves c (returned c st x).1 := by
  rcases x with ⟨o, st'⟩
  cases o
  · exact .inl rfl
  · exact leave_leaves c
  · exact leave_leaves c

theorem opLoop_leaves {P eofTok E} : ∀ f d e l st o st', exec P eofTok E f (.opLoop d e l) st = some (o, st') → Leaves 0 o
  | 0, _, _, _, _, _, _, h => nomatch h
  | f + 1, d, e, l, st, o, st', h => by
    have ih := fun {e l st o st'} => opLoop_leaves (P := P) (eofTok := eofTok) (E := E) f d e l st o st'
    have call : ∀ {s st o st'}, exec P eofTok E f (.call s 0) st = some (o, st') → Leaves 0 o := by
      intro s st o st' h
      cases f with
      | zero => cases h
      | succ f =>
        simp only [exec, step, Option.bind_eq_some_iff, Option.map_eq_some_iff] at h
        obtain ⟨b, h1, x, h2, h3⟩ := h
        rw [← show (returned 0 st x).1 = o from congrArg Prod.fst h3]; exact returned_leaves
    have failed : ∀ {st o} {st' : State}, some (Out.failed, st) = some (o, st') → Leaves 0 o := by
      intro st o st' h
      simp only [Option.some.injEq, Prod.mk.injEq] at h
      exact .inr (.inl h.1.symm)
    unfold exec at h
    cases e
    · simp only [step] at h
      split at h
      · split at h
        · exact ih h
        · split at h
          · rcases andThen_some h with ⟨st1, h1, h2⟩ | ⟨-, h1⟩
            · split at h2
              · exact ih h2
              · exact failed h2
            · exact call h1
          · exact failed h
        · cases h
      · split at h
        · rcases andThen_some h with ⟨st1, h1, h2⟩ | ⟨-, h1⟩
          · exact ih h2
          · exact call h1
        · exact failed h
    · simp only [step] at h
      split at h
      · simp only [Option.some.injEq, Prod.mk.injEq] at h; exact .inl h.1.symm
      · split at h
        · exact ih h
        · exact ih h
        · split at h
          · exact ih h
          · rcases andThen_some h with ⟨st1, h1, h2⟩ | ⟨-, h1⟩
            · split at h2
              · exact ih h2
              · exact failed h2
            · exact call h1
        · cases h

/-- Statements leave only as their exits say. -/
theorem exec_leaves {P eofTok E} : ∀ f c s st o st', Stmt.exits c s → exec P eofTok E f s st = some (o, st') → Leaves c o
  | 0, _, _, _, _, _, _, h => nomatch h
  | f + 1, c, s, st, o, st', hs, h => by
    have ih := fun {c s st o st'} => exec_leaves (P := P) (eofTok := eofTok) (E := E) f c s st o st'
    have done : ∀ {st o} {st' : State}, some (Out.ok, st) = some (o, st') → Leaves c o := by
      intro st o st' h
      simp only [Option.some.injEq, Prod.mk.injEq] at h
      exact .inl h.1.symm
    have h0 := h
    unfold exec at h
    cases s with
    | skip => exact done h
    | lex => exact done h
    | code n => exact done h
    | save i => exact done h
    | block i => exact done h
    | fail d =>
      simp only [step, Option.some.injEq, Prod.mk.injEq] at h
      rw [← h.1, show d = c from hs]; exact leave_leaves _
    | seq a b =>
      rcases andThen_some h with ⟨st1, h1, h2⟩ | ⟨-, h1⟩
      · exact ih hs.2 h2
      · exact ih hs.1 h1
    | test t d =>
      simp only [step] at h
      split at h
      · exact done h
      · have e := congrArg Prod.fst (Option.some.inj h)
        rw [← show (complain d st).1 = o from e, show d = c from hs]; exact leave_leaves c
    | call s d =>
      simp only [step, Option.bind_eq_some_iff, Option.map_eq_some_iff] at h
      obtain ⟨b, h1, x, h2, h3⟩ := h
      rw [← show (returned d st x).1 = o from congrArg Prod.fst h3, show d = c from hs]; exact returned_leaves
    | ite t a b =>
      simp only [step] at h
      split at h
      · exact ih hs.1 h
      · exact ih hs.2 h
    | «while» t b =>
      simp only [step] at h
      split at h
      · rcases andThen_some h with ⟨st1, h1, h2⟩ | ⟨-, h1⟩
        · exact ih (s := .while t b) hs h2
        · exact ih (s := b) hs h1
      · exact done h
    | doWhile b t =>
      rcases andThen_some h with ⟨st1, h1, h2⟩ | ⟨-, h1⟩
      · dsimp only at h2
        split at h2
        · exact ih (s := .doWhile b t) hs h2
        · exact done h2
      · exact ih (s := b) hs h1
    | unblock j =>
      simp only [step, Option.map_eq_some_iff, Prod.mk.injEq] at h
      obtain ⟨b, -, h, -⟩ := h; exact .inl h.symm
    | restore j =>
      simp only [step, Option.map_eq_some_iff, Prod.mk.injEq] at h
      obtain ⟨b, -, h, -⟩ := h; exact .inl h.symm
    | rewind j =>
      simp only [step, Option.map_eq_some_iff, Prod.mk.injEq] at h
      obtain ⟨b, -, h, -⟩ := h; exact .inl h.symm
    | step j =>
      simp only [step, Option.map_eq_some_iff, Prod.mk.injEq] at h
      obtain ⟨b, -, h, -⟩ := h; exact .inl h.symm
    | tryc j body after handler =>
      simp only [step, Option.bind_eq_some_iff] at h
      obtain ⟨⟨o1, st1⟩, h1, h2⟩ := h
      have hl := ih hs.1 h1
      cases o1 with
      | ok => exact ih hs.2.1 h2
      | failed => simp only [Option.some.injEq, Prod.mk.injEq] at h2; exact .inr (.inl h2.1.symm)
      | goto k =>
        dsimp only at h2
        split at h2
        · exact ih hs.2.2 h2
        · rename_i hk
          rcases hl with hl | hl | hl
          · cases hl
          · cases hl
          · exact absurd (Out.goto.inj hl.2) hk
    | skipTo ts =>
      simp only [step] at h
      split at h
      · exact done h
      · exact ih (s := .skipTo ts) hs h
    | eof =>
      simp only [step] at h
      split at h
      · exact done h
      · simp only [Option.some.injEq, Prod.mk.injEq] at h; exact .inr (.inl h.1.symm)
    | opLoop d e l =>
      rcases opLoop_leaves _ _ _ _ _ _ _ h0 with h | h | ⟨h, -⟩
      · exact .inl h
      · exact .inr (.inl h)
      · exact absurd rfl h

end Verif.Gen
