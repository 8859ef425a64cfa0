import Verif.Gen.Code
import Verif.Gen.Props

/-!
# Grammars without try/recover do not recover; parse functions of start symbols stop before the end of the input
-/

namespace Verif.Gen

open Verif.Grammar

/-- The statement contains the step of a recovery. -/
def Stmt.steps : Stmt → Prop
  | .step _ => True
  | .seq a b => a.steps ∨ b.steps
  | .ite _ a b => a.steps ∨ b.steps
  | .while _ b => b.steps
  | .doWhile b _ => b.steps
  | .tryc _ a b c => a.steps ∨ b.steps ∨ c.steps
  | _ => False

section
variable {K : Ctx} {self : Nat}

theorem gen_steps (hn : ∀ n l, K.W.node n ≠ some (.tryc l none)) (g : Nat) :
    (∀ n c k s k', gen K self g n c k = some (s, k') → ¬ s.steps) ∧
    (∀ ns c k s k', genAlts K self g ns c k = some (s, k') → ¬ s.steps) ∧
    (∀ r i y c k t s k', genRule K self g r i y c k = some (t, s, k') → ¬ s.steps) := by
  induction g with
  | zero =>
    exact ⟨fun _ _ _ _ _ h => by simp [gen] at h, fun _ _ _ _ _ h => by simp [genAlts] at h,
      fun _ _ _ _ _ _ _ _ h => by simp [genRule] at h⟩
  | succ g ih =>
    obtain ⟨ihg, iha, ihr⟩ := ih
    have triv : ∀ {k k' : Nat} {s s' : Stmt}, ¬ s.steps → some (s, k) = some (s', k') → ¬ s'.steps := by
      intro k k' s s' h e
      simp only [Option.some.injEq, Prod.mk.injEq] at e
      rwa [← e.1]
    refine ⟨fun n c k s k' h => ?_, fun ns c k s k' h => ?_, fun r i y c k t s k' h => ?_⟩
    · unfold gen at h
      split at h
      · cases h
      · exact triv (by simp [Stmt.steps]) h
      · exact triv (by simp [Stmt.steps]) h
      · exact triv (by simp [Stmt.steps]) h
      · exact triv (by simp [Stmt.steps]) h
      · simp only [Option.map_eq_some_iff, Prod.mk.injEq] at h
        obtain ⟨⟨b, k1⟩, h1, rfl, rfl⟩ := h
        have := ihg _ _ _ _ _ h1
        exact this
      · simp only [Option.map_eq_some_iff, Prod.mk.injEq] at h
        obtain ⟨⟨b, k1⟩, h1, rfl, rfl⟩ := h
        have := ihg _ _ _ _ _ h1
        exact this
      · exact triv (by simp [Stmt.steps]) h
      · simp only [Option.map_eq_some_iff, Prod.mk.injEq] at h
        obtain ⟨⟨b, k1⟩, h1, rfl, rfl⟩ := h
        have := ihg _ _ _ _ _ h1
        simpa [Stmt.steps] using this
      · exact ihg _ _ _ _ _ h
      · exact ihg _ _ _ _ _ h
      · simp only [Option.bind_eq_some_iff] at h
        obtain ⟨a, -, b, -, h⟩ := h
        exact iha _ _ _ _ _ h
      · simp only [Option.bind_eq_some_iff, Option.map_eq_some_iff, Prod.mk.injEq] at h
        obtain ⟨⟨a, k1⟩, h1, ⟨b, k2⟩, h2, rfl, rfl⟩ := h
        exact not_or.2 ⟨ihg _ _ _ _ _ h1, ihg _ _ _ _ _ h2⟩
      · simp only [Option.map_eq_some_iff, Prod.mk.injEq] at h
        obtain ⟨⟨t, b, k1⟩, h1, rfl, rfl⟩ := h
        exact not_or.2 ⟨ihr _ _ _ _ _ _ _ _ h1, by simp [Stmt.steps]⟩
      · next hx => exact absurd hx (hn _ _)
      · simp only [Option.bind_eq_some_iff, Option.map_eq_some_iff, Prod.mk.injEq] at h
        obtain ⟨⟨b, k1⟩, h1, ⟨d, k2⟩, h2, rfl, rfl⟩ := h
        have a1 := ihg _ _ _ _ _ h1
        have a2 := ihg _ _ _ _ _ h2
        simp [Stmt.steps, a1, a2]
      · simp only [Option.map_eq_some_iff, Prod.mk.injEq] at h
        obtain ⟨d, -, rfl, rfl⟩ := h
        simp [Stmt.steps]
      · exact triv (by simp [Stmt.steps]) h
      · split at h
        · exact triv (by simp [Stmt.steps]) h
        · exact ihg _ _ _ _ _ h
    · cases ns with
      | nil => unfold genAlts at h; exact triv (by simp [Stmt.steps]) h
      | cons n ns =>
        unfold genAlts at h
        simp only [Option.bind_eq_some_iff, Option.map_eq_some_iff, Prod.mk.injEq] at h
        obtain ⟨⟨a, k1⟩, h1, ⟨b, k2⟩, h2, rfl, rfl⟩ := h
        exact not_or.2 ⟨ihg _ _ _ _ _ h1, iha _ _ _ _ _ h2⟩
    · unfold genRule at h
      simp only [Option.bind_eq_some_iff, Option.map_eq_some_iff, Prod.mk.injEq] at h
      obtain ⟨t', -, ⟨b, k1⟩, h1, -, rfl, rfl⟩ := h
      have := ihg _ _ _ _ _ h1
      split <;> simpa [Stmt.steps] using this

theorem genRules_steps (hn : ∀ n l, K.W.node n ≠ some (.tryc l none)) {fuel : Nat} : ∀ (rs : List Nat) (k : Nat) (b : Stmt) (k' : Nat),
    genRules K self fuel rs k = some (b, k') → ¬ b.steps
  | [], k, b, k', h => by
    simp only [genRules, Option.some.injEq, Prod.mk.injEq] at h
    rw [← h.1]; simp [Stmt.steps]
  | r :: rs, k, b, k', h => by
    unfold genRules at h
    split at h
    · simp only [Option.bind_eq_some_iff, Option.map_eq_some_iff, Prod.mk.injEq] at h
      obtain ⟨⟨t, a, k1⟩, h1, ⟨d, k2⟩, h2, rfl, rfl⟩ := h
      exact not_or.2 ⟨(gen_steps hn _).2.2 _ _ _ _ _ _ _ _ h1, genRules_steps hn rs _ _ _ h2⟩
    · cases h

theorem inv_noStep {P : Nat → Option Stmt} (hP : ∀ s b, P s = some b → ¬ b.steps) : Inv P (fun st st' => st'.recovered = st.recovered) (fun s => ¬ s.steps) where
  refl _ := rfl
  trans h h' := h'.trans h
  asked _ _ := rfl
  lex _ := rfl
  user _ _ := rfl
  error _ _ := rfl
  save _ _ _ _ := rfl
  block _ _ _ := rfl
  unblock _ _ _ _ _ := rfl
  rewind _ _ := rfl
  recovered _ _ h := absurd trivial h
  back _ _ _ _ _ _ hb h := h (hP _ _ hb)
  seq h := not_or.mp h
  ite h := not_or.mp h
  loop h := h
  loop' h := h
  tryc h := ⟨fun x => h (.inl x), fun x => h (.inr (.inl x)), fun x => h (.inr (.inr x))⟩
  op _ := ⟨fun _ _ => by simp [Stmt.steps], by simp [Stmt.steps], by simp [Stmt.steps]⟩

/-- Without try/recover there is no recovery. -/
theorem parse_recovered (hn : ∀ n l, K.W.node n ≠ some (.tryc l none)) {E : Env} {fuel f s : Nat} {st st' : State} {o : Out} (h : parse K fuel E f s st = some (o, st')) :
    st'.recovered = st.recovered := by
  have hP : ∀ s b, parseFun K fuel s = some b → ¬ b.steps := by
    intro s b hb
    simp only [parseFun, Option.map_eq_some_iff] at hb
    obtain ⟨⟨b', k'⟩, hb, rfl⟩ := hb
    exact genRules_steps hn _ _ _ _ hb
  unfold parse at h
  split at h
  · cases h
  · next b hb => exact (inv_noStep hP).exec f b st.enter o st' (hP s b hb) h

theorem rules_eof {P : Nat → Option Stmt} {eofTok : Nat} {E : Env} {fuel : Nat} {s : Nat} (hs : s ∈ K.W.start) : ∀ (rs : List Nat) (k : Nat) (b : Stmt) (k' : Nat),
    (∀ r ∈ rs, ∃ i, K.W.node r = some (.evolve i s)) → genRules K self fuel rs k = some (b, k') → ∀ f st st', exec P eofTok E f b st = some (.ok, st') → E.inp st'.pos = eofTok := by
  intro rs
  induction rs with
  | nil =>
    intro k b k' _ h f st st' hx
    simp only [genRules, Option.some.injEq, Prod.mk.injEq] at h
    rw [← h.1] at hx
    cases f with
    | zero => simp [exec] at hx
    | succ f => simp [exec, step, leave] at hx
  | cons r rs ih =>
    intro k b k' hr h f st st' hx
    obtain ⟨i, hi⟩ := hr r List.mem_cons_self
    unfold genRules at h
    rw [hi] at h
    simp only [Option.bind_eq_some_iff, Option.map_eq_some_iff, Prod.mk.injEq] at h
    obtain ⟨⟨t, a, k1⟩, h1, ⟨d, k2⟩, h2, rfl, rfl⟩ := h
    cases f with
    | zero => simp [exec] at hx
    | succ f =>
      simp only [exec, step] at hx
      split at hx
      · cases fuel with
        | zero => simp [genRule] at h1
        | succ fuel =>
          simp only [genRule, if_pos hs, Option.bind_eq_some_iff, Option.map_eq_some_iff, Prod.mk.injEq] at h1
          obtain ⟨t', -, ⟨b, k3⟩, h3, -, rfl, -⟩ := h1
          cases f with
          | zero => simp [exec] at hx
          | succ f =>
            simp only [exec, step] at hx
            rcases andThen_some hx with ⟨st1, _, h5⟩ | ⟨h5, _⟩
            · cases f with
              | zero => simp [exec] at h5
              | succ f =>
                simp only [exec, step] at h5
                rcases andThen_some h5 with ⟨st2, _, h6⟩ | ⟨h6, _⟩
                · cases f with
                  | zero => simp [exec] at h6
                  | succ f =>
                    simp only [exec, step] at h6
                    split at h6
                    · next e =>
                      simp only [Option.some.injEq, Prod.mk.injEq, true_and] at h6
                      rw [← h6]; exact e
                    · simp at h6
                · exact absurd rfl h6
            · exact absurd rfl h5
      · exact ih _ _ _ (fun r hr' => hr r (List.mem_cons_of_mem _ hr')) h2 f _ _ hx

/-- What the parse function of a start symbol accepts is followed by the end of the input. -/
theorem parse_eof {E : Env} {fuel f s : Nat} {st st' : State} (hs : s ∈ K.W.start) (h : parse K fuel E f s st = some (.ok, st')) : E.inp st'.pos = K.eofTok := by
  obtain ⟨b, k', hb, hx⟩ := parse_runs h
  refine rules_eof hs _ _ _ _ (fun r hr => ?_) hb f _ _ hx
  simp only [rulesOf, List.mem_reverse, List.mem_filter] at hr
  obtain ⟨_, hr⟩ := hr
  split at hr
  · next i s' e => exact ⟨i, by rw [e, of_decide_eq_true hr]⟩
  · cases hr

end

end Verif.Gen
