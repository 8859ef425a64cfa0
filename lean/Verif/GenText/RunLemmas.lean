import Verif.GenText.ReadLemmas

/-! # Running: it is determined, and series of statements -/

namespace Verif.GenText

open Verif.Gen (Env)
open Spec

/-- The beginnings of silent statements. -/
def quiet : Option Tok → Bool
  | some (.w .«*») | some .lp | some (.ty _) | some (.sym _ _) | some (.mem _) | some (.w .delete) => true
  | _ => false

theorem silent_head {e : Toks} (h : Silent e) : quiet e.head? = true := by
  cases h with
  | put hx hv n => rcases hx with rfl | rfl <;> rfl
  | add hx hv n => rcases hx with rfl | rfl <;> rfl
  | _ => rfl

theorem silent_effect {e : Toks} (h : Silent e) {st st'} (h' : Effect e st st') : st' = st := by
  have := silent_head h
  cases h' with
  | silent => rfl
  | _ => exact nomatch this

theorem effect_unique {e st a b} (h : Effect e st a) (h' : Effect e st b) : a = b := by
  cases h with
  | silent h => exact (silent_effect h h').symm
  | unblock h1 =>
    cases h' with
    | silent h => exact nomatch silent_head h
    | unblock h2 => cases h1.symm.trans h2; rfl
  | restore h1 =>
    cases h' with
    | silent h => exact nomatch silent_head h
    | restore h2 => cases h1.symm.trans h2; rfl
  | rewind h1 =>
    cases h' with
    | silent h => exact nomatch silent_head h
    | rewind h2 => cases h1.symm.trans h2; rfl
  | _ =>
    cases h' with
    | silent h => exact nomatch silent_head h
    | _ => rfl

variable {E : Env} {F : Nat → Option Tree} {X : Nat → CState → Bool → CState → Prop}

theorem Run.unique (hX : ∀ s st b st' b' st'', X s st b st' → X s st b' st'' → b = b' ∧ st' = st'') {g st r st'} (h : Run E F X g st r st') :
    ∀ {r' st''}, Run E F X g st r' st'' → r = r' ∧ st' = st'' := by
  induction h with
  | const => intro r' st'' h; cases h; exact ⟨rfl, rfl⟩
  | is => intro r' st'' h; cases h; exact ⟨rfl, rfl⟩
  | isNot => intro r' st'' h; cases h; exact ⟨rfl, rfl⟩
  | ask => intro r' st'' h; cases h; exact ⟨rfl, rfl⟩
  | state h => intro r' st'' h; cases h; exact ⟨rfl, rfl⟩
  | same h => intro r' st'' h'; cases h' with | same h' => cases h.symm.trans h'; exact ⟨rfl, rfl⟩
  | loud => intro r' st'' h; cases h; exact ⟨rfl, rfl⟩
  | fails h ih => intro r' st'' h; cases h with | fails h => obtain ⟨e, rfl⟩ := ih h; cases e; exact ⟨rfl, rfl⟩
  | andStop h ih =>
    intro r' st'' h
    cases h with
    | andStop h => obtain ⟨-, rfl⟩ := ih h; exact ⟨rfl, rfl⟩
    | andGo h _ => exact nomatch (ih h).1
  | andGo h h' ih ih' =>
    intro r' st'' h
    cases h with
    | andStop h => exact nomatch (ih h).1
    | andGo h h' => obtain ⟨-, rfl⟩ := ih h; exact ih' h'
  | orStop h ih =>
    intro r' st'' h
    cases h with
    | orStop h => obtain ⟨-, rfl⟩ := ih h; exact ⟨rfl, rfl⟩
    | orGo h _ => exact nomatch (ih h).1
  | orGo h h' ih ih' =>
    intro r' st'' h
    cases h with
    | orStop h => exact nomatch (ih h).1
    | orGo h h' => obtain ⟨-, rfl⟩ := ih h; exact ih' h'
  | call ht h ih =>
    intro r' st'' h
    cases h with
    | call ht' h => cases ht.symm.trans ht'; obtain ⟨e, rfl⟩ := ih h; cases e; exact ⟨rfl, rfl⟩
    | extern ht' h => exact nomatch ht.symm.trans ht'
  | extern ht h =>
    intro r' st'' h'
    cases h' with
    | call ht' h => exact nomatch ht.symm.trans ht'
    | extern ht' h' => obtain ⟨rfl, rfl⟩ := hX _ _ _ _ _ _ h h'; exact ⟨rfl, rfl⟩
  | simple h => intro r' st'' h'; cases h' with | simple h' => exact ⟨rfl, effect_unique h h'⟩
  | code => intro r' st'' h; cases h; exact ⟨rfl, rfl⟩
  | ret => intro r' st'' h; cases h; exact ⟨rfl, rfl⟩
  | goto => intro r' st'' h; cases h; exact ⟨rfl, rfl⟩
  | label h ih => intro r' st'' h; cases h with | label h => exact ih h
  | labelHere h ih =>
    intro r' st'' h
    cases h with
    | labelHere h => exact ih h
    | labelIn hj h => exact absurd rfl hj
  | labelIn hj h ih =>
    intro r' st'' h
    cases h with
    | labelHere h => exact absurd rfl hj
    | labelIn hj h => exact ih h
  | skip => intro r' st'' h; cases h; exact ⟨rfl, rfl⟩
  | seqGo hm h h' ih ih' =>
    intro r' st'' h
    cases h with
    | seqGo _ h h' => obtain ⟨-, rfl⟩ := ih h; exact ih' h'
    | seqStop _ h hr => obtain ⟨rfl, -⟩ := ih h; exact absurd rfl hr
    | seqJump _ h => exact nomatch (ih h).1
    | seqIn ha h => exact absurd (ha.symm.trans hm) (by simp)
  | seqStop hm h hr hj ih =>
    intro r' st'' h
    cases h with
    | seqGo _ h h' => obtain ⟨rfl, -⟩ := ih h; exact absurd rfl hr
    | seqStop _ h hr => exact ih h
    | seqJump _ h hi => obtain ⟨rfl, -⟩ := ih h; exact absurd ((hj _ rfl).symm.trans hi) (by simp)
    | seqIn ha h => exact absurd (ha.symm.trans hm) (by simp)
  | seqJump hm h hi h' ih ih' =>
    intro r' st'' h
    cases h with
    | seqGo _ h h' => exact nomatch (ih h).1
    | seqStop _ h hr hj => obtain ⟨rfl, -⟩ := ih h; exact absurd ((hj _ rfl).symm.trans hi) (by simp)
    | seqJump _ h hi h' => obtain ⟨e, rfl⟩ := ih h; cases e; exact ih' h'
    | seqIn ha h => exact absurd (ha.symm.trans hm) (by simp)
  | seqIn ha h ih =>
    intro r' st'' h
    cases h with
    | seqGo hm h h' => exact absurd (ha.symm.trans hm) (by simp)
    | seqStop hm h hr hj => exact absurd (ha.symm.trans hm) (by simp)
    | seqJump hm h hi h' => exact absurd (ha.symm.trans hm) (by simp)
    | seqIn ha h => exact ih h
  | «then» h h' ih ih' =>
    intro r' st'' h
    cases h with
    | «then» h h' => obtain ⟨-, rfl⟩ := ih h; exact ih' h'
    | «else» h h' => exact nomatch (ih h).1
  | «else» h h' ih ih' =>
    intro r' st'' h
    cases h with
    | «then» h h' => exact nomatch (ih h).1
    | «else» h h' => obtain ⟨-, rfl⟩ := ih h; exact ih' h'
  | thenIn ha h ih =>
    intro r' st'' h
    cases h with
    | thenIn ha h => exact ih h
    | elseIn hb h => exact absurd (hb.symm.trans ha) (by simp)
  | elseIn hb h ih =>
    intro r' st'' h
    cases h with
    | thenIn ha h => exact absurd (hb.symm.trans ha) (by simp)
    | elseIn hb h => exact ih h
  | whileEnd h ih =>
    intro r' st'' h
    cases h with
    | whileEnd h => obtain ⟨-, rfl⟩ := ih h; exact ⟨rfl, rfl⟩
    | whileGo h => exact nomatch (ih h).1
    | whileStop h => exact nomatch (ih h).1
  | whileGo h h' h'' ih ih' ih'' =>
    intro r' st'' h
    cases h with
    | whileEnd h => exact nomatch (ih h).1
    | whileGo h h' h'' => obtain ⟨-, rfl⟩ := ih h; obtain ⟨-, rfl⟩ := ih' h'; exact ih'' h''
    | whileStop h h' hr => obtain ⟨-, rfl⟩ := ih h; obtain ⟨rfl, -⟩ := ih' h'; exact absurd rfl hr
  | whileStop h h' hr ih ih' =>
    intro r' st'' h
    cases h with
    | whileEnd h => exact nomatch (ih h).1
    | whileGo h h' h'' => obtain ⟨-, rfl⟩ := ih h; obtain ⟨rfl, -⟩ := ih' h'; exact absurd rfl hr
    | whileStop h h' hr => obtain ⟨-, rfl⟩ := ih h; exact ih' h'
  | whileIn h h' ih ih' =>
    intro r' st'' h
    cases h with
    | whileIn h h' => obtain ⟨-, rfl⟩ := ih h; exact ih' h'
    | whileInStop h hr => obtain ⟨rfl, -⟩ := ih h; exact absurd rfl hr
  | whileInStop h hr ih =>
    intro r' st'' h
    cases h with
    | whileIn h h' => obtain ⟨rfl, -⟩ := ih h; exact absurd rfl hr
    | whileInStop h hr => exact ih h
  | doGo h h' h'' ih ih' ih'' =>
    intro r' st'' h
    cases h with
    | doGo h h' h'' => obtain ⟨-, rfl⟩ := ih h; obtain ⟨-, rfl⟩ := ih' h'; exact ih'' h''
    | doEnd h h' => obtain ⟨-, rfl⟩ := ih h; exact nomatch (ih' h').1
    | doStop h hr => obtain ⟨rfl, -⟩ := ih h; exact absurd rfl hr
  | doEnd h h' ih ih' =>
    intro r' st'' h
    cases h with
    | doGo h h' h'' => obtain ⟨-, rfl⟩ := ih h; exact nomatch (ih' h').1
    | doEnd h h' => obtain ⟨-, rfl⟩ := ih h; obtain ⟨-, rfl⟩ := ih' h'; exact ⟨rfl, rfl⟩
    | doStop h hr => obtain ⟨rfl, -⟩ := ih h; exact absurd rfl hr
  | doStop h hr ih =>
    intro r' st'' h
    cases h with
    | doGo h h' h'' => obtain ⟨rfl, -⟩ := ih h; exact absurd rfl hr
    | doEnd h h' => obtain ⟨rfl, -⟩ := ih h; exact absurd rfl hr
    | doStop h hr => exact ih h

/-! ### Series of statements -/

theorem has_body {i : Nat} : ∀ {l : List Tree}, has i (body l) = l.any (has i)
  | [] => rfl
  | a :: l => by
    show (has i a || has i (body l)) = _
    rw [has_body]
    rfl

theorem body_nil {m st r st'} (h : Run E F X (.stmt m .skip) st r st') : m = none ∧ r = .ok ∧ st' = st := by
  cases h
  exact ⟨rfl, rfl, rfl⟩

theorem run_append : ∀ {l l' : List Tree} {m st st' r st''}, Run E F X (.stmt m (body l)) st .ok st' → Run E F X (.stmt none (body l')) st' r st'' → Run E F X (.stmt m (body (l ++ l'))) st r st''
  | [], l', m, st, st', r, st'', h, h' => by
    obtain ⟨rfl, -, rfl⟩ := body_nil h
    exact h'
  | a :: l, l', m, st, st', r, st'', h, h' => by
    have hh : ∀ i, has i (body l) = true → has i (body (l ++ l')) = true := fun i hi => by
      rw [has_body, List.any_append, ← has_body, hi, Bool.true_or]
    cases h with
    | seqGo hm h1 h2 => exact .seqGo hm h1 (run_append h2 h')
    | seqStop _ _ hr => exact absurd rfl hr
    | seqJump hm h1 hi h2 => exact .seqJump hm h1 (hh _ hi) (run_append h2 h')
    | seqIn ha h2 => exact .seqIn ha (run_append h2 h')

theorem run_stop : ∀ {l l' : List Tree} {m st r st'}, Run E F X (.stmt m (body l)) st r st' → r ≠ .ok → (∀ i, r = .jump i → l'.any (has i) = false) → Run E F X (.stmt m (body (l ++ l'))) st r st'
  | [], l', m, st, r, st', h, hr, hj => absurd (body_nil h).2.1 hr
  | a :: l, l', m, st, r, st', h, hr, hj => by
    have hh : ∀ i, has i (body l) = true → has i (body (l ++ l')) = true := fun i hi => by
      rw [has_body, List.any_append, ← has_body, hi, Bool.true_or]
    cases h with
    | seqGo hm h1 h2 => exact .seqGo hm h1 (run_stop h2 hr hj)
    | seqStop hm h1 _ hi =>
      refine .seqStop hm h1 hr fun i e => ?_
      show has i (body (l ++ l')) = false
      rw [has_body, List.any_append, ← has_body, hj i e, Bool.or_false]
      exact hi i e
    | seqJump hm h1 hi h2 => exact .seqJump hm h1 (hh _ hi) (run_stop h2 hr hj)
    | seqIn ha h2 => exact .seqIn ha (run_stop h2 hr hj)

theorem run_one {t st r st'} (h : Run E F X (.stmt none t) st r st') : Run E F X (.stmt none (body [t])) st r st' := by
  cases r with
  | ok => exact .seqGo rfl h .skip
  | _ => exact .seqStop rfl h (by simp) fun _ _ => rfl

theorem run_body_one {m t st r st'} (h : Run E F X (.stmt m (body [t])) st r st') : Run E F X (.stmt m t) st r st' ∧ enters m t = true := by
  cases h with
  | seqGo hm h h' => obtain ⟨-, rfl, rfl⟩ := body_nil h'; exact ⟨h, hm⟩
  | seqStop hm h => exact ⟨h, hm⟩
  | seqJump hm h hi => exact nomatch hi
  | seqIn ha h => exact nomatch (body_nil h).1

end Verif.GenText
