import Verif.GenText.Model

/-! # Reading what is written -/

namespace Verif.GenText

open Verif.Grammar
open Verif.Gen (Ctx isCond flatten rulesOf)
open Spec

/-! ### There is one reading only -/

theorem plain_split : ∀ {e e' : Toks} {r r' : Toks}, (∀ x ∈ e, plain x = true) → (∀ x ∈ e', plain x = true) → e ++ .semi :: r = e' ++ .semi :: r' → e = e' ∧ r = r'
  | [], [], _, _, _, _, h => ⟨rfl, (List.cons.inj h).2⟩
  | [], t :: e', _, _, _, h', h => by
    obtain ⟨rfl, -⟩ := List.cons.inj h
    exact absurd (h' _ (.head _)) (by simp [plain])
  | t :: e, [], _, _, h', _, h => by
    obtain ⟨rfl, -⟩ := List.cons.inj h
    exact absurd (h' _ (.head _)) (by simp [plain])
  | t :: e, t' :: e', _, _, h1, h2, h => by
    obtain ⟨rfl, h'⟩ := List.cons.inj (List.cons_append .. ▸ List.cons_append .. ▸ h)
    obtain ⟨rfl, h3⟩ := plain_split (fun x hx => h1 x (.tail _ hx)) (fun x hx => h2 x (.tail _ hx)) h'
    exact ⟨rfl, h3⟩

theorem paren_split : ∀ {e e' : Toks} {r r' : Toks}, (∀ x ∈ e, x ≠ .lp ∧ x ≠ .rp) → (∀ x ∈ e', x ≠ .lp ∧ x ≠ .rp) → e ++ .rp :: r = e' ++ .rp :: r' → r = r'
  | [], [], _, _, _, _, h => (List.cons.inj h).2
  | [], t :: e', _, _, _, h', h => by
    obtain ⟨rfl, -⟩ := List.cons.inj h
    exact absurd rfl (h' _ (.head _)).2
  | t :: e, [], _, _, h', _, h => by
    obtain ⟨rfl, -⟩ := List.cons.inj h
    exact absurd rfl (h' _ (.head _)).2
  | t :: e, t' :: e', _, _, h1, h2, h => by
    obtain ⟨rfl, h'⟩ := List.cons.inj (List.cons_append .. ▸ List.cons_append .. ▸ h)
    exact paren_split (fun x hx => h1 x (.tail _ hx)) (fun x hx => h2 x (.tail _ hx)) h'

/-- No statement begins with a closing brace. -/
theorem stmt_rb {r t r'} : ¬ Reads .stmt (.rb :: r) t r' := by
  intro h
  cases h with
  | simple he h => exact absurd (he _ (.head _)) (by simp [plain])

theorem Reads.unique {c ts t r} (h : Reads c ts t r) : ∀ {t' r'}, Reads c ts t' r' → t = t' ∧ r = r' := by
  induction h with
  | true => intro t' r' h; cases h; exact ⟨rfl, rfl⟩
  | false => intro t' r' h; cases h; exact ⟨rfl, rfl⟩
  | is => intro t' r' h; cases h; exact ⟨rfl, rfl⟩
  | isNot => intro t' r' h; cases h; exact ⟨rfl, rfl⟩
  | isNot' => intro t' r' h; cases h; exact ⟨rfl, rfl⟩
  | ask => intro t' r' h; cases h; exact ⟨rfl, rfl⟩
  | state => intro t' r' h; cases h; exact ⟨rfl, rfl⟩
  | same => intro t' r' h; cases h; exact ⟨rfl, rfl⟩
  | loud => intro t' r' h; cases h; exact ⟨rfl, rfl⟩
  | fails ha e =>
    intro t' r' h
    cases h with
    | fails ha' e' => exact ⟨rfl, paren_split ha ha' (e.symm.trans e')⟩
  | paren h ih =>
    intro t' r' h
    cases h with
    | paren h => obtain ⟨rfl, e⟩ := ih h; exact ⟨rfl, (List.cons.inj e).2⟩
  | conj1 h hr ih =>
    intro t' r' h
    cases h with
    | conj1 h _ => exact ih h
    | conj2 h _ => obtain ⟨-, rfl⟩ := ih h; exact absurd rfl hr
  | conj2 h h' ih ih' =>
    intro t' r' h
    cases h with
    | conj1 h hr => obtain ⟨-, rfl⟩ := ih h; exact absurd rfl hr
    | conj2 h h' =>
      obtain ⟨rfl, e⟩ := ih h
      obtain ⟨-, rfl⟩ := List.cons.inj e
      obtain ⟨rfl, rfl⟩ := ih' h'
      exact ⟨rfl, rfl⟩
  | disj1 h hr ih =>
    intro t' r' h
    cases h with
    | disj1 h _ => exact ih h
    | disj2 h _ => obtain ⟨-, rfl⟩ := ih h; exact absurd rfl hr
  | disj2 h h' ih ih' =>
    intro t' r' h
    cases h with
    | disj1 h hr => obtain ⟨-, rfl⟩ := ih h; exact absurd rfl hr
    | disj2 h h' =>
      obtain ⟨rfl, e⟩ := ih h
      obtain ⟨-, rfl⟩ := List.cons.inj e
      obtain ⟨rfl, rfl⟩ := ih' h'
      exact ⟨rfl, rfl⟩
  | simple he e =>
    intro t' r' h
    cases h with
    | simple he' e' =>
      obtain ⟨rfl, rfl⟩ := plain_split (fun x hx => he x (.tail _ hx)) (fun x hx => he' x (.tail _ hx)) (e.symm.trans e')
      exact ⟨rfl, rfl⟩
    | label h =>
      rename_i e' _ _ _ _
      cases e' with
      | nil => exact absurd e (by simp)
      | cons x e' =>
        obtain ⟨rfl, -⟩ := List.cons.inj e
        exact absurd (he _ (.tail _ (.head _))) (by simp [plain])
    | _ => exact absurd (he _ (.head _)) (by simp [plain])
  | code =>
    intro t' r' h
    cases h with
    | code => exact ⟨rfl, rfl⟩
    | simple he e => exact absurd (he _ (.head _)) (by simp [plain])
  | retFalse =>
    intro t' r' h
    cases h with
    | retFalse => exact ⟨rfl, rfl⟩
    | simple he e => exact absurd (he _ (.head _)) (by simp [plain])
  | retTrue =>
    intro t' r' h
    cases h with
    | retTrue => exact ⟨rfl, rfl⟩
    | simple he e => exact absurd (he _ (.head _)) (by simp [plain])
  | goto =>
    intro t' r' h
    cases h with
    | goto => exact ⟨rfl, rfl⟩
    | simple he e => exact absurd (he _ (.head _)) (by simp [plain])
  | label h ih =>
    intro t' r' h
    cases h with
    | label h => obtain ⟨rfl, rfl⟩ := ih h; exact ⟨rfl, rfl⟩
    | @simple _ _ e' _ he e =>
      cases e' with
      | nil => exact absurd e (by simp)
      | cons x e' =>
        obtain ⟨rfl, -⟩ := List.cons.inj e
        exact absurd (he _ (.tail _ (.head _))) (by simp [plain])
  | block h ih =>
    intro t' r' h
    cases h with
    | block h => obtain ⟨rfl, e⟩ := ih h; exact ⟨rfl, (List.cons.inj e).2⟩
    | simple he e => exact absurd (he _ (.head _)) (by simp [plain])
  | ifElse hc ha hb ihc iha ihb =>
    intro t' r' h
    cases h with
    | ifElse hc ha hb =>
      obtain ⟨rfl, e⟩ := ihc hc
      obtain ⟨-, rfl⟩ := List.cons.inj e
      obtain ⟨rfl, e⟩ := iha ha
      obtain ⟨-, rfl⟩ := List.cons.inj e
      obtain ⟨rfl, rfl⟩ := ihb hb
      exact ⟨rfl, rfl⟩
    | ifOnly hc ha hr =>
      obtain ⟨rfl, e⟩ := ihc hc
      obtain ⟨-, rfl⟩ := List.cons.inj e
      obtain ⟨rfl, rfl⟩ := iha ha
      exact absurd rfl hr
    | simple he e => exact absurd (he _ (.head _)) (by simp [plain])
  | ifOnly hc ha hr ihc iha =>
    intro t' r' h
    cases h with
    | ifElse hc ha hb =>
      obtain ⟨rfl, e⟩ := ihc hc
      obtain ⟨-, rfl⟩ := List.cons.inj e
      obtain ⟨rfl, rfl⟩ := iha ha
      exact absurd rfl hr
    | ifOnly hc ha hr =>
      obtain ⟨rfl, e⟩ := ihc hc
      obtain ⟨-, rfl⟩ := List.cons.inj e
      obtain ⟨rfl, rfl⟩ := iha ha
      exact ⟨rfl, rfl⟩
    | simple he e => exact absurd (he _ (.head _)) (by simp [plain])
  | «while» hc ha ihc iha =>
    intro t' r' h
    cases h with
    | «while» hc ha =>
      obtain ⟨rfl, e⟩ := ihc hc
      obtain ⟨-, rfl⟩ := List.cons.inj e
      obtain ⟨rfl, rfl⟩ := iha ha
      exact ⟨rfl, rfl⟩
    | simple he e => exact absurd (he _ (.head _)) (by simp [plain])
  | doWhile ha hc iha ihc =>
    intro t' r' h
    cases h with
    | doWhile ha hc =>
      obtain ⟨rfl, e⟩ := iha ha
      obtain ⟨-, e⟩ := List.cons.inj e
      obtain ⟨-, rfl⟩ := List.cons.inj e
      obtain ⟨rfl, e⟩ := ihc hc
      obtain ⟨-, e⟩ := List.cons.inj e
      obtain ⟨-, rfl⟩ := List.cons.inj e
      exact ⟨rfl, rfl⟩
    | simple he e => exact absurd (he _ (.head _)) (by simp [plain])
  | nil =>
    intro t' r' h
    cases h with
    | nil => exact ⟨rfl, rfl⟩
    | cons h h' => exact absurd h stmt_rb
  | cons h h' ih ih' =>
    intro t' r' g
    cases g with
    | nil => exact absurd h stmt_rb
    | cons g g' =>
      obtain ⟨rfl, rfl⟩ := ih g
      obtain ⟨rfl, rfl⟩ := ih' g'
      exact ⟨rfl, rfl⟩

/-! ### Conditions -/

/-- `yytoken == Token_A || ..`, as it is read. -/
def orTree : List Nat → Tree
  | [] => .const true
  | [n] => .is n
  | n :: ns => .or (.is n) (orTree ns)

def orTo : List Nat → Tree → Tree
  | [], e => e
  | n :: ns, e => .or (.is n) (orTo ns e)

/-- What may come behind a condition. -/
def Closed (r : Toks) : Prop := r.head? ≠ some (.w .«&&») ∧ r.head? ≠ some (.w .«||»)

theorem closed_rp {r : Toks} : Closed (.rp :: r) := by simp [Closed]

theorem prim_disj {ts a r} (h : Reads .prim ts a r) (hr : Closed r) : Reads .disj ts a r := .disj1 (.conj1 h hr.1) hr.2

theorem prim_or {ts a r b r'} (h : Reads .prim ts a (.w .«||» :: r)) (h' : Reads .disj r b r') : Reads .disj ts (.or a b) r' := .disj2 (.conj1 h (by simp)) h'

theorem read_is : ∀ {ns : List Nat} {r : Toks}, ns ≠ [] → Closed r → Reads .disj (isToks ns ++ r) (orTree ns) r
  | [n], r, _, hr => prim_disj .is hr
  | n :: m :: ns, r, _, hr => prim_or .is (read_is (ns := m :: ns) (by simp) hr)

theorem read_isTo : ∀ {ns : List Nat} {e r r'}, ns ≠ [] → Reads .disj r e r' → Reads .disj (isToks ns ++ .w .«||» :: r) (orTo ns e) r'
  | [n], e, r, r', _, hr => prim_or .is hr
  | n :: m :: ns, e, r, r', _, hr => prim_or .is (read_isTo (ns := m :: ns) (by simp) hr)

/-! ### Statements -/

/-- The tokens are one statement. -/
def One (ts : Toks) (t : Tree) : Prop := ts.head? ≠ some .kElse ∧ ts ≠ [] ∧ ∀ r, r.head? ≠ some .kElse → Reads .stmt (ts ++ r) t r

/-- The tokens are a series of statements. -/
def Series (ts : Toks) (l : List Tree) : Prop :=
  ts.head? ≠ some .kElse ∧ ∀ r t r', r.head? ≠ some .kElse → Reads .stmts r t r' → Reads .stmts (ts ++ r) (l.foldr .seq t) r'

/-- The body of a block. -/
def body (l : List Tree) : Tree := l.foldr .seq .skip

theorem Series.nil : Series [] [] := ⟨by simp, fun _ _ _ _ h => h⟩

theorem head_append {a b : Toks} {x : Tok} (ha : a.head? ≠ some x) (hb : b.head? ≠ some x) : (a ++ b).head? ≠ some x := by
  cases a with
  | nil => exact hb
  | cons => exact ha

theorem Series.append {a b la lb} (ha : Series a la) (hb : Series b lb) : Series (a ++ b) (la ++ lb) := by
  refine ⟨head_append ha.1 hb.1, fun r t r' hr h => ?_⟩
  rw [List.append_assoc, List.foldr_append]
  exact ha.2 _ _ _ (head_append hb.1 hr) (hb.2 r t r' hr h)

theorem One.series {a t} (h : One a t) : Series a [t] := ⟨h.1, fun _ _ _ hr h' => .cons (h.2.2 _ hr) h'⟩

theorem Series.block {a l} (h : Series a l) (r : Toks) : Reads .stmt (.lb :: (a ++ .rb :: r)) (body l) r := .block (h.2 _ _ _ (by simp) .nil)

theorem One.simple {t : Tok} {e : Toks} (h : ∀ x ∈ t :: e, plain x = true) : One (t :: e ++ [.semi]) (.simple (t :: e)) := by
  refine ⟨?_, by simp, fun r _ => ?_⟩
  · have := h _ (.head _)
    rintro e
    cases Option.some.inj e
    exact absurd this (by simp [plain])
  · simpa only [List.append_assoc, List.cons_append, List.nil_append] using Reads.simple (r := r) h rfl

theorem One.ifOnly {c : Toks} {tc : Tree} {a : Toks} {ta : Tree} (hc : ∀ r, Reads .disj (c ++ .rp :: r) tc (.rp :: r)) (ha : One a ta) : One ([.kIf, .lp] ++ c ++ .rp :: a) (.ite tc ta .skip) := by
  refine ⟨by simp, by simp, fun r hr => ?_⟩
  have := Reads.ifOnly (hc (a ++ r)) (ha.2.2 r hr) hr
  simpa only [List.append_assoc, List.cons_append, List.nil_append] using this

/-- The then part is a block, the else part a statement. -/
theorem One.ifElse {c : Toks} {tc : Tree} {a : Toks} {l : List Tree} {b : Toks} {tb : Tree} (hc : ∀ r, Reads .disj (c ++ .rp :: r) tc (.rp :: r)) (ha : Series a l) (hb : One b tb) :
    One ([.kIf, .lp] ++ c ++ [.rp, .lb] ++ a ++ [.rb, .kElse] ++ b) (.ite tc (body l) tb) := by
  refine ⟨by simp, by simp, fun r hr => ?_⟩
  have := Reads.ifElse (hc _) (ha.block (.kElse :: (b ++ r))) (hb.2.2 r hr)
  simpa only [List.append_assoc, List.cons_append, List.nil_append] using this

theorem One.block {a : Toks} {l : List Tree} (ha : Series a l) : One (.lb :: (a ++ [.rb])) (body l) :=
  ⟨by simp, by simp, fun r _ => by simpa only [List.append_assoc, List.cons_append, List.nil_append] using ha.block r⟩

theorem One.while {c : Toks} {tc : Tree} {a : Toks} {ta : Tree} (hc : ∀ r, Reads .disj (c ++ .rp :: r) tc (.rp :: r)) (ha : One a ta) : One ([.kWhile, .lp] ++ c ++ .rp :: a) (.while tc ta) := by
  refine ⟨by simp, by simp, fun r hr => ?_⟩
  simpa only [List.append_assoc, List.cons_append, List.nil_append] using Reads.while (hc (a ++ r)) (ha.2.2 r hr)

theorem One.doWhile {c : Toks} {tc : Tree} {a : Toks} {ta : Tree} (hc : ∀ r, Reads .disj (c ++ .rp :: r) tc (.rp :: r)) (ha : One a ta) : One (.kDo :: (a ++ [.kWhile, .lp] ++ c ++ [.rp, .semi])) (.doWhile ta tc) := by
  refine ⟨by simp, by simp, fun r hr => ?_⟩
  simpa only [List.append_assoc, List.cons_append, List.nil_append] using Reads.doWhile (ha.2.2 (.kWhile :: .lp :: (c ++ .rp :: .semi :: r)) (by simp)) (hc (.semi :: r))

theorem One.code (n : Nat) : One [.code n] (.code n) := ⟨by simp, by simp, fun _ _ => .code⟩

theorem One.ret : One [.kReturn, .w .«false», .semi] (.ret false) := ⟨by simp, by simp, fun _ _ => .retFalse⟩

theorem One.retTrue : One [.kReturn, .w .«true», .semi] (.ret true) := ⟨by simp, by simp, fun _ _ => .retTrue⟩

theorem One.goto (i : Nat) : One [.kGoto, .num .«__catch_» i, .semi] (.goto i) := ⟨by simp, by simp, fun _ _ => .goto⟩

theorem One.label {a : Toks} {t : Tree} (i : Nat) (h : One a t) : One (.num .«__catch_» i :: .colon :: a) (.label i t) := ⟨by simp, by simp, fun r hr => .label (h.2.2 r hr)⟩

end Verif.GenText
