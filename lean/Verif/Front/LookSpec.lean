import Verif.Front.Spec
import Verif.Front.Model

/-!
# Specification: written rules which one token of lookahead decides
-/

namespace Verif.Front

open Verif.Syntax

/-- A sentence of the item begins with the token. -/
def Begins (rs : List Rule) (i : Item) (t : Name) : Prop := ∃ ω, Sen rs i (t :: ω)

/-- The sentences of a sequence of items. -/
inductive SenAll (rs : List Rule) : List Item → List Name → Prop
  | nil : SenAll rs [] []
  | cons {i k α β} : Sen rs i α → SenAll rs k β → SenAll rs (i :: k) (α ++ β)

/-- `At rs i k s`: the item `i` stands in a rule of `s`, and behind it, to the end of the rule, come the items `k`. -/
inductive At (rs : List Rule) : Item → List Item → Name → Prop
  | rule {r} : r ∈ rs → At rs r.item [] r.sym
  | ann {l i k s} : At rs (.ann l i) k s → At rs i k s
  | act {i c k s} : At rs (.act i c) k s → At rs i k s
  | cond {c i k s} : At rs (.cond c i) k s → At rs i k s
  | altL {i j k s} : At rs (.alt i j) k s → At rs i k s
  | altR {i j k s} : At rs (.alt i j) k s → At rs j k s
  | consL {i j k s} : At rs (.cons i j) k s → At rs i (j :: k) s
  | consR {i j k s} : At rs (.cons i j) k s → At rs j k s
  | star {i k s} : At rs (.star i) k s → At rs i (.star i :: k) s
  | plus {i k s} : At rs (.plus i) k s → At rs i (.star i :: k) s
  | recover {i k s} : At rs (.recover i) k s → At rs i k s
  | try_ {i j k s} : At rs (.rollback i j) k s → At rs i k s
  | catch_ {i j k s} : At rs (.rollback i j) k s → At rs j k s

/-- The token stands behind an operand of the operator. -/
def Behind (t : Name) : OpDecl → Prop
  | .pre _ _ => False
  | .post q _ _ => q.tok = t
  | .bin q _ _ => q.tok = t
  | .tern q q' _ _ => q.tok = t ∨ q'.tok = t
  | .paren _ q' => q'.tok = t

/-- The token may come behind the symbol; the end of the input comes behind a start symbol. -/
inductive After (rs : List Rule) : Name → Name → Prop
  | eof {s} : Alone rs s → After rs s eofName
  | next {s a k s' t ω} : At rs (.nonterm s a) k s' → SenAll rs k (t :: ω) → After rs s t
  | last {s a k s' t} : At rs (.nonterm s a) k s' → SenAll rs k [] → After rs s' t → After rs s t
  | opNext {r o s a d t} : r ∈ rs → r.item = .op o → o.base = .sym s a → d ∈ o.decls → Behind t d → After rs s t
  | opLast {r o s a t} : r ∈ rs → r.item = .op o → o.base = .sym s a → After rs r.sym t → After rs s t

/-- The token may come where the items `k` are to come, at the end of a rule of `s`. -/
def Follows (rs : List Rule) (k : List Item) (s t : Name) : Prop := (∃ ω, SenAll rs k (t :: ω)) ∨ SenAll rs k [] ∧ After rs s t

/-- The alternatives of an item, from left to right. -/
def choices : Item → List Item
  | .alt i j => choices i ++ choices j
  | i => [i]

/-- The token by which the operator is recognized. -/
def lead : OpDecl → Name
  | .pre q _ => q.tok
  | .post q _ _ => q.tok
  | .bin q _ _ => q.tok
  | .tern q _ _ _ => q.tok
  | .paren q _ => q.tok

/-- One token of lookahead decides everywhere. -/
structure Look (rs : List Rule) : Prop where
  /-- every symbol that is mentioned has a sentence -/
  productive : ∀ r ∈ rs, ∀ s, Mentions s r.item → ∃ ω, Sentence rs s ω
  /-- alternatives: all but the last have a token to begin with, no token begins two of them; if a later one can be empty, no token which begins an earlier one may come behind -/
  alt : ∀ i j k s, At rs (.alt i j) k s → (choices (.alt i j)).Pairwise fun m m' =>
    (∃ t, Begins rs m t) ∧ (∀ t, Begins rs m t → ¬ Begins rs m' t) ∧ (Sen rs m' [] → ∀ t, Begins rs m t → ¬ Follows rs k s t)
  /-- an alternative that can be empty is always empty -/
  altNull : ∀ i j k s m, At rs (.alt i j) k s → m ∈ choices (.alt i j) → Sen rs m [] → ∀ t, ¬ Begins rs m t
  /-- repetitions: there is a token to begin with, and none of these may come behind -/
  loop : ∀ i m k s, m = .star i ∨ m = .plus i → At rs m k s → (∃ t, Begins rs m t) ∧ ∀ t, Begins rs m t → ¬ Follows rs k s t
  /-- no token begins both an item that can be empty and the next item -/
  seq : ∀ i j k s, At rs (.cons i j) k s → Sen rs i [] → ∀ t, Begins rs i t → ¬ Begins rs j t
  /-- the rules of a symbol -/
  rules : rs.Pairwise fun r r' => r.sym = r'.sym →
    (∃ t, Begins rs r.item t) ∧ (∃ t, Begins rs r'.item t) ∧ (∀ t, Begins rs r.item t → ¬ Begins rs r'.item t) ∧ ¬ (Sen rs r.item [] ∧ Sen rs r'.item []) ∧
    (Sen rs r'.item [] → ∀ t, Begins rs r.item t → ¬ After rs r.sym t) ∧ (Sen rs r.item [] → ∀ t, Begins rs r'.item t → ¬ After rs r.sym t)
  /-- operator rules: the operators begin with different tokens; what stands behind an operand may not come behind the expression or close parentheses; what stands before an operand does not begin
  the base; an expression with parentheses is no start symbol -/
  opLead : ∀ r ∈ rs, ∀ o, r.item = .op o → (o.decls.map lead).Nodup
  opAfter : ∀ r ∈ rs, ∀ o, r.item = .op o → ∀ d ∈ o.decls, ((∃ q p a, d = .post q p a) ∨ ∃ q p a, d = .bin q p a) → ¬ After rs r.sym (lead d) ∧ ∀ q q', .paren q q' ∈ o.decls → q'.tok ≠ lead d
  opBefore : ∀ r ∈ rs, ∀ o s a, r.item = .op o → o.base = .sym s a → ∀ d ∈ o.decls, (∃ q p, d = .pre q p) ∨ (∃ q q', d = .paren q q') → ∀ ω, ¬ Sentence rs s (lead d :: ω)
  opStart : ∀ r ∈ rs, ∀ o, r.item = .op o → ∀ q q', .paren q q' ∈ o.decls → ¬ Alone rs r.sym

end Verif.Front
