import Verif.LexSyn.Build
import Verif.LexSyn.Meaning
import Verif.Auto.RxProps

set_option linter.unusedSectionVars false

/-!
# Lemmas on the actions of lexer sections
-/

namespace Verif.LexSyn

open Verif.Auto

variable {C : Type} [CharSetLike C]

/-- `a` is `x` with the names replaced by their definitions, and the texts by their automata. -/
inductive Resolves (A : Chars C) (ns : Text → Option (Rx C)) : E → Rx C → Prop
  | eps : Resolves A ns .eps .emptyWord
  | dot {n} (h : n.Wf) : A.dot = some n → Resolves A ns .dot (.leaf n h)
  | str {s n} (h : n.Wf) : A.word s = some n → Resolves A ns (.str s) (.leaf n h)
  | word {s n} (h : n.Wf) : A.word s = some n → Resolves A ns (.word s) (.leaf n h)
  | coll {s n} (h : n.Wf) : A.coll s = some n → Resolves A ns (.coll s) (.leaf n h)
  | range {s n} (h : n.Wf) : A.range s = some n → Resolves A ns (.range s) (.leaf n h)
  | named {s a} : ns s = some a → Resolves A ns (.named s) (.named a)
  | alt {x y a b} : Resolves A ns x a → Resolves A ns y b → Resolves A ns (.alt x y) (.alt a b)
  | and {x y a b} : Resolves A ns x a → Resolves A ns y b → Resolves A ns (.and x y) (.and a b)
  | but {x y a b} : Resolves A ns x a → Resolves A ns y b → Resolves A ns (.but x y) (.but a b)
  | cat {x y a b} : Resolves A ns x a → Resolves A ns y b → Resolves A ns (.cat x y) (.cat a b)
  | neg {x a} : Resolves A ns x a → Resolves A ns (.neg x) (.compl a)
  | opt {x a} : Resolves A ns x a → Resolves A ns (.opt x) (.opt a)
  | sepBy {x y a b} : Resolves A ns x a → Resolves A ns y b → Resolves A ns (.sepBy x y) (.sepBy a b)
  | star {x a} : Resolves A ns x a → Resolves A ns (.star x) (.star a)
  | plus {x a} : Resolves A ns x a → Resolves A ns (.plus x) (.plus a)

/-- The store holds the automata of the definitions, minimised or not. -/
structure Inv (order : List Bits → List Bits) (fuel : Nat) (st : Store C) (ns : Text → Option (Rx C)) : Prop where
  none : ∀ s, ns s = none → st s = none
  some : ∀ s a, ns s = some a → ∃ d, st s = some d ∧ (if d.ready then (Rx.named a).build order fuel = some d.nfa else a.build order fuel = some d.nfa)

variable {A : Chars C} {order : List Bits → List Bits} {fuel : Nat} {ns : Text → Option (Rx C)}

/-- `r` has the outcome of building `a`. -/
def Agrees (order : List Bits → List Bits) (fuel : Nat) (ns : Text → Option (Rx C)) (o : Option (NFA C)) (r : Out (NFA C × Store C)) : Prop :=
  match o with
  | some n => ∃ st, r = .ok (n, st) ∧ Inv order fuel st ns
  | none => r = .stuck

theorem agrees_leaf {st : Store C} (hi : Inv order fuel st ns) {o : Option (NFA C)} {n : NFA C} (h : o = some n) :
    Agrees order fuel ns (some n) ((lift o).bind fun n => .ok (n, st)) := by
  subst h; exact ⟨st, rfl, hi⟩

theorem agrees_one {o : Option (NFA C)} {r : Out (NFA C × Store C)} (h : Agrees order fuel ns o r) (f : NFA C → Option (NFA C)) :
    Agrees order fuel ns (o.bind f) (one f r) := by
  cases o with
  | none => simp only [Agrees] at h; subst h; rfl
  | some n =>
    obtain ⟨st, rfl, hi⟩ := h
    simp only [one, Out.bind, Option.bind_some]
    cases f n with
    | none => rfl
    | some m => exact ⟨st, rfl, hi⟩

theorem agrees_two {o p : Option (NFA C)} {r : Out (NFA C × Store C)} {g : Store C → Out (NFA C × Store C)} (h : Agrees order fuel ns o r)
    (h' : ∀ st, Inv order fuel st ns → Agrees order fuel ns p (g st)) (f : NFA C → NFA C → Option (NFA C)) :
    Agrees order fuel ns (o.bind fun n => p.bind fun m => f n m) (two f r g) := by
  cases o with
  | none => simp only [Agrees] at h; subst h; rfl
  | some n =>
    obtain ⟨st, rfl, hi⟩ := h
    have h2 := h' st hi
    cases p with
    | none => simp only [Agrees] at h2; simp only [two, Out.bind, h2]; rfl
    | some m =>
      obtain ⟨st', e, hi'⟩ := h2
      simp only [two, Out.bind, e, Option.bind_some]
      cases f n m with
      | none => rfl
      | some m => exact ⟨st', rfl, hi'⟩

theorem agrees_named {s : Text} {a : Rx C} (h : ns s = some a) {st : Store C} (hi : Inv order fuel st ns) :
    Agrees order fuel ns ((Rx.named a).build order fuel) (useNamed order fuel s st) := by
  obtain ⟨⟨n, r⟩, e, h2⟩ := hi.some s a h
  cases r with
  | true =>
    simp only [if_true] at h2
    simp only [h2, useNamed, e]
    exact ⟨st, rfl, hi⟩
  | false =>
    simp only [Bool.false_eq_true, if_false] at h2
    have hb : (Rx.named a).build order fuel = (do (← (← n.dfa order fuel).minimize fuel).nfa) := by
      simp only [Rx.build, h2, Option.bind_eq_bind, Option.bind_some]
    simp only [useNamed, e]
    rw [← hb]
    cases hr : (Rx.named a).build order fuel with
    | none => rfl
    | some m =>
      refine ⟨_, rfl, fun t ht => ?_, fun t b ht => ?_⟩
      · simp only [Store.set]
        rw [if_neg]
        · exact hi.none t ht
        · rintro rfl; rw [h] at ht; cases ht
      · simp only [Store.set]
        split
        · next he =>
          subst he; rw [h] at ht; cases ht
          exact ⟨_, rfl, by simpa using hr⟩
        · exact hi.some t b ht

theorem build_agrees {x : E} {a : Rx C} (h : Resolves A ns x a) {st : Store C} (hi : Inv order fuel st ns) :
    Agrees order fuel ns (a.build order fuel) (build A order fuel x st) := by
  induction h generalizing st with
  | eps => exact ⟨st, rfl, hi⟩
  | dot _ h | str _ h | word _ h | coll _ h | range _ h => exact agrees_leaf hi h
  | named h => exact agrees_named h hi
  | alt _ _ ih1 ih2 | and _ _ ih1 ih2 | but _ _ ih1 ih2 | cat _ _ ih1 ih2 | sepBy _ _ ih1 ih2 => exact agrees_two (ih1 hi) (fun _ => ih2) _
  | neg _ ih | opt _ ih | star _ ih | plus _ ih => exact agrees_one (ih hi) _

/-! ### Languages -/

/-- A well-formed automaton for `L`. -/
def Made (o : Option (NFA C)) (L : Lang) : Prop := ∃ n, o = some n ∧ n.Wf ∧ ∀ w, n.Lang w ↔ L w

/-- The automata of the texts in an expression match what the texts stand for. -/
def Faithful (A : Chars C) (K : Spec.Reading) : E → Prop
  | .eps | .named _ => True
  | .dot => Made A.dot K.dot
  | .str s | .word s => Made (A.word s) (fun w => w = (K.chars s).flatMap K.enc)
  | .coll s => Made (A.coll s) (fun w => ∃ c ∈ K.chars s, w = K.enc c)
  | .range s => Made (A.range s) (fun w => ∃ b e c, K.chars s = [b, '-'.toNat, e] ∧ b ≤ c ∧ c ≤ e ∧ K.char c ∧ w = K.enc c)
  | .alt a b | .and a b | .but a b | .cat a b | .sepBy a b => Faithful A K a ∧ Faithful A K b
  | .neg a | .opt a | .star a | .plus a => Faithful A K a

/-- The names mean what their definitions mean. -/
def Named (ns : Text → Option (Rx C)) (N : Text → Lang) : Prop := ∀ s a, ns s = some a → ∀ w, a.den w ↔ N s w

theorem Made.lang {o : Option (NFA C)} {L : Lang} {n : NFA C} (h : Made o L) (e : o = some n) (w : List Nat) : n.Lang w ↔ L w := by
  obtain ⟨m, h1, _, h3⟩ := h
  rw [e] at h1; cases h1
  exact h3 w

theorem cat_congr {L L' M M' : Lang} (h : ∀ w, L w ↔ L' w) (h' : ∀ w, M w ↔ M' w) (w : List Nat) : Cat L M w ↔ Cat L' M' w := by
  simp only [Cat, h, h']

theorem star_congr {L L' : Lang} (h : ∀ w, L w ↔ L' w) (w : List Nat) : Star L w ↔ Star L' w :=
  ⟨Star.mono fun u => (h u).1, Star.mono fun u => (h u).2⟩

theorem resolves_den {K : Spec.Reading} {N : Text → Lang} (hN : Named ns N) {x : E} {a : Rx C} (h : Resolves A ns x a) (hf : Faithful A K x) (w : List Nat) :
    a.den w ↔ Spec.den K (CharSetLike.size C) N x w := by
  induction h generalizing w with
  | eps => exact Iff.rfl
  | dot _ h | str _ h | word _ h | coll _ h | range _ h => exact hf.lang h w
  | named h => exact hN _ _ h w
  | alt _ _ ih1 ih2 => exact or_congr (ih1 hf.1 w) (ih2 hf.2 w)
  | and _ _ ih1 ih2 => exact and_congr (ih1 hf.1 w) (ih2 hf.2 w)
  | but _ _ ih1 ih2 => exact and_congr (ih1 hf.1 w) (not_congr (ih2 hf.2 w))
  | cat _ _ ih1 ih2 => exact cat_congr (ih1 hf.1) (ih2 hf.2) w
  | neg _ ih => exact and_congr Iff.rfl (not_congr (ih hf w))
  | opt _ ih => exact or_congr (ih hf w) Iff.rfl
  | sepBy _ _ ih1 ih2 => exact cat_congr (ih1 hf.1) (star_congr (cat_congr (ih2 hf.2) (ih1 hf.1))) w
  | star _ ih => exact star_congr (ih hf) w
  | plus _ ih => exact cat_congr (ih hf) (star_congr (ih hf)) w

/-- An automaton whose words are bounded in length and which matches some word cannot come back to its start. -/
theorem fresh_of_bounded {n : NFA C} (hn : n.Wf) {u : List Nat} (hu : n.Lang u) {B : Nat} (hB : ∀ w, n.Lang w → w.length ≤ B) (w : List Nat) :
    n.Loop w ↔ w = [] := by
  constructor
  · intro hw
    rw [lang_single hn] at hu
    have key : ∀ k, ∃ v, k * w.length ≤ v.length ∧ n.Lang v := by
      intro k
      suffices ∃ v, k * w.length ≤ v.length ∧ Run n.rules 0 v n.accept by
        obtain ⟨v, h1, h2⟩ := this
        exact ⟨v, h1, (lang_single hn v).2 h2⟩
      induction k with
      | zero => exact ⟨u, by simp, hu⟩
      | succ k ih =>
        obtain ⟨v, h1, h2⟩ := ih
        exact ⟨w ++ v, by rw [Nat.succ_mul, List.length_append]; omega, Run.trans hw h2⟩
    obtain ⟨v, h1, h2⟩ := key (B + 1)
    have h3 := hB v h2
    cases w with
    | nil => rfl
    | cons c w =>
      have : B + 1 ≤ (B + 1) * (c :: w).length := Nat.le_mul_of_pos_right _ (by simp)
      omega
  · rintro rfl; exact .nil

end Verif.LexSyn
