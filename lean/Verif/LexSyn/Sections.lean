import Verif.LexSyn.BuildLemmas
import Mathlib.Data.List.Forall2

set_option linter.unusedSectionVars false

/-!
# Lemmas on whole sections
-/

namespace Verif.LexSyn

open Verif.Auto

variable {C : Type} [CharSetLike C]

/-- A rule with its names replaced. -/
structure Item (C : Type) [CharSetLike C] where
  rx : Rx C
  /-- lookahead (`false`) or barrier (`true`) -/
  behind : Option (Bool × Rx C)
  code : Text
  act : Act

inductive ResolvesBehind (A : Chars C) (ns : Text → Option (Rx C)) : Behind → Option (Bool × Rx C) → Prop
  | nothing : ResolvesBehind A ns .nothing none
  | lookahead {y b} : Resolves A ns y b → ResolvesBehind A ns (.lookahead y) (some (false, b))
  | barrier {y b} : Resolves A ns y b → ResolvesBehind A ns (.barrier y) (some (true, b))

def define (ns : Text → Option (Rx C)) (s : Text) (a : Rx C) : Text → Option (Rx C) := fun t => if t = s then some a else ns t

/-- The rules of a section with names replaced by their last definitions in front; `as` are all the expressions written in it, `ns'` the definitions at its end. -/
inductive Sect (A : Chars C) : (Text → Option (Rx C)) → List Decl → List (Item C) → List (Rx C) → (Text → Option (Rx C)) → Prop
  | nil {ns} : Sect A ns [] [] [] ns
  | define {ns s x a ds is as ns'} : Resolves A ns x a → Sect A (define ns s a) ds is as ns' → Sect A ns (.define s x :: ds) is (a :: as) ns'
  | rule {ns x y c t a b ds is as ns'} : Resolves A ns x a → ResolvesBehind A ns y b → Sect A ns ds is as ns' →
      Sect A ns (.rule x y c t :: ds) (⟨a, b, c, t⟩ :: is) (a :: (b.map (·.2)).toList ++ as) ns'
  | fail {ns c ds is as ns'} : Sect A ns ds is as ns' → Sect A ns (.fail c :: ds) is as ns'
  | enter {ns c ds is as ns'} : Sect A ns ds is as ns' → Sect A ns (.enter c :: ds) is as ns'
  | leave {ns c ds is as ns'} : Sect A ns ds is as ns' → Sect A ns (.leave c :: ds) is as ns'

/-- The entries of a rule. -/
def Item.rules (A : Chars C) (order : List Bits → List Bits) (fuel : Nat) (i : Item C) : Option (List (Lexer.Rule C)) := do
  let r ← i.rx.build order fuel
  match i.behind with
  | none => return [⟨r, none⟩]
  | some (false, y) => do let l ← y.build order fuel; Lexer.lookaheadRule fuel r l
  | some (true, y) => do let b ← y.build order fuel; let any ← A.dot; Lexer.barrierRule order fuel any r b

/-- Automata and texts of the entries. -/
def entries : List (Item C) → List (List (Lexer.Rule C)) → List (NFA C × Text)
  | i :: is, rs :: rss => rs.map (fun r => (r.nfa, ruleText r.rewind i.code i.act)) ++ entries is rss
  | _, _ => []

/-- The last `%fail`, `%enter`, `%leave`. -/
def lastFail (f : Text) : List Decl → Text
  | [] => f
  | .fail c :: ds => lastFail c ds
  | _ :: ds => lastFail f ds
def lastEnter (f : Text) : List Decl → Text
  | [] => f
  | .enter c :: ds => lastEnter c ds
  | _ :: ds => lastEnter f ds
def lastLeave (f : Text) : List Decl → Text
  | [] => f
  | .leave c :: ds => lastLeave c ds
  | _ :: ds => lastLeave f ds

variable {A : Chars C} {order : List Bits → List Bits} {fuel : Nat} {ns ns' : Text → Option (Rx C)} {s : Text}

theorem inv_define {st : Store C} (hi : Inv order fuel st ns) {a : Rx C} {n : NFA C} (h : a.build order fuel = some n) (t : Text) :
    Inv order fuel (st.set t ⟨n, false⟩) (define ns t a) := by
  constructor
  · intro u hu
    simp only [define] at hu
    split at hu
    · cases hu
    · next he => simp only [Store.set, if_neg he]; exact hi.none u hu
  · intro u b hu
    simp only [define] at hu
    split at hu
    · next he => cases hu; subst he; exact ⟨⟨n, false⟩, by simp [Store.set], by simpa using h⟩
    · next he => simp only [Store.set, if_neg he]; exact hi.some u b hu

theorem build_ok {x : E} {a : Rx C} (h : Resolves A ns x a) {st : Store C} (hi : Inv order fuel st ns) {p : NFA C × Store C} (e : build A order fuel x st = .ok p) :
    a.build order fuel = some p.1 ∧ Inv order fuel p.2 ns := by
  have := build_agrees h hi
  cases hb : a.build order fuel with
  | none => rw [hb] at this; simp only [Agrees] at this; rw [this] at e; cases e
  | some n =>
    rw [hb] at this
    obtain ⟨st', e', hi'⟩ := this
    rw [e'] at e; cases e
    exact ⟨rfl, hi'⟩

theorem Out.bind_ok {α β : Type} {o : Out α} {f : α → Out β} {b : β} (h : o.bind f = .ok b) : ∃ a, o = .ok a ∧ f a = .ok b := by
  cases o with
  | ok a => exact ⟨a, rfl, h⟩
  | exit => cases h
  | stuck => cases h

theorem lift_ok {α : Type} {o : Option α} {a : α} (h : lift o = .ok a) : o = some a := by
  cases o with
  | none => cases h
  | some b => cases h; rfl

theorem behind_ok {y : Behind} {b : Option (Bool × Rx C)} (h : ResolvesBehind A ns y b) {st : Store C} (hi : Inv order fuel st ns) {a : Rx C} {r : NFA C}
    (hr : a.build order fuel = some r) {q : List (Lexer.Rule C) × Store C} (e : buildBehind A order fuel r y st = .ok q) (c : Text) (t : Act) :
    (Item.mk a b c t).rules A order fuel = some q.1 ∧ Inv order fuel q.2 ns := by
  cases h with
  | nothing => cases e; exact ⟨by simp [Item.rules, hr], hi⟩
  | lookahead h =>
    obtain ⟨p, e1, e2⟩ := Out.bind_ok e
    obtain ⟨rs, e3, e4⟩ := Out.bind_ok e2
    cases e4
    obtain ⟨h1, h2⟩ := build_ok h hi e1
    exact ⟨by simp [Item.rules, hr, h1, lift_ok e3], h2⟩
  | barrier h =>
    obtain ⟨p, e1, e2⟩ := Out.bind_ok e
    obtain ⟨any, e3, e4⟩ := Out.bind_ok e2
    obtain ⟨rs, e5, e6⟩ := Out.bind_ok e4
    cases e6
    obtain ⟨h1, h2⟩ := build_ok h hi e1
    exact ⟨by simp [Item.rules, hr, h1, lift_ok e3, lift_ok e5], h2⟩

theorem push_all (rs : List (Lexer.Rule C)) (e : Env C) (c : Text) (t : Act) :
    rs.foldl (fun e r => e.push c t r) e = { e with rules := e.rules ++ rs.map (·.nfa), actions := e.actions ++ rs.map fun r => ruleText r.rewind c t } := by
  induction rs generalizing e with
  | nil => simp
  | cons r rs ih => rw [List.foldl_cons, ih]; simp [Env.push]

/-- What a section does to the global state. -/
structure Effect (s : Text) (sys sys' : Sys C) (ds : List Decl) (l : List (NFA C × Text)) : Prop where
  rules : (sys'.envs s).rules = (sys.envs s).rules ++ l.map (·.1)
  actions : ∀ f as, (sys.envs s).actions = f :: as → (sys'.envs s).actions = lastFail f ds :: as ++ l.map (·.2)
  enter : (sys'.envs s).enter = lastEnter (sys.envs s).enter ds
  leave : (sys'.envs s).leave = lastLeave (sys.envs s).leave ds
  others : ∀ t, t ≠ s → sys'.envs t = sys.envs t
  loaded : sys'.loaded = sys.loaded

theorem setEnv_same (sys : Sys C) (s : Text) (e : Env C) : (sys.setEnv s e).envs s = e := by simp [Sys.setEnv]
theorem setEnv_other (sys : Sys C) {s t : Text} (e : Env C) (h : t ≠ s) : (sys.setEnv s e).envs t = sys.envs t := by simp [Sys.setEnv, h]

theorem execAll_spec {ds : List Decl} {is : List (Item C)} {as : List (Rx C)} (h : Sect A ns ds is as ns') {sys sys' : Sys C} (hi : Inv order fuel sys.store ns)
    (e : execAll A order fuel s sys ds = .ok sys') :
    ∃ rss, List.Forall₂ (fun (i : Item C) rs => i.rules A order fuel = some rs) is rss ∧ Inv order fuel sys'.store ns' ∧ Effect s sys sys' ds (entries is rss) := by
  induction h generalizing sys with
  | nil =>
    cases e
    exact ⟨[], .nil, hi, by simp [entries], by intro f as h; simp [h, entries, lastFail], rfl, rfl, fun _ _ => rfl, rfl⟩
  | @define ns t x a ds is as ns' hx _ ih =>
    obtain ⟨sys1, e1, e2⟩ := Out.bind_ok e
    obtain ⟨p, e3, e4⟩ := Out.bind_ok e1
    cases e4
    obtain ⟨h1, h2⟩ := build_ok hx hi e3
    obtain ⟨rss, h3, h4, h5⟩ := ih (inv_define h2 h1 t) e2
    exact ⟨rss, h3, h4, h5.rules, h5.actions, h5.enter, h5.leave, h5.others, h5.loaded⟩
  | @rule ns x y c t a b ds is as ns' hx hy _ ih =>
    obtain ⟨sys1, e1, e2⟩ := Out.bind_ok e
    obtain ⟨p, e3, e4⟩ := Out.bind_ok e1
    obtain ⟨q, e5, e6⟩ := Out.bind_ok e4
    cases e6
    obtain ⟨h1, h2⟩ := build_ok hx hi e3
    obtain ⟨h3, h4⟩ := behind_ok hy h2 h1 e5 c t
    obtain ⟨rss, h5, h6, h7⟩ := ih h4 e2
    refine ⟨q.1 :: rss, .cons h3 h5, h6, ?_, ?_, ?_, ?_, ?_, ?_⟩
    · rw [h7.rules, setEnv_same, push_all]; simp [entries, Function.comp_def]
    · intro f as hf
      rw [h7.actions f (as ++ q.1.map fun r => ruleText r.rewind c t) (by rw [setEnv_same, push_all]; simp [hf])]
      simp [entries, lastFail, Function.comp_def]
    · rw [h7.enter, setEnv_same, push_all]; rfl
    · rw [h7.leave, setEnv_same, push_all]; rfl
    · intro u hu; rw [h7.others u hu, setEnv_other _ _ hu]
    · rw [h7.loaded]; rfl
  | @fail ns c ds is as ns' _ ih =>
    obtain ⟨sys1, e1, e2⟩ := Out.bind_ok e
    simp only [exec] at e1
    split at e1
    · cases e1
    · next f as hf =>
      cases e1
      obtain ⟨rss, h3, h4, h5⟩ := ih (sys := sys.setEnv s _) hi e2
      refine ⟨rss, h3, h4, by rw [h5.rules, setEnv_same], ?_, by rw [h5.enter, setEnv_same]; rfl, by rw [h5.leave, setEnv_same]; rfl,
        fun u hu => by rw [h5.others u hu, setEnv_other _ _ hu], h5.loaded⟩
      intro f' as' hf'
      rw [hf] at hf'; cases hf'
      rw [h5.actions c as (by rw [setEnv_same])]; rfl
  | @enter ns c ds is as ns' _ ih =>
    obtain ⟨sys1, e1, e2⟩ := Out.bind_ok e
    cases e1
    obtain ⟨rss, h3, h4, h5⟩ := ih (sys := sys.setEnv s _) hi e2
    exact ⟨rss, h3, h4, by rw [h5.rules, setEnv_same], fun f as hf => by rw [h5.actions f as (by rw [setEnv_same]; exact hf)]; rfl,
      by rw [h5.enter, setEnv_same]; rfl, by rw [h5.leave, setEnv_same]; rfl, fun u hu => by rw [h5.others u hu, setEnv_other _ _ hu], h5.loaded⟩
  | @leave ns c ds is as ns' _ ih =>
    obtain ⟨sys1, e1, e2⟩ := Out.bind_ok e
    cases e1
    obtain ⟨rss, h3, h4, h5⟩ := ih (sys := sys.setEnv s _) hi e2
    exact ⟨rss, h3, h4, by rw [h5.rules, setEnv_same], fun f as hf => by rw [h5.actions f as (by rw [setEnv_same]; exact hf)]; rfl,
      by rw [h5.enter, setEnv_same]; rfl, by rw [h5.leave, setEnv_same]; rfl, fun u hu => by rw [h5.others u hu, setEnv_other _ _ hu], h5.loaded⟩

/-! ### Success -/

theorem behind_go {y : Behind} {b : Option (Bool × Rx C)} (h : ResolvesBehind A ns y b) {st : Store C} (hi : Inv order fuel st ns) {a : Rx C} {r : NFA C}
    (hr : a.build order fuel = some r) {c : Text} {t : Act} {rs : List (Lexer.Rule C)} (hrs : (Item.mk a b c t).rules A order fuel = some rs) :
    ∃ q, buildBehind A order fuel r y st = .ok q := by
  cases h with
  | nothing => exact ⟨_, rfl⟩
  | @lookahead y b h =>
    simp only [Item.rules, hr, Option.bind_eq_bind, Option.bind_some, Option.bind_eq_some_iff] at hrs
    obtain ⟨l, h1, h2⟩ := hrs
    have := build_agrees h hi
    rw [h1] at this
    obtain ⟨st', e, _⟩ := this
    exact ⟨(rs, st'), by simp [buildBehind, e, Out.bind, h2, lift]⟩
  | @barrier y b h =>
    simp only [Item.rules, hr, Option.bind_eq_bind, Option.bind_some, Option.bind_eq_some_iff] at hrs
    obtain ⟨l, h1, any, h2, h3⟩ := hrs
    have := build_agrees h hi
    rw [h1] at this
    obtain ⟨st', e, _⟩ := this
    exact ⟨(rs, st'), by simp [buildBehind, e, Out.bind, h2, h3, lift]⟩

theorem section_go (ho : Enumerates order) {ds : List Decl} {is : List (Item C)} {as : List (Rx C)} (h : Sect A ns ds is as ns') (hs : ∀ a ∈ as, a.Safe)
    (hr : ∀ i ∈ is, ∃ F, ∀ fuel, F ≤ fuel → ∃ rs, i.rules A order fuel = some rs) :
    ∃ F, ∀ fuel, F ≤ fuel → ∀ sys : Sys C, Inv order fuel sys.store ns → (sys.envs s).actions ≠ [] → ∃ sys', execAll A order fuel s sys ds = .ok sys' := by
  induction h with
  | nil => exact ⟨0, fun fuel _ sys _ _ => ⟨sys, rfl⟩⟩
  | @define ns t x a ds is as ns' hx _ ih =>
    obtain ⟨F, h1⟩ := ih (fun a ha => hs a (List.mem_cons_of_mem _ ha)) hr
    obtain ⟨F', n, h2, _⟩ := build_spec order ho a (hs a List.mem_cons_self)
    refine ⟨max F F', fun fuel hf sys hi hne => ?_⟩
    have h3 := h2 fuel (by omega)
    have := build_agrees hx hi
    rw [h3] at this
    obtain ⟨st, e, hi'⟩ := this
    obtain ⟨sys', e'⟩ := h1 fuel (by omega) { sys with store := st.set t ⟨n, false⟩ } (inv_define hi' h3 t) hne
    exact ⟨sys', by simp only [execAll, exec, e, Out.bind]; exact e'⟩
  | @rule ns x y c t a b ds is as ns' hx hy _ ih =>
    obtain ⟨F, h1⟩ := ih (fun a ha => hs a (by simp [ha])) fun i hi => hr i (List.mem_cons_of_mem _ hi)
    obtain ⟨F', n, h2, _⟩ := build_spec order ho a (hs a (by simp))
    obtain ⟨F'', h5⟩ := hr _ List.mem_cons_self
    refine ⟨max F (max F' F''), fun fuel hf sys hi hne => ?_⟩
    have h3 := h2 fuel (by omega)
    have := build_agrees hx hi
    rw [h3] at this
    obtain ⟨st, e, hi'⟩ := this
    obtain ⟨rs, h6⟩ := h5 fuel (by omega)
    obtain ⟨q, h7⟩ := behind_go hy hi' h3 h6
    obtain ⟨_, h8⟩ := behind_ok hy hi' h3 h7 c t
    obtain ⟨sys', e'⟩ := h1 fuel (by omega) ({ sys with store := q.2 }.setEnv s (q.1.foldl (fun e r => e.push c t r) (sys.envs s))) h8 (by
      rw [setEnv_same, push_all]; simp [hne])
    exact ⟨sys', by simp only [execAll, exec, e, Out.bind, h7]; exact e'⟩
  | @fail ns c ds is as ns' _ ih =>
    obtain ⟨F, h1⟩ := ih hs hr
    refine ⟨F, fun fuel hf sys hi hne => ?_⟩
    cases ha : (sys.envs s).actions with
    | nil => exact absurd ha hne
    | cons f as =>
      obtain ⟨sys', e'⟩ := h1 fuel hf (sys.setEnv s { sys.envs s with actions := c :: as }) hi (by rw [setEnv_same]; simp)
      exact ⟨sys', by simp only [execAll, exec, ha, Out.bind]; exact e'⟩
  | @enter ns c ds is as ns' _ ih =>
    obtain ⟨F, h1⟩ := ih hs hr
    refine ⟨F, fun fuel hf sys hi hne => ?_⟩
    exact h1 fuel hf (sys.setEnv s { sys.envs s with enter := c }) hi (by rw [setEnv_same]; exact hne)
  | @leave ns c ds is as ns' _ ih =>
    obtain ⟨F, h1⟩ := ih hs hr
    refine ⟨F, fun fuel hf sys hi hne => ?_⟩
    exact h1 fuel hf (sys.setEnv s { sys.envs s with leave := c }) hi (by rw [setEnv_same]; exact hne)

/-! ### Languages of the rules -/

/-- Every text in the section matches what it stands for. -/
def FaithfulAll (A : Chars C) (K : Spec.Reading) (ds : List Decl) : Prop :=
  ∀ d ∈ ds, (∀ s x, d = .define s x → Faithful A K x) ∧ ∀ x y c t, d = .rule x y c t → Faithful A K x

theorem named_define {N : Text → Lang} (hN : Named ns N) {t : Text} {a : Rx C} {L : Lang} (h : ∀ w, a.den w ↔ L w) :
    Named (define ns t a) (Spec.redefine N t L) := by
  intro u b hu w
  simp only [define] at hu
  split at hu
  · next he => cases hu; simp only [Spec.redefine, if_pos he]; exact h w
  · next he => simp only [Spec.redefine, if_neg he]; exact hN u b hu w

theorem sect_langs {K : Spec.Reading} {ds : List Decl} {is : List (Item C)} {as : List (Rx C)} (h : Sect A ns ds is as ns') (hf : FaithfulAll A K ds)
    {N : Text → Lang} (hN : Named ns N) :
    List.Forall₂ (fun (i : Item C) L => ∀ w, i.rx.den w ↔ L w) is (Spec.ruleLangs K (CharSetLike.size C) N ds) ∧
      Named ns' (Spec.finalNames K (CharSetLike.size C) N ds) := by
  induction h generalizing N with
  | nil => exact ⟨.nil, hN⟩
  | @define ns t x a ds is as ns' hx _ ih =>
    have h1 := resolves_den hN hx ((hf _ List.mem_cons_self).1 _ _ rfl)
    exact ih (fun d hd => hf d (List.mem_cons_of_mem _ hd)) (named_define hN h1)
  | @rule ns x y c t a b ds is as ns' hx hy _ ih =>
    have h1 := resolves_den hN hx ((hf _ List.mem_cons_self).2 _ _ _ _ rfl)
    obtain ⟨h2, h3⟩ := ih (fun d hd => hf d (List.mem_cons_of_mem _ hd)) hN
    exact ⟨.cons h1 h2, h3⟩
  | fail _ ih | enter _ ih | leave _ ih => exact ih (fun d hd => hf d (List.mem_cons_of_mem _ hd)) hN

end Verif.LexSyn
