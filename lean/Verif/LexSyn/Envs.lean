import Verif.LexSyn.Files

set_option linter.unusedSectionVars false

/-!
# The tables of rules and actions
-/

namespace Verif.LexSyn

open Verif.Auto

variable {C : Type} [CharSetLike C] {A : Chars C} {order : List Bits → List Bits} {fuel : Nat}

theorem lastFail_eq (f : Text) (ds : List Decl) : lastFail f ds = Spec.last f Spec.failCode ds := by
  induction ds generalizing f with
  | nil => rfl
  | cons d ds ih =>
    cases d <;> simp only [lastFail, ih, Spec.last, List.filterMap_cons, Spec.failCode]
    simp [List.getLast?_cons]

theorem lastEnter_eq (f : Text) (ds : List Decl) : lastEnter f ds = Spec.last f Spec.enterCode ds := by
  induction ds generalizing f with
  | nil => rfl
  | cons d ds ih =>
    cases d <;> simp only [lastEnter, ih, Spec.last, List.filterMap_cons, Spec.enterCode]
    simp [List.getLast?_cons]

theorem lastLeave_eq (f : Text) (ds : List Decl) : lastLeave f ds = Spec.last f Spec.leaveCode ds := by
  induction ds generalizing f with
  | nil => rfl
  | cons d ds ih =>
    cases d <;> simp only [lastLeave, ih, Spec.last, List.filterMap_cons, Spec.leaveCode]
    simp [List.getLast?_cons]

theorem last_append (f : Text) (g : Decl → Option Text) (ds es : List Decl) : Spec.last f g (ds ++ es) = Spec.last (Spec.last f g ds) g es := by
  simp only [Spec.last, List.filterMap_append, List.getLast?_append]
  cases (List.filterMap g es).getLast? <;> simp

theorem actText_eq (t : Act) : actText t = Spec.ending t := by cases t <;> rfl

theorem ruleText_none (c : Text) (t : Act) : ruleText none c t = c ++ Spec.ending t := by simp [ruleText, actText_eq]

theorem ruleText_some (k : Int) (c : Text) (t : Act) : ruleText (some k) c t = Spec.back k ++ c ++ Spec.ending t := by
  simp [ruleText, actText_eq, Spec.back, txt, Spec.bytes]

/-- What the rules of `ds` put into the tables. -/
def Groups (ds : List Decl) (gs : List (List (NFA C × Text))) : Prop :=
  List.Forall₂ (fun d g => Spec.Gives d (g.map (·.2))) (ds.filterMap Spec.ruleOf) gs

theorem behind_gives {r : NFA C} {y : Behind} {st : Store C} {q : List (Lexer.Rule C) × Store C} (e : buildBehind A order fuel r y st = .ok q) (c : Text) (t : Act) :
    Spec.Gives (y, c, t) (q.1.map fun r => ruleText r.rewind c t) := by
  cases y with
  | nothing => cases e; simp only [List.map_cons, List.map_nil, ruleText_none]; exact .plain
  | lookahead x =>
    obtain ⟨p, e1, e2⟩ := Out.bind_ok e
    obtain ⟨rs, e3, e4⟩ := Out.bind_ok e2
    cases e4
    have e3 := lift_ok e3
    simp only [Lexer.lookaheadRule, Option.bind_eq_bind, Option.bind_eq_some_iff] at e3
    obtain ⟨o, _, h⟩ := e3
    cases o with
    | none => cases h; simp only [List.map_cons, List.map_nil, ruleText_none]; exact .plain
    | some k =>
      simp only [Option.bind_eq_some_iff] at h
      obtain ⟨n, _, h⟩ := h
      cases h; simp only [List.map_cons, List.map_nil, ruleText_some]; exact .lookahead
  | barrier x =>
    obtain ⟨p, e1, e2⟩ := Out.bind_ok e
    obtain ⟨any, e3, e4⟩ := Out.bind_ok e2
    obtain ⟨rs, e5, e6⟩ := Out.bind_ok e4
    cases e6
    have e5 := lift_ok e5
    simp only [Lexer.barrierRule, Option.bind_eq_bind, Option.bind_eq_some_iff] at e5
    obtain ⟨o, _, h⟩ := e5
    cases o with
    | none => cases h; simp only [List.map_cons, List.map_nil, ruleText_none]; exact .plain
    | some k =>
      simp only [Option.bind_eq_some_iff] at h
      obtain ⟨_, _, _, _, _, _, _, _, _, _, _, _, _, _, _, _, h⟩ := h
      cases h; simp only [List.map_cons, List.map_nil, ruleText_some, ruleText_none]; exact .barrier

theorem execAll_env {s : Text} {ds : List Decl} {sys sys' : Sys C} (e : execAll A order fuel s sys ds = .ok sys') : ∃ gs, Groups ds gs ∧ Effect s sys sys' ds gs.flatten := by
  induction ds generalizing sys with
  | nil => cases e; exact ⟨[], .nil, by simp, by intro f as h; simp [h, lastFail], rfl, rfl, fun _ _ => rfl, rfl⟩
  | cons d ds ih =>
    obtain ⟨sys1, e1, e2⟩ := Out.bind_ok e
    obtain ⟨gs, h1, h2⟩ := ih e2
    cases d with
    | define t x =>
      obtain ⟨p, e3, e4⟩ := Out.bind_ok e1
      cases e4
      exact ⟨gs, h1, h2.rules, h2.actions, h2.enter, h2.leave, h2.others, h2.loaded⟩
    | rule x y c t =>
      obtain ⟨p, e3, e4⟩ := Out.bind_ok e1
      obtain ⟨q, e5, e6⟩ := Out.bind_ok e4
      cases e6
      refine ⟨q.1.map (fun r => (r.nfa, ruleText r.rewind c t)) :: gs, .cons (by simpa [Function.comp_def] using behind_gives e5 c t) h1, ?_, ?_, ?_, ?_, ?_, ?_⟩
      · rw [h2.rules, setEnv_same, push_all]; simp [Function.comp_def]
      · intro f as hf
        rw [h2.actions f (as ++ q.1.map fun r => ruleText r.rewind c t) (by rw [setEnv_same, push_all]; simp [hf])]
        simp [lastFail, Function.comp_def]
      · rw [h2.enter, setEnv_same, push_all]; rfl
      · rw [h2.leave, setEnv_same, push_all]; rfl
      · intro u hu; rw [h2.others u hu, setEnv_other _ _ hu]
      · rw [h2.loaded]; rfl
    | fail c =>
      simp only [exec] at e1
      split at e1
      · cases e1
      · next f as hf =>
        cases e1
        refine ⟨gs, h1, by rw [h2.rules, setEnv_same], ?_, by rw [h2.enter, setEnv_same]; rfl, by rw [h2.leave, setEnv_same]; rfl,
          fun u hu => by rw [h2.others u hu, setEnv_other _ _ hu], h2.loaded⟩
        intro f' as' hf'
        rw [hf] at hf'; cases hf'
        rw [h2.actions c as (by rw [setEnv_same])]; rfl
    | enter c =>
      cases e1
      exact ⟨gs, h1, by rw [h2.rules, setEnv_same], fun f as hf => by rw [h2.actions f as (by rw [setEnv_same]; exact hf)]; rfl,
        by rw [h2.enter, setEnv_same]; rfl, by rw [h2.leave, setEnv_same]; rfl, fun u hu => by rw [h2.others u hu, setEnv_other _ _ hu], h2.loaded⟩
    | leave c =>
      cases e1
      exact ⟨gs, h1, by rw [h2.rules, setEnv_same], fun f as hf => by rw [h2.actions f as (by rw [setEnv_same]; exact hf)]; rfl,
        by rw [h2.enter, setEnv_same]; rfl, by rw [h2.leave, setEnv_same]; rfl, fun u hu => by rw [h2.others u hu, setEnv_other _ _ hu], h2.loaded⟩

theorem execSection_all {uni : Store C → Out (Store C)} {sys sys' : Sys C} {o : Option Text} {ds : List Decl} (e : execSection A order fuel uni sys (o, ds) = .ok sys') :
    ∃ sys0 : Sys C, sys0.envs = sys.envs ∧ execAll A order fuel (Spec.target o) (openEnv (Spec.target o) sys0) ds = .ok sys' := by
  cases o with
  | some s => exact ⟨sys, rfl, e⟩
  | none =>
    obtain ⟨sys1, e1, e2⟩ := Out.bind_ok e
    refine ⟨sys1, ?_, e2⟩
    split at e1
    · cases e1; rfl
    · obtain ⟨st, _, e4⟩ := Out.bind_ok e1
      cases e4; rfl

/-- The tables of a rule set in which declarations `ds` were read (at least one section, if `opened`). -/
structure Holds (opened : Bool) (ds : List Decl) (env : Env C) : Prop where
  groups : ∃ gs, Groups ds gs ∧ env.rules = gs.flatten.map (·.1) ∧
    env.actions = if opened then Spec.last failText Spec.failCode ds :: gs.flatten.map (·.2) else []
  enter : env.enter = Spec.last [] Spec.enterCode ds
  leave : env.leave = Spec.last [] Spec.leaveCode ds
  none : opened = false → ds = []

theorem section_holds {uni : Store C → Out (Store C)} {sys sys' : Sys C} {o : Option Text} {ds : List Decl} (e : execSection A order fuel uni sys (o, ds) = .ok sys')
    {t : Text} {opened : Bool} {es : List Decl} (h : Holds opened es (sys.envs t)) :
    if Spec.target o = t then Holds true (es ++ ds) (sys'.envs t) else Holds opened es (sys'.envs t) := by
  obtain ⟨sys0, e0, e1⟩ := execSection_all e
  obtain ⟨gs, h1, h2⟩ := execAll_env e1
  obtain ⟨⟨gs0, g1, g2, g3⟩, h4, h5, h6⟩ := h
  rw [← e0] at g2 g3 h4 h5
  split
  · next ht =>
    rw [ht] at h2
    have ho : (((openEnv t sys0).envs t).rules = gs0.flatten.map (·.1)) ∧ ((openEnv t sys0).envs t).enter = Spec.last [] Spec.enterCode es ∧
        ((openEnv t sys0).envs t).leave = Spec.last [] Spec.leaveCode es ∧
        ((openEnv t sys0).envs t).actions = Spec.last failText Spec.failCode es :: gs0.flatten.map (·.2) := by
      cases opened with
      | false =>
        have := h6 rfl
        subst this
        cases g1
        have ha : (sys0.envs t).actions = [] := by simpa using g3
        simp only [openEnv, ha, if_true, setEnv_same]
        exact ⟨g2, h4, h5, by simp [Spec.last]⟩
      | true =>
        have ha : (sys0.envs t).actions ≠ [] := by rw [g3]; simp
        simp only [openEnv, ha, if_false]
        exact ⟨g2, h4, h5, by rw [g3]; simp⟩
    obtain ⟨o1, o2, o3, o4⟩ := ho
    refine ⟨⟨gs0 ++ gs, ?_, ?_, ?_⟩, ?_, ?_, by simp⟩
    · simp only [Groups, List.filterMap_append]; exact List.rel_append g1 h1
    · rw [h2.rules, o1]; simp
    · rw [h2.actions _ _ o4, lastFail_eq, last_append]; simp
    · rw [h2.enter, o2, lastEnter_eq, last_append]
    · rw [h2.leave, o3, lastLeave_eq, last_append]
  · next ht =>
    have : sys'.envs t = sys0.envs t := by
      rw [h2.others t (Ne.symm ht)]
      simp only [openEnv]
      split
      · rw [setEnv_other _ _ (Ne.symm ht)]
      · rfl
    rw [this]
    exact ⟨⟨gs0, g1, g2, g3⟩, h4, h5, h6⟩

theorem file_holds {uni : Store C → Out (Store C)} {ss : List (Option Text × List Decl)} {sys sys' : Sys C} (e : execFile A order fuel uni sys ss = .ok sys')
    {t : Text} {opened : Bool} {es : List Decl} (h : Holds opened es (sys.envs t)) :
    Holds (opened || ss.any fun p => Spec.target p.1 = t) (es ++ Spec.ofEnv t ss) (sys'.envs t) := by
  induction ss generalizing sys opened es with
  | nil => cases e; simpa [Spec.ofEnv] using h
  | cons p ss ih =>
    obtain ⟨o, ds⟩ := p
    obtain ⟨sys1, e1, e2⟩ := Out.bind_ok e
    have h1 := section_holds e1 h
    split at h1
    · next ht =>
      have := ih e2 h1
      simpa [Spec.ofEnv, ht] using this
    · next ht =>
      have := ih e2 h1
      simpa [Spec.ofEnv, ht] using this

end Verif.LexSyn
