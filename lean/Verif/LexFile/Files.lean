import Verif.LexFile.Items
import Verif.LexSyn.Files

set_option linter.unusedSectionVars false

/-!
# Files with lookahead and barriers
-/

namespace Verif.LexFile

open Verif.Auto Verif.LexSyn Verif.Read

variable {C : Type} [CharSetLike C]

local notation "size" => CharSetLike.size C

variable {A : Chars C} {order : List Bits → List Bits} {ns : Text → Option (Rx C)} {K : LexSyn.Spec.Reading} {N : Text → Lang} {tok num : Text → Nat}

/-- The conditions on all lookaheads and barriers of a section. -/
def BehindAll (A : Chars C) (K : LexSyn.Spec.Reading) : (Text → Lang) → (Text → Prop) → List Decl → Prop
  | _, _, [] => True
  | N, kn, .define s x :: ds => BehindAll A K (LexSyn.Spec.redefine N s (LexSyn.Spec.den K size N x)) (LexSyn.Spec.learn kn (.define s x)) ds
  | N, kn, .rule _ y _ _ :: ds => BehindOk A K N kn y ∧ BehindAll A K N kn ds
  | N, kn, _ :: ds => BehindAll A K N kn ds

def BehindFile (A : Chars C) (K : LexSyn.Spec.Reading) : (Text → Lang) → (Text → Prop) → List (Option Text × List Decl) → Prop
  | _, _, [] => True
  | N, kn, (_, ds) :: ss => BehindAll A K N kn ds ∧ BehindFile A K (LexSyn.Spec.finalNames K size N ds) (ds.foldl LexSyn.Spec.learn kn) ss

theorem sect_right (hsz : 0 < size) (ho : Enumerates order) (hK : K.Bounded) {ds : List Decl} (hf : FaithfulAll A K ds) {kn : Text → Prop} (hp : BehindAll A K N kn ds)
    (hkn : ∀ s, kn s → ns s ≠ none) (hN : LexSyn.Named ns N) (hns : ∀ s a, ns s = some a → a.Safe) (hc : LexSyn.Spec.ClosedAll kn ds) (hs : LexSyn.Spec.SafeAll K size N ds) :
    ∃ is as ns', Sect A ns ds is as ns' ∧ (∀ a ∈ as, a.Safe) ∧ (∀ s a, ns' s = some a → a.Safe) ∧ (∀ s, ds.foldl LexSyn.Spec.learn kn s → ns' s ≠ none) ∧
      ∃ F rss, (∀ fuel, F ≤ fuel → List.Forall₂ (fun (i : Item C) rs => i.rules A order fuel = some rs) is rss) ∧
        ∀ es, Spec.Section K size tok num N ds es → List.Forall₂ (Good tok num) (entries is rss) es := by
  induction ds generalizing ns N kn with
  | nil => exact ⟨[], [], ns, .nil, by simp, hns, hkn, 0, [], fun _ _ => .nil, fun es he => by cases he; exact .nil⟩
  | cons d ds ih =>
    have hf' : FaithfulAll A K ds := fun d hd => hf d (List.mem_cons_of_mem _ hd)
    obtain ⟨hc1, hc2, hc3⟩ := hc
    cases d with
    | define t x =>
      have hfx := (hf _ List.mem_cons_self).1 t x rfl
      obtain ⟨a, a1, a2, _⟩ := resolves_safe hK hN hns hfx (closed_congr hkn (hc1 t x rfl)) hs.1
      obtain ⟨is, as, ns', h1, h2, h3, h4, F, rss, h5, h6⟩ := ih (ns := define ns t a) hf' (kn := LexSyn.Spec.learn kn (.define t x)) hp (by
          rintro s (rfl | h)
          · simp [define]
          · simp only [define]; split
            · simp
            · exact hkn s h) (named_define hN fun w => resolves_den hN a1 hfx w) (by
          intro s b hb
          simp only [define] at hb
          split at hb
          · cases hb; exact a2
          · exact hns s b hb) hc3 hs.2
      exact ⟨is, a :: as, ns', .define a1 h1, by simpa using ⟨a2, h2⟩, h3, h4, F, rss, h5, fun es he => by cases he with | define he => exact h6 es he⟩
    | rule x y c t =>
      have hfx := (hf _ List.mem_cons_self).2 x y c t rfl
      obtain ⟨a, a1, a2, _⟩ := resolves_safe hK hN hns hfx (closed_congr hkn (hc2 x y c t rfl)) hs.1
      obtain ⟨b, b1, b2, F, rs, b3, b4⟩ := item_rules (tok := tok) (num := num) hsz ho hK hN hns hkn a1 hfx a2 hp.1 c t
      obtain ⟨is, as, ns', h1, h2, h3, h4, F', rss, h5, h6⟩ := ih hf' hp.2 hkn hN hns hc3 hs.2
      refine ⟨⟨a, b, c, t⟩ :: is, _, ns', .rule a1 b1 h1, ?_, h3, h4, max F F', rs :: rss, fun fuel hfu => .cons (b3 fuel (by omega)) (h5 fuel (by omega)), fun es he => ?_⟩
      · intro a' ha'
        simp only [List.cons_append, List.mem_cons, List.mem_append, Option.mem_toList, Option.mem_def, Option.map_eq_some_iff] at ha'
        rcases ha' with rfl | ⟨p, hp, rfl⟩ | h
        · exact a2
        · exact b2 p hp
        · exact h2 a' h
      · cases he with
        | rule he1 he2 => exact List.rel_append (b4 _ he1) (h6 _ he2)
    | fail c =>
      obtain ⟨is, as, ns', h1, h2, h3, h4, F, rss, h5, h6⟩ := ih hf' hp hkn hN hns hc3 hs
      exact ⟨is, as, ns', .fail h1, h2, h3, h4, F, rss, h5, fun es he => by cases he with | fail he => exact h6 es he⟩
    | enter c =>
      obtain ⟨is, as, ns', h1, h2, h3, h4, F, rss, h5, h6⟩ := ih hf' hp hkn hN hns hc3 hs
      exact ⟨is, as, ns', .enter h1, h2, h3, h4, F, rss, h5, fun es he => by cases he with | enter he => exact h6 es he⟩
    | leave c =>
      obtain ⟨is, as, ns', h1, h2, h3, h4, F, rss, h5, h6⟩ := ih hf' hp hkn hN hns hc3 hs
      exact ⟨is, as, ns', .leave h1, h2, h3, h4, F, rss, h5, fun es he => by cases he with | leave he => exact h6 es he⟩

theorem forall₂_rules {fuel : Nat} {is : List (Item C)} {rss rss' : List (List (Lexer.Rule C))} (h : List.Forall₂ (fun (i : Item C) rs => i.rules A order fuel = some rs) is rss)
    (h' : List.Forall₂ (fun (i : Item C) rs => i.rules A order fuel = some rs) is rss') : rss = rss' := by
  induction h generalizing rss' with
  | nil => cases h'; rfl
  | cons h1 _ ih => cases h' with | cons h2 h3 => rw [ih h3, Option.some.inj (h1.symm.trans h2)]

/-- One section. -/
theorem section_right (hsz : 0 < size) (ho : Enumerates order) (hK : K.Bounded) {ds : List Decl} (hf : FaithfulAll A K ds) {kn : Text → Prop} (hp : BehindAll A K N kn ds)
    (hkn : ∀ s, kn s → ns s ≠ none) (hN : LexSyn.Named ns N) (hns : ∀ s a, ns s = some a → a.Safe) (hc : LexSyn.Spec.ClosedAll kn ds) (hs : LexSyn.Spec.SafeAll K size N ds) (s : Text) :
    ∃ ns' : Text → Option (Rx C), LexSyn.Named ns' (LexSyn.Spec.finalNames K size N ds) ∧ (∀ s a, ns' s = some a → a.Safe) ∧ (∀ s, ds.foldl LexSyn.Spec.learn kn s → ns' s ≠ none) ∧
    ∃ F, ∃ l : List (NFA C × Text), (∀ es, Spec.Section K size tok num N ds es → List.Forall₂ (Good tok num) l es) ∧
      ∀ fuel, F ≤ fuel → ∀ sys : Sys C, Inv order fuel sys.store ns → (sys.envs s).actions ≠ [] → ∃ sys', execAll A order fuel s sys ds = .ok sys' ∧
        Inv order fuel sys'.store ns' ∧ Effect s sys sys' ds l := by
  obtain ⟨is, as, ns', h1, h2, h3, h4, F, rss, h5, h6⟩ := sect_right (tok := tok) (num := num) hsz ho hK hf hp hkn hN hns hc hs
  obtain ⟨_, h7⟩ := sect_langs h1 hf hN
  obtain ⟨F', h8⟩ := section_go (s := s) ho h1 h2 (fun i hi => ⟨F, fun fuel hfu => by
    obtain ⟨j, hj, rfl⟩ := List.mem_iff_getElem.1 hi
    have := (List.forall₂_iff_get.1 (h5 fuel hfu))
    exact ⟨_, this.2 j hj (by rw [← this.1]; exact hj)⟩⟩)
  refine ⟨ns', h7, h3, h4, max F F', entries is rss, h6, fun fuel hfu sys hi hne => ?_⟩
  obtain ⟨sys', e⟩ := h8 fuel (by omega) sys hi hne
  obtain ⟨rss', g1, g2, g3⟩ := execAll_spec h1 hi e
  rw [forall₂_rules g1 (h5 fuel (by omega))] at g3
  exact ⟨sys', e, g2, g3⟩

theorem openEnv_actions (s : Text) (sys : Sys C) (t : Text) : ((openEnv s sys).envs t).actions.tail = (sys.envs t).actions.tail := by
  unfold openEnv
  split
  · next h =>
    simp only [Sys.setEnv]
    split
    · next h' => subst h'; rw [h]; rfl
    · rfl
  · rfl

/-- Several sections, the Unicode data being loaded already or not needed. -/
theorem file_right (hsz : 0 < size) (ho : Enumerates order) (hK : K.Bounded) (uni : Store C → Out (Store C)) (ss : List (Option Text × List Decl)) {kn : Text → Prop}
    (hf : ∀ p ∈ ss, FaithfulAll A K p.2) (hp : BehindFile A K N kn ss)
    (hkn : ∀ s, kn s → ns s ≠ none) (hN : LexSyn.Named ns N) (hns : ∀ s a, ns s = some a → a.Safe) (hc : LexSyn.Spec.ClosedFile kn ss) (hs : LexSyn.Spec.SafeFile K size N ss) :
    ∃ F, ∃ l : Text → List (NFA C × Text), (∀ e es, Spec.File K size tok num e N ss es → List.Forall₂ (Good tok num) (l e) es) ∧
      ∀ fuel, F ≤ fuel → ∀ sys : Sys C, Inv order fuel sys.store ns → sys.loaded = true ∨ (∀ p ∈ ss, p.1 ≠ none) →
        ∃ sys' : Sys C, execFile A order fuel uni sys ss = .ok sys' ∧
          ∀ e, (sys'.envs e).rules = (sys.envs e).rules ++ (l e).map (·.1) ∧ (sys'.envs e).actions.tail = (sys.envs e).actions.tail ++ (l e).map (·.2) := by
  induction ss generalizing ns N kn with
  | nil => exact ⟨0, fun _ => [], fun e es he => by cases he; exact .nil, fun fuel _ sys _ _ => ⟨sys, rfl, by simp⟩⟩
  | cons p ss ih =>
    obtain ⟨o, ds⟩ := p
    obtain ⟨ns', k1, k2, k3, F, l1, k4, k5⟩ := section_right (tok := tok) (num := num) hsz ho hK (hf _ List.mem_cons_self) hp.1 hkn hN hns hc.1 hs.1 (LexSyn.Spec.target o)
    obtain ⟨F', l2, i1, i2⟩ := ih (fun p hp => hf p (List.mem_cons_of_mem _ hp)) hp.2 k3 k1 k2 hc.2 hs.2
    refine ⟨max F F', fun e => (if LexSyn.Spec.target o = e then l1 else []) ++ l2 e, fun e es he => ?_, fun fuel hfu sys hi hl => ?_⟩
    · cases he with
      | here ht h1 h2 => dsimp only; rw [if_pos ht]; exact List.rel_append (k4 _ h1) (i1 e _ h2)
      | other ht h2 => dsimp only; rw [if_neg ht]; exact i1 e _ h2
    · obtain ⟨o1, o2, o3, o4⟩ := openEnv_store (LexSyn.Spec.target o) sys
      obtain ⟨sys1, m1, m2, m3⟩ := k5 fuel (by omega) (openEnv (LexSyn.Spec.target o) sys) (by rw [o1]; exact hi) o3
      obtain ⟨sys2, n1, n2⟩ := i2 fuel (by omega) sys1 m2 (hl.imp (fun h => by rw [m3.loaded, o2, h]) fun h p hp => h p (List.mem_cons_of_mem _ hp))
      have e : execSection A order fuel uni sys (o, ds) = .ok sys1 := by
        cases o with
        | some s => exact m1
        | none =>
          have hl : sys.loaded = true := hl.resolve_right fun h => h _ List.mem_cons_self rfl
          simp only [execSection, hl, if_true, Out.bind]
          exact m1
      refine ⟨sys2, by simp only [execFile, e, Out.bind]; exact n1, fun e => ?_⟩
      rw [(n2 e).1, (n2 e).2]
      dsimp only
      by_cases he : LexSyn.Spec.target o = e
      · subst he
        rw [m3.rules, o4, if_pos rfl, List.map_append, List.map_append, List.append_assoc]
        refine ⟨rfl, ?_⟩
        cases ha : ((openEnv (LexSyn.Spec.target o) sys).envs (LexSyn.Spec.target o)).actions with
        | nil => exact absurd ha o3
        | cons f as =>
          rw [m3.actions f as ha, ← openEnv_actions (LexSyn.Spec.target o) sys, ha]
          simp
      · rw [m3.others e (Ne.symm he), o4, if_neg he, List.nil_append, openEnv_actions]
        exact ⟨rfl, rfl⟩

/-- A whole file. -/
theorem whole_right (hsz : 0 < size) (ho : Enumerates order) (hK : K.Bounded) (uni : Store C → Out (Store C)) (st0 : Store C)
    (hst : ∀ s d, st0 s = some d → d.ready = false ∧ d.nfa.Wf ∧ ∀ w, d.nfa.Lang w ↔ N s w) (ss : List (Option Text × List Decl))
    (hu : (∃ ds ss', ss = (none, ds) :: ss') ∧ uni (fun _ => none) = .ok st0 ∨ (∀ p ∈ ss, p.1 ≠ none) ∧ st0 = fun _ => none)
    (hf : ∀ p ∈ ss, FaithfulAll A K p.2) (hp : BehindFile A K N (fun s => st0 s ≠ none) ss) (hc : LexSyn.Spec.ClosedFile (fun s => st0 s ≠ none) ss)
    (hs : LexSyn.Spec.SafeFile K size N ss) :
    ∃ F, ∃ l : Text → List (NFA C × Text), (∀ e es, Spec.File K size tok num e N ss es → List.Forall₂ (Good tok num) (l e) es) ∧
      ∀ fuel, F ≤ fuel → ∃ sys', execFile A order fuel uni Sys.init ss = .ok sys' ∧
        ∀ e, (sys'.envs e).rules = (l e).map (·.1) ∧ (sys'.envs e).actions.tail = (l e).map (·.2) := by
  classical
  let ns : Text → Option (Rx C) := fun s => match st0 s with
    | none => none
    | some d => if h : d.nfa.Wf then some (.leaf d.nfa h) else none
  have hns : ∀ s, (st0 s = none ∧ ns s = none) ∨ ∃ d, ∃ h : d.nfa.Wf, st0 s = some d ∧ ns s = some (.leaf d.nfa h) := by
    intro s
    simp only [ns]
    cases hd : st0 s with
    | none => exact Or.inl ⟨rfl, rfl⟩
    | some d => exact Or.inr ⟨d, (hst s d hd).2.1, rfl, by simp [(hst s d hd).2.1]⟩
  have hi : ∀ fuel, Inv order fuel st0 ns := by
    intro fuel
    constructor
    · intro s h
      rcases hns s with ⟨h1, _⟩ | ⟨d, hd, _, h2⟩
      · exact h1
      · rw [h2] at h; cases h
    · intro s a h
      rcases hns s with ⟨_, h1⟩ | ⟨d, hd, h1, h2⟩
      · rw [h1] at h; cases h
      · rw [h2] at h; cases h
        exact ⟨d, h1, by rw [(hst s d h1).1]; rfl⟩
  obtain ⟨F, l, h0, h1⟩ := file_right (tok := tok) (num := num) (ns := ns) (kn := fun s => st0 s ≠ none) hsz ho hK uni ss hf (N := N) hp (by
      intro s h
      rcases hns s with ⟨h1, _⟩ | ⟨d, hd, _, h2⟩
      · exact absurd h1 h
      · rw [h2]; simp) (by
      intro s a h w
      rcases hns s with ⟨_, h1⟩ | ⟨d, hd, h1, h2⟩
      · rw [h1] at h; cases h
      · rw [h2] at h; cases h
        exact (hst s d h1).2.2 w) (by
      intro s a h
      rcases hns s with ⟨_, h1⟩ | ⟨d, hd, h1, h2⟩
      · rw [h1] at h; cases h
      · rw [h2] at h; cases h; trivial) hc hs
  refine ⟨F, l, h0, fun fuel hfu => ?_⟩
  rcases hu with ⟨⟨ds, ss', rfl⟩, hu⟩ | ⟨hu, he⟩
  · obtain ⟨sys', e, g⟩ := h1 fuel hfu ⟨st0, fun _ => ⟨[], [], [], []⟩, true⟩ (hi fuel) (Or.inl rfl)
    refine ⟨sys', ?_, fun e => by simpa using g e⟩
    simp only [execFile, execSection, Sys.init, Bool.false_eq_true, if_false, hu, Out.bind]
    exact e
  · obtain ⟨sys', e, g⟩ := h1 fuel hfu Sys.init (by rw [he] at hi; exact hi fuel) (Or.inr hu)
    exact ⟨sys', e, fun e => by simpa [Sys.init] using g e⟩

end Verif.LexFile
