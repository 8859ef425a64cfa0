import Verif.Top.Spec

/-!
# The settings after all declarations
-/

namespace Verif.Top

theorem directive_some {w w' : World} {d : Text.Directive} (h : w.directive d = some w') : w.hasLexer = false ∧ ∃ t, Text.step w.type d = some t ∧ w' = { w with type := t } := by
  unfold World.directive at h
  split at h
  · cases h
  · rename_i h0
    obtain ⟨t, h1, h2⟩ := Option.map_eq_some_iff.1 h
    exact ⟨by simpa using h0, t, h1, h2.symm⟩

theorem directive_eq {w w' : World} {d : Text.Directive} (h : w.directive d = some w') : w' = { w with type := w'.type } := by
  obtain ⟨-, t, -, rfl⟩ := directive_some h
  rfl

/-- A field is computed from the declarations one by one. -/
theorem fold_field {α : Type} (π : World → α) (f : Decl → α → α) (hf : ∀ w d w', World.exec w d = some w' → π w' = f d (π w)) : ∀ {ds : List Decl} {w w' : World},
    ds.foldlM World.exec w = some w' → π w' = ds.foldl (fun a d => f d a) (π w)
  | [], w, w', h => by cases h; rfl
  | d :: ds, w, w', h => by
    rw [List.foldlM_cons] at h
    obtain ⟨w1, h1, h2⟩ := Option.bind_eq_some_iff.1 h
    rw [fold_field π f hf h2, List.foldl_cons, hf w d w1 h1]

/-- The last value. -/
theorem fold_last {sel : Decl → Option Text} : ∀ {ds : List Decl} {a : Text}, ds.foldl (fun a d => (sel d).getD a) a = Spec.last a (ds.filterMap sel)
  | [], a => rfl
  | d :: ds, a => by
    rw [List.foldl_cons, fold_last, List.filterMap_cons]
    cases sel d with
    | none => rfl
    | some x =>
      simp only [Option.getD_some, Spec.last]
      cases ds.filterMap sel with
      | nil => rfl
      | cons y ys => rw [List.getLast?_cons_cons]; cases e : (y :: ys).getLast? with
        | none => simp at e
        | some z => rfl

theorem fold_append {α : Type} {sel : Decl → List α} : ∀ {ds : List Decl} {a : List α}, ds.foldl (fun a d => a ++ sel d) a = a ++ ds.flatMap sel
  | [], a => by simp
  | d :: ds, a => by rw [List.foldl_cons, fold_append, List.flatMap_cons, List.append_assoc]

theorem flatMap_option {α : Type} {sel : Decl → Option α} (ds : List Decl) : ds.flatMap (fun d => (sel d).toList) = ds.filterMap sel := by
  induction ds with
  | nil => rfl
  | cons d ds ih =>
    rw [List.flatMap_cons, List.filterMap_cons, ih]
    cases sel d <;> rfl

theorem last_field (π : World → Text) (sel : Decl → Option Text) (hf : ∀ w d w', World.exec w d = some w' → π w' = (sel d).getD (π w)) {ds : List Decl} {w w' : World}
    (h : ds.foldlM World.exec w = some w') : π w' = Spec.last (π w) (ds.filterMap sel) :=
  (fold_field π _ hf h).trans fold_last

theorem list_field {α : Type} (π : World → List α) (sel : Decl → Option α) (hf : ∀ w d w', World.exec w d = some w' → π w' = π w ++ (sel d).toList) {ds : List Decl} {w w' : World}
    (h : ds.foldlM World.exec w = some w') : π w' = π w ++ ds.filterMap sel := by
  rw [fold_field π (fun d a => a ++ (sel d).toList) hf h, fold_append, flatMap_option]

/-- One step: by the form of the declaration. -/
macro "step" : tactic => `(tactic| (intro w d w' h; unfold World.exec at h; split at h <;> first | (cases h; first | rfl | simp) | (rw [directive_eq h]; done) | (rw [directive_eq h]; first | rfl | simp)))

section
variable {ds : List Decl} {w w' : World} (h : ds.foldlM World.exec w = some w')
include h

theorem decl_eq : w'.decl = w.decl := by
  have := fold_field (·.decl) (fun _ a => a) (by step) h
  rw [this]
  generalize w.decl = a
  clear this h
  induction ds with
  | nil => rfl
  | cons d ds ih => simpa using ih

theorem exportMacro_eq : w'.exportMacro = Spec.last w.exportMacro (Spec.strings .exportMacro ds) := last_field (·.exportMacro) _ (by step) h
theorem exportMacroHeader_eq : w'.exportMacroHeader = Spec.last w.exportMacroHeader (Spec.strings .exportMacroHeader ds) := last_field (·.exportMacroHeader) _ (by step) h
theorem inputStream_eq : w'.inputStream = Spec.last w.inputStream (Spec.strings .inputStream ds) := last_field (·.inputStream) _ (by step) h
theorem parserBase_eq : w'.parserBase = Spec.last w.parserBase (Spec.strings .parserBase ds) := last_field (·.parserBase) _ (by step) h
theorem lexerBase_eq : w'.lexerBase = Spec.last w.lexerBase (Spec.strings .lexerBase ds) := last_field (·.lexerBase) _ (by step) h
theorem namespaceCode_eq : w'.namespaceCode = Spec.last w.namespaceCode (Spec.codes .namespace_ ds) := last_field (·.namespaceCode) _ (by step) h
theorem astCode_eq : w'.astCode = Spec.last w.astCode (Spec.codes .ast ds) := last_field (·.astCode) _ (by step) h
theorem tokenStream_eq : w'.tokenStream = Spec.last w.tokenStream (Spec.streams ds) := last_field (·.tokenStream) _ (by step) h

theorem parserDeclarationHeaders_eq : w'.parserDeclarationHeaders = w.parserDeclarationHeaders ++ Spec.strings .parserDeclarationHeader ds := list_field (·.parserDeclarationHeaders) _ (by step) h
theorem parserBitsHeaders_eq : w'.parserBitsHeaders = w.parserBitsHeaders ++ Spec.strings .parserBitsHeader ds := list_field (·.parserBitsHeaders) _ (by step) h
theorem astHeaders_eq : w'.astHeaders = w.astHeaders ++ Spec.strings .astHeader ds := list_field (·.astHeaders) _ (by step) h
theorem lexerDeclarationHeaders_eq : w'.lexerDeclarationHeaders = w.lexerDeclarationHeaders ++ Spec.strings .lexerDeclarationHeader ds := list_field (·.lexerDeclarationHeaders) _ (by step) h
theorem lexerBitsHeaders_eq : w'.lexerBitsHeaders = w.lexerBitsHeaders ++ Spec.strings .lexerBitsHeader ds := list_field (·.lexerBitsHeaders) _ (by step) h
theorem sections_eq : w'.sections = w.sections ++ Spec.sections ds := list_field (·.sections) _ (by step) h

theorem bits_eq : w'.bits = w.bits ++ (Spec.bits .parser ds).flatten := by
  rw [fold_field (·.bits) (fun d a => a ++ (match d with | .bits .parser c => c | _ => [])) (by step) h, fold_append]
  clear h
  congr 1
  induction ds with
  | nil => rfl
  | cons d ds ih =>
    rw [List.flatMap_cons, ih, Spec.bits, Spec.bits, List.filterMap_cons]
    cases d with
    | bits k c => cases k <;> simp
    | _ => rfl

theorem lexerBits_eq : w'.lexerBits = w.lexerBits ++ (Spec.bits .lexer ds).flatten := by
  rw [fold_field (·.lexerBits) (fun d a => a ++ (match d with | .bits .lexer c => c | _ => [])) (by step) h, fold_append]
  clear h
  congr 1
  induction ds with
  | nil => rfl
  | cons d ds ih =>
    rw [List.flatMap_cons, ih, Spec.bits, Spec.bits, List.filterMap_cons]
    cases d with
    | bits k c => cases k <;> simp
    | _ => rfl

theorem parserMembers_eq : w'.parserMembers = (Spec.members .parser ds).foldl (fun ms p => ms.push p.1 p.2) w.parserMembers := by
  rw [fold_field (·.parserMembers) (fun d ms => match d with | .member .parser m c => ms.push m c | _ => ms) (by step) h]
  generalize w.parserMembers = ms
  clear h
  induction ds generalizing ms with
  | nil => rfl
  | cons d ds ih =>
    rw [List.foldl_cons, ih, Spec.members, Spec.members, List.filterMap_cons]
    cases d with
    | member k m c => cases k <;> rfl
    | _ => rfl

theorem lexerMembers_eq : w'.lexerMembers = (Spec.members .lexer ds).foldl (fun ms p => ms.push p.1 p.2) w.lexerMembers := by
  rw [fold_field (·.lexerMembers) (fun d ms => match d with | .member .lexer m c => ms.push m c | _ => ms) (by step) h]
  generalize w.lexerMembers = ms
  clear h
  induction ds generalizing ms with
  | nil => rfl
  | cons d ds ih =>
    rw [List.foldl_cons, ih, Spec.members, Spec.members, List.filterMap_cons]
    cases d with
    | member k m c => cases k <;> rfl
    | _ => rfl

theorem hasLexer_eq : w'.hasLexer = (w.hasLexer || !(Spec.sections ds).isEmpty) := by
  rw [fold_field (·.hasLexer) (fun d b => match d with | .lexer _ _ => true | _ => b) (by step) h]
  generalize w.hasLexer = b
  clear h
  induction ds generalizing b with
  | nil => simp [Spec.sections]
  | cons d ds ih =>
    rw [List.foldl_cons, ih, Spec.sections, Spec.sections, List.filterMap_cons]
    cases d <;> simp

theorem astBases_eq : w'.astBases = ds.foldl (fun l d => match d with | .astBase x y => insert x y l | _ => l) w.astBases :=
  fold_field (·.astBases) (fun d l => match d with | .astBase x y => insert x y l | _ => l) (by step) h

theorem type_eq : (ds.filterMap Spec.directive).foldlM Text.step w.type = some w'.type := by
  induction ds generalizing w with
  | nil => cases h; rfl
  | cons d ds ih =>
    rw [List.foldlM_cons] at h
    obtain ⟨w1, h1, h2⟩ := Option.bind_eq_some_iff.1 h
    have ih := ih h2
    rw [List.filterMap_cons]
    cases e : Spec.directive d with
    | none =>
      have : w1.type = w.type := by
        revert h1 e
        unfold World.exec
        split <;> intro h1 e <;> first | (cases h1; rfl) | cases e
      rw [← this]
      exact ih
    | some x =>
      have : w.directive x = some w1 := by
        revert h1 e
        unfold World.exec
        split <;> intro h1 e <;> first | (cases e; exact h1) | cases e
      obtain ⟨-, t, h3, rfl⟩ := directive_some this
      simp only [List.foldlM_cons, h3]
      exact ih

theorem tokens_eq : w'.tokens = w.tokens ++ Spec.tokens ds := (fold_field (·.tokens) (fun d a => a ++ _) (by step) h).trans fold_append

end

/-! ### Members and base classes -/

theorem push_members (l : List (Kind × Text)) (ms : Members) :
    (l.foldl (fun ms p => ms.push p.1 p.2) ms).declarations = ms.declarations ++ l.filter (fun p => p.1 ≠ .constructorCode ∧ p.1 ≠ .destructorCode) ∧
    (l.foldl (fun ms p => ms.push p.1 p.2) ms).constructors = ms.constructors ++ (l.filter (·.1 = .constructorCode)).map (·.2) ∧
    (l.foldl (fun ms p => ms.push p.1 p.2) ms).destructors = ms.destructors ++ (l.filter (·.1 = .destructorCode)).map (·.2) := by
  induction l generalizing ms with
  | nil => simp
  | cons p l ih =>
    obtain ⟨m, c⟩ := p
    obtain ⟨h1, h2, h3⟩ := ih (ms.push m c)
    rw [List.foldl_cons, h1, h2, h3]
    cases m <;> simp [Members.push]

/-- The value of a key. -/
def get (x : Text) (l : List (Text × Text)) : Option Text := (l.find? (·.1 = x)).map (·.2)

theorem get_insert (x y z : Text) (l : List (Text × Text)) : get z (insert x y l) = if z = x then some y else get z l := by
  induction l with
  | nil => by_cases h : x = z <;> simp [get, insert, h, eq_comm]
  | cons p l ih =>
    unfold insert
    by_cases h : p.1 = x
    · rw [if_pos h]
      by_cases hz : x = z
      · simp [get, hz]
      · have : ¬ p.1 = z := fun e => hz (h.symm.trans e)
        simp [get, hz, this, Ne.symm hz]
    · rw [if_neg h]
      by_cases hz : p.1 = z
      · have : ¬ z = x := fun e => h (hz.trans e)
        simp [get, hz, this]
      · have e1 : get z (p :: insert x y l) = get z (insert x y l) := by simp [get, hz]
        have e2 : get z (p :: l) = get z l := by simp [get, hz]
        rw [e1, e2, ih]

theorem get_bases (z : Text) (ds : List Decl) (l : List (Text × Text)) :
    get z (ds.foldl (fun l d => match d with | .astBase x y => insert x y l | _ => l) l) = ((Spec.bases z ds).getLast?).or (get z l) := by
  induction ds generalizing l with
  | nil => simp [Spec.bases]
  | cons d ds ih =>
    rw [List.foldl_cons, ih, Spec.bases, Spec.bases, List.filterMap_cons]
    cases d with
    | astBase x y =>
      simp only [get_insert]
      by_cases h : x = z
      · subst h
        simp only [if_true]
        cases e : List.filterMap (fun d => match d with | Decl.astBase x' y => if x' = x then some y else none | _ => none) ds with
        | nil => simp
        | cons a as => rw [List.getLast?_cons_cons]; cases e2 : (a :: as).getLast? with
          | none => simp at e2
          | some b => simp
      · simp [h, Ne.symm h]
    | _ => rfl

/-! ### When the program goes on -/

theorem exec_some {w : World} {d : Decl} : (∃ w', w.exec d = some w') ↔ ∀ x, Spec.directive d = some x → w.hasLexer = false ∧ ∃ t, Text.step w.type x = some t := by
  constructor
  · rintro ⟨w', h⟩ x hx
    have : w.directive x = some w' := by
      revert h hx
      unfold World.exec
      split <;> intro h1 e <;> first | (cases e; exact h1) | cases e
    obtain ⟨h1, t, h2, -⟩ := directive_some this
    exact ⟨h1, t, h2⟩
  · intro h
    have key : ∀ x, Spec.directive d = some x → ∃ w', w.directive x = some w' := by
      intro x hx
      obtain ⟨h1, t, h2⟩ := h x hx
      exact ⟨_, by simp only [World.directive, h1, h2]; rfl⟩
    unfold World.exec
    split <;> first | exact ⟨_, rfl⟩ | exact key _ rfl

theorem step_some (t : Nat) (d : Text.Directive) : (∃ t', Text.step t d = some t') ↔ ∀ n, d = .encoding n → Text.codec n ≠ none := by
  cases d with
  | table => simp [Text.step]
  | sequence => simp [Text.step]
  | encoding n =>
    simp only [Text.step, Text.Directive.encoding.injEq]
    cases e : Text.codec n with
    | none => simp [e]
    | some k => simp [e]

theorem directive_encoding {d : Decl} {n : List Char} (h : Spec.directive d = some (.encoding n)) : ∃ x, d = .string .encoding x ∧ n = x.map Char.ofNat := by
  unfold Spec.directive at h
  split at h <;> first | (cases h; exact ⟨_, rfl, rfl⟩) | cases h

theorem run_some : ∀ {ds : List Decl} {w : World}, (∃ w', ds.foldlM World.exec w = some w') ↔
    (∀ a d b, ds = a ++ d :: b → Spec.directive d ≠ none → w.hasLexer = false ∧ Spec.sections a = []) ∧ ∀ x, .string .encoding x ∈ ds → Text.codec (x.map Char.ofNat) ≠ none
  | [], w => by simp
  | d :: ds, w => by
    constructor
    · rintro ⟨w', h⟩
      rw [List.foldlM_cons] at h
      obtain ⟨w1, h1, h2⟩ := Option.bind_eq_some_iff.1 h
      obtain ⟨i1, i2⟩ := run_some.1 ⟨w', h2⟩
      have hl := hasLexer_eq (ds := [d]) (w := w) (w' := w1) (by simp [h1])
      have hd := exec_some.1 ⟨w1, h1⟩
      refine ⟨fun a e b he hb => ?_, fun x hx => ?_⟩
      · cases a with
        | nil =>
          cases he
          obtain ⟨x, hx⟩ := Option.ne_none_iff_exists'.1 hb
          exact ⟨(hd x hx).1, rfl⟩
        | cons a0 a =>
          obtain ⟨rfl, he2⟩ := List.cons.inj he
          obtain ⟨j1, j2⟩ := i1 a e b he2 hb
          rw [hl, Bool.or_eq_false_iff] at j1
          refine ⟨j1.1, ?_⟩
          have e1 : Spec.sections [d] = [] := by simpa using j1.2
          have e2 : Spec.sections (d :: a) = Spec.sections [d] ++ Spec.sections a := by simp only [Spec.sections, ← List.filterMap_append]; rfl
          rw [e2, e1, j2, List.nil_append]
      · rcases List.mem_cons.1 hx with rfl | hx
        · obtain ⟨_, t, ht⟩ := hd _ rfl
          exact (step_some _ _).1 ⟨t, ht⟩ _ rfl
        · exact i2 x hx
    · rintro ⟨h1, h2⟩
      obtain ⟨w1, e1⟩ := (exec_some (w := w) (d := d)).2 (by
        intro x hx
        refine ⟨(h1 [] d ds rfl (by rw [hx]; simp)).1, (step_some _ _).2 ?_⟩
        rintro n rfl
        obtain ⟨y, rfl, rfl⟩ := directive_encoding hx
        exact h2 y (.head _))
      have hl := hasLexer_eq (ds := [d]) (w := w) (w' := w1) (by simp [e1])
      obtain ⟨w', e2⟩ := (run_some (ds := ds) (w := w1)).2 (by
        refine ⟨fun a e b he hb => ?_, fun x hx => h2 x (.tail _ hx)⟩
        obtain ⟨j1, j2⟩ := h1 (d :: a) e b (by rw [he]; rfl) hb
        have e2 : Spec.sections (d :: a) = Spec.sections [d] ++ Spec.sections a := by simp only [Spec.sections, ← List.filterMap_append]; rfl
        rw [e2, List.append_eq_nil_iff] at j2
        exact ⟨by rw [hl, j1, j2.1]; rfl, j2.2⟩)
      exact ⟨w', by rw [List.foldlM_cons, e1]; exact e2⟩

end Verif.Top
