import Verif.Main.Spec
import Mathlib.Data.List.Induction

/-!
# Lemmas: reading the arguments
-/

namespace Verif.Main

open Verif.Grammar Verif.Check

theorem after_iff {p a s : Text} : after p a = some s ↔ a = p ++ s := by
  unfold after
  constructor
  · intro h
    split at h
    · rename_i hp
      obtain ⟨t, rfl⟩ := List.isPrefixOf_iff_prefix.1 hp
      simp only [List.drop_left, Option.some.injEq] at h
      rw [h]
    · cases h
  · rintro rfl
    simp

theorem after_none {p a : Text} : after p a = none ↔ ∀ s, a ≠ p ++ s := by
  rw [Option.eq_none_iff_forall_ne_some]
  exact forall_congr' fun s => not_congr after_iff

theorem plain_free : ∀ x ∈ plain, after "--output=".toList x.1 = none ∧ after "--namespace=".toList x.1 = none ∧ after "--new-visitor=".toList x.1 = none := by
  decide +kernel

theorem others_free : ∀ x ∈ others, after "--output=".toList x = none ∧ after "--namespace=".toList x = none ∧ after "--new-visitor=".toList x = none ∧
    ∀ p ∈ plain, p.1 ≠ x := by
  decide +kernel

theorem values_apart {s t : Text} : "--output=".toList ++ s ≠ "--namespace=".toList ++ t ∧ "--output=".toList ++ s ≠ "--new-visitor=".toList ++ t ∧
    "--namespace=".toList ++ s ≠ "--new-visitor=".toList ++ t := by
  refine ⟨?_, ?_, ?_⟩ <;> simp

theorem plain_classify : ∀ p ∈ plain, classify p.1 = p.2 := by decide +kernel

theorem plain_kind : ∀ p ∈ plain, (∀ s, p.2 ≠ .output s) ∧ (∀ s, p.2 ≠ .ns s) ∧ (∀ s, p.2 ≠ .newVisitor s) ∧ ∀ b s, p.2 ≠ .other b s := by
  intro p hp
  simp only [plain, List.mem_cons, List.not_mem_nil, or_false] at hp
  rcases hp with rfl | rfl | rfl | rfl | rfl | rfl | rfl | rfl | rfl | rfl | rfl | rfl | rfl | rfl | rfl | rfl | rfl | rfl <;> simp

/-- The kinds of arguments. -/
theorem classify_cases (a : Text) : (∃ s, a = "--output=".toList ++ s ∧ classify a = .output s) ∨ (∃ s, a = "--namespace=".toList ++ s ∧ classify a = .ns s) ∨
    (∃ s, a = "--new-visitor=".toList ++ s ∧ classify a = .newVisitor s) ∨ (∃ p ∈ plain, p.1 = a ∧ classify a = p.2) ∨
    (a ∈ others ∧ classify a = .other true a) ∨
    (((∀ s, a ≠ "--output=".toList ++ s) ∧ (∀ s, a ≠ "--namespace=".toList ++ s) ∧ (∀ s, a ≠ "--new-visitor=".toList ++ s) ∧ (∀ p ∈ plain, p.1 ≠ a) ∧ a ∉ others) ∧
      classify a = .other false a) := by
  unfold classify
  split
  · rename_i s h
    exact .inl ⟨s, after_iff.1 h, rfl⟩
  · rename_i h1
    split
    · rename_i s h
      exact .inr (.inl ⟨s, after_iff.1 h, rfl⟩)
    · rename_i h2
      split
      · rename_i s h
        exact .inr (.inr (.inl ⟨s, after_iff.1 h, rfl⟩))
      · rename_i h3
        split
        · rename_i p h
          exact .inr (.inr (.inr (.inl ⟨p, List.mem_of_find?_eq_some h, by simpa using List.find?_some h, rfl⟩)))
        · rename_i h4
          by_cases h5 : a ∈ others
          · exact .inr (.inr (.inr (.inr (.inl ⟨h5, by simp [h5]⟩))))
          · refine .inr (.inr (.inr (.inr (.inr ⟨⟨after_none.1 h1, after_none.1 h2, after_none.1 h3, ?_, h5⟩, by simp [h5]⟩))))
            simpa using h4

theorem classify_plain {t : Text} {k : Arg} (hm : (t, k) ∈ plain) (hu : ∀ p ∈ plain, p.2 = k → p.1 = t) (a : Text) : classify a = k ↔ a = t := by
  constructor
  · intro h
    have hk := plain_kind _ hm
    rcases classify_cases a with ⟨s, -, e⟩ | ⟨s, -, e⟩ | ⟨s, -, e⟩ | ⟨p, hp, rfl, e⟩ | ⟨-, e⟩ | ⟨-, e⟩
    · exact absurd (h.symm.trans e) (hk.1 s)
    · exact absurd (h.symm.trans e) (hk.2.1 s)
    · exact absurd (h.symm.trans e) (hk.2.2.1 s)
    · exact hu p hp (e.symm.trans h)
    · exact absurd (h.symm.trans e) (hk.2.2.2 _ _)
    · exact absurd (h.symm.trans e) (hk.2.2.2 _ _)
  · rintro rfl
    exact plain_classify _ hm

theorem classify_output {a s : Text} : classify a = .output s ↔ a = "--output=".toList ++ s := by
  constructor
  · intro h
    rcases classify_cases a with ⟨t, h1, e⟩ | ⟨t, -, e⟩ | ⟨t, -, e⟩ | ⟨p, hp, rfl, e⟩ | ⟨-, e⟩ | ⟨-, e⟩ <;> rw [h] at e
    · cases e; exact h1
    · cases e
    · cases e
    · exact absurd e.symm ((plain_kind p hp).1 s)
    · cases e
    · cases e
  · intro h
    unfold classify
    rw [after_iff.2 h]

theorem classify_ns {a s : Text} : classify a = .ns s ↔ a = "--namespace=".toList ++ s := by
  constructor
  · intro h
    rcases classify_cases a with ⟨t, -, e⟩ | ⟨t, h1, e⟩ | ⟨t, -, e⟩ | ⟨p, hp, rfl, e⟩ | ⟨-, e⟩ | ⟨-, e⟩ <;> rw [h] at e
    · cases e
    · cases e; exact h1
    · cases e
    · exact absurd e.symm ((plain_kind p hp).2.1 s)
    · cases e
    · cases e
  · rintro rfl
    unfold classify
    rw [after_none.2 fun t => (values_apart (s := t) (t := s)).1.symm, after_iff.2 rfl]

theorem classify_newVisitor {a s : Text} : classify a = .newVisitor s ↔ a = "--new-visitor=".toList ++ s := by
  constructor
  · intro h
    rcases classify_cases a with ⟨t, -, e⟩ | ⟨t, -, e⟩ | ⟨t, h1, e⟩ | ⟨p, hp, rfl, e⟩ | ⟨-, e⟩ | ⟨-, e⟩ <;> rw [h] at e
    · cases e
    · cases e
    · cases e; exact h1
    · exact absurd e.symm ((plain_kind p hp).2.2.1 s)
    · cases e
    · cases e
  · rintro rfl
    unfold classify
    rw [after_none.2 fun t => (values_apart (s := t) (t := s)).2.1.symm, after_none.2 fun t => (values_apart (s := t) (t := s)).2.2.symm, after_iff.2 rfl]

theorem classify_noOutput (a : Text) : classify a = .noOutput ↔ Is "--no-output" a := classify_plain (by decide +kernel) (by decide +kernel) a
theorem classify_ignore (a : Text) : classify a = .ignore ↔ Is "--ignore-conflicts" a := classify_plain (by decide +kernel) (by decide +kernel) a
theorem classify_strict (a : Text) : classify a = .strict ↔ Is "--strict-conflicts" a := classify_plain (by decide +kernel) (by decide +kernel) a
theorem classify_permissive (a : Text) : classify a = .permissive ↔ Is "--permissive-conflicts" a := classify_plain (by decide +kernel) (by decide +kernel) a
theorem classify_noParser (a : Text) : classify a = .noParser ↔ Is "--no-parser" a := classify_plain (by decide +kernel) (by decide +kernel) a
theorem classify_withParser (a : Text) : classify a = .withParser ↔ Is "--with-parser" a := classify_plain (by decide +kernel) (by decide +kernel) a
theorem classify_noLexer (a : Text) : classify a = .noLexer ↔ Is "--no-lexer" a := classify_plain (by decide +kernel) (by decide +kernel) a
theorem classify_withLexer (a : Text) : classify a = .withLexer ↔ Is "--with-lexer" a := classify_plain (by decide +kernel) (by decide +kernel) a
theorem classify_inheritDefault (a : Text) : classify a = .inheritDefault ↔ Is "--inherit-default-visitor" a := classify_plain (by decide +kernel) (by decide +kernel) a
theorem classify_inheritAbstract (a : Text) : classify a = .inheritAbstract ↔ Is "--inherit-abstract-visitor" a := classify_plain (by decide +kernel) (by decide +kernel) a
theorem classify_terminals (a : Text) : classify a = .terminals ↔ Is "--terminals" a := classify_plain (by decide +kernel) (by decide +kernel) a
theorem classify_symbols (a : Text) : classify a = .symbols ↔ Is "--symbols" a := classify_plain (by decide +kernel) (by decide +kernel) a
theorem classify_rules (a : Text) : classify a = .rules ↔ Is "--rules" a := classify_plain (by decide +kernel) (by decide +kernel) a
theorem classify_automata (a : Text) : classify a = .automata ↔ Is "--automata" a := classify_plain (by decide +kernel) (by decide +kernel) a

theorem classify_about (a : Text) : classify a = .about ↔ AboutOpt a := by
  constructor
  · intro h
    rcases classify_cases a with ⟨t, -, e⟩ | ⟨t, -, e⟩ | ⟨t, -, e⟩ | ⟨p, hp, rfl, e⟩ | ⟨-, e⟩ | ⟨-, e⟩ <;> rw [h] at e
    · cases e
    · cases e
    · cases e
    · have : ∀ p ∈ plain, p.2 = .about → p.1 = "--help".toList ∨ p.1 = "--version".toList ∨ p.1 = "--author".toList ∨ p.1 = "--usage".toList := by decide +kernel
      exact this p hp e.symm
    · cases e
    · cases e
  · rintro (h | h | h | h) <;> (rw [Is] at h; subst h; decide +kernel)

theorem mem_plain {a : Text} : (∃ p ∈ plain, p.1 = a) ↔ Is "--no-output" a ∨ Is "--ignore-conflicts" a ∨ Is "--strict-conflicts" a ∨ Is "--permissive-conflicts" a ∨
    ParserOpt a ∨ LexerOpt a ∨ InheritOpt a ∨ AboutOpt a ∨ DumpOpt a ∨ Is "--automata" a := by
  simp only [plain, List.mem_cons, List.not_mem_nil, or_false, exists_eq_or_imp, exists_eq_left, Is, ParserOpt, LexerOpt, InheritOpt, AboutOpt, DumpOpt, eq_comm (b := a), or_assoc]

theorem mem_others {a : Text} : a ∈ others ↔ StyleOpt a := by
  simp only [others, List.mem_cons, List.not_mem_nil, or_false, StyleOpt, Is]

theorem classify_other {a : Text} (k : Bool) (s : Text) : classify a = .other k s ↔ s = a ∧ ((k = true ∧ StyleOpt a) ∨ (k = false ∧ FileArg a)) := by
  have hfile : FileArg a ↔ (∀ s, a ≠ "--output=".toList ++ s) ∧ (∀ s, a ≠ "--namespace=".toList ++ s) ∧ (∀ s, a ≠ "--new-visitor=".toList ++ s) ∧
      (∀ p ∈ plain, p.1 ≠ a) ∧ a ∉ others := by
    have e1 : (∀ p ∈ plain, p.1 ≠ a) ↔ ¬ ∃ p ∈ plain, p.1 = a := ⟨fun h ⟨p, hp, e⟩ => h p hp e, fun h p hp e => h ⟨p, hp, e⟩⟩
    have e2 : ∀ p : String, (∀ s, a ≠ p.toList ++ s) ↔ ¬ Starts p a := fun p => by simp [Starts]
    rw [e1, mem_plain, mem_others, e2, e2, e2]
    simp only [FileArg, ConflictOpt, OutputOpt]
    generalize Is "--no-output" a = p1
    generalize Is "--ignore-conflicts" a = p2
    generalize Is "--strict-conflicts" a = p3
    generalize Is "--permissive-conflicts" a = p4
    generalize Is "--automata" a = p5
    generalize Starts "--output=" a = p6
    generalize Starts "--namespace=" a = p7
    generalize Starts "--new-visitor=" a = p8
    generalize ParserOpt a = p9
    generalize LexerOpt a = p10
    generalize InheritOpt a = p11
    generalize AboutOpt a = p12
    generalize DumpOpt a = p13
    generalize StyleOpt a = p14
    simp only [not_or]
    constructor
    · rintro ⟨⟨a1, a2, a3, a4⟩, ⟨b1, b2, -⟩, c, d, e, f, g, h, i, j⟩
      exact ⟨b2, c, a4, ⟨b1, a1, a2, a3, d, e, f, g, h, i⟩, j⟩
    · rintro ⟨b2, c, a4, ⟨b1, a1, a2, a3, d, e, f, g, h, i⟩, j⟩
      exact ⟨⟨a1, a2, a3, a4⟩, ⟨b1, b2, a4⟩, c, d, e, f, g, h, i, j⟩
  constructor
  · intro h
    rcases classify_cases a with ⟨t, -, e⟩ | ⟨t, -, e⟩ | ⟨t, -, e⟩ | ⟨p, hp, rfl, e⟩ | ⟨h1, e⟩ | ⟨h1, e⟩ <;> rw [h] at e
    · cases e
    · cases e
    · cases e
    · exact absurd e.symm ((plain_kind p hp).2.2.2 _ _)
    · cases e; exact ⟨rfl, .inl ⟨rfl, mem_others.1 h1⟩⟩
    · cases e; exact ⟨rfl, .inr ⟨rfl, hfile.2 h1⟩⟩
  · rintro ⟨rfl, ⟨rfl, h⟩ | ⟨rfl, h⟩⟩
    · have hm := mem_others.2 h
      have hf := others_free _ hm
      rcases classify_cases s with ⟨t, h1, -⟩ | ⟨t, h1, -⟩ | ⟨t, h1, -⟩ | ⟨p, hp, h1, -⟩ | ⟨h1, e⟩ | ⟨h1, -⟩
      · exact absurd h1 (after_none.1 hf.1 t)
      · exact absurd h1 (after_none.1 hf.2.1 t)
      · exact absurd h1 (after_none.1 hf.2.2.1 t)
      · exact absurd h1 (hf.2.2.2 p hp)
      · exact e
      · exact absurd hm h1.2.2.2.2
    · obtain ⟨g1, g2, g3, g4, g5⟩ := hfile.1 h
      rcases classify_cases s with ⟨t, h1, -⟩ | ⟨t, h1, -⟩ | ⟨t, h1, -⟩ | ⟨p, hp, h1, -⟩ | ⟨h1, -⟩ | ⟨-, e⟩
      · exact absurd h1 (g1 t)
      · exact absurd h1 (g2 t)
      · exact absurd h1 (g3 t)
      · exact absurd h1 (g4 p hp)
      · exact absurd h1 g5
      · exact e

/-! ### Settings -/

/-- The value of a setting after some arguments. -/
def lastVal (u : Text → Option α) (d : α) (args : List Text) : α := args.foldl (fun v a => (u a).getD v) d

theorem lastVal_iff {u : Text → Option α} {d v : α} (args : List Text) :
    lastVal u d args = v ↔ (∃ a, Last (fun a => u a ≠ none) args a ∧ u a = some v) ∨ ((∀ a ∈ args, u a = none) ∧ v = d) := by
  induction args using List.reverseRecOn generalizing v with
  | nil =>
    constructor
    · rintro rfl; exact .inr ⟨by simp, rfl⟩
    · rintro (⟨a, ⟨xs, ys, h, -⟩, -⟩ | ⟨-, h⟩)
      · simp at h
      · exact h.symm
  | append_singleton args b ih =>
    have hl : lastVal u d (args ++ [b]) = (u b).getD (lastVal u d args) := by simp [lastVal]
    rw [hl]
    cases hb : u b with
    | some w =>
      simp only [Option.getD_some]
      constructor
      · rintro rfl
        exact .inl ⟨b, ⟨args, [], rfl, by simp [hb], by simp⟩, hb⟩
      · rintro (⟨a, ⟨xs, ys, h, h1, h2⟩, h3⟩ | ⟨h, -⟩)
        · rcases List.eq_nil_or_concat ys with rfl | ⟨zs, z, rfl⟩
          · obtain ⟨-, h⟩ := List.append_inj' h rfl
            cases h
            rw [hb] at h3; exact Option.some.inj h3
          · have : z = b := by
              rw [List.concat_eq_append] at h
              have h : args ++ [b] = (xs ++ a :: zs) ++ [z] := by simp [h]
              exact (List.cons.inj (List.append_inj' h rfl).2).1.symm
            subst this
            exact absurd (by simp [hb]) (h2 z (by simp))
        · have := h b (by simp)
          rw [hb] at this; cases this
    | none =>
      simp only [Option.getD_none]
      rw [ih]
      refine or_congr ⟨?_, ?_⟩ ⟨?_, ?_⟩
      · rintro ⟨a, ⟨xs, ys, rfl, h1, h2⟩, h3⟩
        refine ⟨a, ⟨xs, ys ++ [b], by simp, h1, fun y hy => ?_⟩, h3⟩
        rcases List.mem_append.1 hy with hy | hy
        · exact h2 y hy
        · simp only [List.mem_singleton] at hy
          subst hy; simp [hb]
      · rintro ⟨a, ⟨xs, ys, h, h1, h2⟩, h3⟩
        rcases List.eq_nil_or_concat ys with rfl | ⟨zs, z, rfl⟩
        · obtain ⟨-, h⟩ := List.append_inj' h rfl
          cases h
          exact absurd hb h1
        · rw [List.concat_eq_append] at h h2
          have h : args ++ [b] = (xs ++ a :: zs) ++ [z] := by simp [h]
          obtain ⟨h, -⟩ := List.append_inj' h rfl
          exact ⟨a, ⟨xs, zs, h, h1, fun y hy => h2 y (by simp [hy])⟩, h3⟩
      · rintro ⟨h, e⟩
        refine ⟨fun a ha => ?_, e⟩
        rcases List.mem_append.1 ha with ha | ha
        · exact h a ha
        · simp only [List.mem_singleton] at ha
          subst ha; exact hb
      · rintro ⟨h, e⟩
        exact ⟨fun a ha => h a (by simp [ha]), e⟩

/-- The same, if the arguments with the property `P` are those that matter. -/
theorem lastVal_last {u : Text → Option α} {P : Text → Prop} (hP : ∀ a, u a ≠ none ↔ P a) {d v : α} (args : List Text) :
    lastVal u d args = v ↔ (∃ a, Last P args a ∧ u a = some v) ∨ ((∀ a ∈ args, ¬ P a) ∧ v = d) := by
  have : (fun a => u a ≠ none) = P := funext fun a => propext (hP a)
  have h2 : ∀ a, u a = none ↔ ¬ P a := fun a => by rw [← hP]; simp
  rw [lastVal_iff, this]
  simp only [h2]

def flag (k a : Text → Bool) : Text → Option Bool := fun t => if k t then some true else if a t then some false else none

def uConflicts (a : Text) : Option Conflicts := match classify a with
  | .ignore | .newVisitor _ => some .ignore
  | .strict => some .strict
  | .permissive => some .permissive
  | _ => none

def uOutput (a : Text) : Option Bool := match classify a with
  | .output _ => some true
  | .noOutput | .newVisitor _ => some false
  | _ => none

def uLanguage (a : Text) : Option Text := match classify a with
  | .output s => some s
  | _ => none

def uNs (a : Text) : Option Text := match classify a with
  | .ns s => some s
  | _ => none

def uNew (a : Text) : Option Text := match classify a with
  | .newVisitor s => some s
  | _ => none

def uParser (a : Text) : Option Bool := match classify a with
  | .withParser => some true
  | .noParser => some false
  | _ => none

def uLexer (a : Text) : Option Bool := match classify a with
  | .withLexer => some true
  | .noLexer => some false
  | _ => none

def uInherit (a : Text) : Option Bool := match classify a with
  | .inheritDefault => some true
  | .inheritAbstract => some false
  | _ => none

def uSeen (P : Arg → Bool) (a : Text) : Option Bool := if P (classify a) then some true else none

def fileStep (opens : Text → Bool) (f : Option Text) (a : Text) : Option Text := match f with
  | some f => some f
  | none => match classify a with
    | .other false s => if s ≠ [] ∧ opens s then some s else none
    | _ => none

/-- All settings. -/
def settings (opens : Text → Bool) (o : Opts) (args : List Text) : Opts where
  terminals := lastVal (uSeen (· = .terminals)) o.terminals args
  symbols := lastVal (uSeen (· = .symbols)) o.symbols args
  rules := lastVal (uSeen (· = .rules)) o.rules args
  automata := lastVal (uSeen (· = .automata)) o.automata args
  parser := lastVal uParser o.parser args
  ensureParser := lastVal (uSeen fun k => k = .noParser ∨ k = .withParser) o.ensureParser args
  lexer := lastVal uLexer o.lexer args
  ensureLexer := lastVal (uSeen fun k => k = .noLexer ∨ k = .withLexer) o.ensureLexer args
  inheritDefault := lastVal uInherit o.inheritDefault args
  output := lastVal uOutput o.output args
  newVisitor := lastVal uNew o.newVisitor args
  language := lastVal uLanguage o.language args
  ns := lastVal uNs o.ns args
  conflicts := lastVal uConflicts o.conflicts args
  file := args.foldl (fileStep opens) o.file

theorem settings_cons (opens : Text → Bool) (o : Opts) (a : Text) (args : List Text) : settings opens o (a :: args) = settings opens (settings opens o [a]) args := rfl

theorem step_settings {opens : Text → Bool} {o : Opts} {a : Text} (ha : classify a ≠ .about) : step opens o a = some (settings opens o [a]) := by
  simp only [settings, lastVal, List.foldl_cons, List.foldl_nil, step, uSeen, uParser, uLexer, uInherit, uOutput, uNew, uLanguage, uNs, uConflicts, fileStep]
  cases o
  cases hc : classify a <;> try (exact absurd hc ha)
  all_goals simp
  all_goals (try (split <;> rfl))
  rename_i f k s
  cases k <;> cases f <;> simp
  split <;> rfl

open Classical in
theorem readArgs_settings {opens : Text → Bool} : ∀ (args : List Text) (o : Opts),
    readArgs opens o args = if ∃ a ∈ args, AboutOpt a then none else some (settings opens o args)
  | [], o => by simp [readArgs, settings, lastVal]
  | a :: args, o => by
    rw [readArgs]
    by_cases ha : AboutOpt a
    · have : step opens o a = none := by unfold step; rw [(classify_about a).2 ha]
      rw [this, if_pos ⟨a, by simp, ha⟩]
    · rw [step_settings (fun h => ha ((classify_about a).1 h))]
      simp only
      rw [readArgs_settings args, settings_cons opens o a args]
      simp [ha]

/-! ### Settings and the specification -/

theorem last_exists {P : Text → Prop} {args : List Text} (h : ∃ a ∈ args, P a) : ∃ a, Last P args a := by
  classical
  induction args with
  | nil => obtain ⟨a, ha, -⟩ := h; cases ha
  | cons b args ih =>
    by_cases h' : ∃ a ∈ args, P a
    · obtain ⟨a, xs, ys, rfl, h1, h2⟩ := ih h'
      exact ⟨a, b :: xs, ys, rfl, h1, h2⟩
    · obtain ⟨a, ha, hP⟩ := h
      rcases List.mem_cons.1 ha with rfl | ha
      · exact ⟨a, [], args, rfl, hP, fun y hy hp => h' ⟨y, hy, hp⟩⟩
      · exact absurd ⟨a, ha, hP⟩ h'

theorem last_mem {P : Text → Prop} {args : List Text} {a : Text} (h : Last P args a) : a ∈ args ∧ P a := by
  obtain ⟨xs, ys, rfl, h1, -⟩ := h
  exact ⟨by simp, h1⟩

theorem last_unique {P : Text → Prop} {args : List Text} {a b : Text} (ha : Last P args a) (hb : Last P args b) : a = b := by
  obtain ⟨xs, ys, rfl, h1, h2⟩ := ha
  obtain ⟨us, vs, h, h3, h4⟩ := hb
  rcases List.append_eq_append_iff.1 h with ⟨ws, -, h⟩ | ⟨ws, -, h⟩
  · cases ws with
    | nil => exact (List.cons.inj h).1
    | cons w ws =>
      obtain ⟨rfl, rfl⟩ := List.cons.inj h
      exact absurd h3 (h2 b (by simp))
  · cases ws with
    | nil => exact (List.cons.inj h).1.symm
    | cons w ws =>
      obtain ⟨rfl, rfl⟩ := List.cons.inj h
      exact absurd h1 (h4 a (by simp))

theorem uConflicts_iff (a : Text) : (uConflicts a ≠ none ↔ ConflictOpt a) ∧ (uConflicts a = some .strict ↔ Is "--strict-conflicts" a) ∧
    (uConflicts a = some .ignore ↔ Is "--ignore-conflicts" a ∨ Starts "--new-visitor=" a) := by
  have hs : Starts "--new-visitor=" a ↔ ∃ s, classify a = .newVisitor s := exists_congr fun s => classify_newVisitor.symm
  rw [ConflictOpt, hs, ← classify_strict, ← classify_ignore, ← classify_permissive]
  unfold uConflicts
  cases classify a <;> simp

theorem uOutput_iff (a : Text) : (uOutput a ≠ none ↔ OutputOpt a) ∧ (uOutput a = some true ↔ Starts "--output=" a) := by
  have hs : Starts "--new-visitor=" a ↔ ∃ s, classify a = .newVisitor s := exists_congr fun s => classify_newVisitor.symm
  have ho : Starts "--output=" a ↔ ∃ s, classify a = .output s := exists_congr fun s => classify_output.symm
  rw [OutputOpt, hs, ho, ← classify_noOutput]
  unfold uOutput
  cases classify a <;> simp

theorem uParser_iff (a : Text) : (uParser a ≠ none ↔ ParserOpt a) ∧ (uParser a = some true ↔ Is "--with-parser" a) := by
  rw [ParserOpt, ← classify_noParser, ← classify_withParser]
  unfold uParser
  cases classify a <;> simp

theorem uLexer_iff (a : Text) : (uLexer a ≠ none ↔ LexerOpt a) ∧ (uLexer a = some true ↔ Is "--with-lexer" a) := by
  rw [LexerOpt, ← classify_noLexer, ← classify_withLexer]
  unfold uLexer
  cases classify a <;> simp

theorem uInherit_iff (a : Text) : (uInherit a ≠ none ↔ InheritOpt a) ∧ (uInherit a = some true ↔ Is "--inherit-default-visitor" a) := by
  rw [InheritOpt, ← classify_inheritDefault, ← classify_inheritAbstract]
  unfold uInherit
  cases classify a <;> simp

theorem uValue_iff (a s : Text) : (uLanguage a = some s ↔ a = "--output=".toList ++ s) ∧ (uNs a = some s ↔ a = "--namespace=".toList ++ s) ∧
    (uNew a = some s ↔ a = "--new-visitor=".toList ++ s) := by
  rw [← classify_output, ← classify_ns, ← classify_newVisitor]
  unfold uLanguage uNs uNew
  cases classify a <;> simp

theorem value_iff {p : String} {u : Text → Option Text} (hu : ∀ a s, u a = some s ↔ a = p.toList ++ s) {args : List Text} {v : Text} :
    lastVal u [] args = v ↔ Value p args v := by
  have hP : ∀ a, u a ≠ none ↔ Starts p a := fun a => by rw [Option.ne_none_iff_exists']; exact exists_congr fun s => hu a s
  rw [lastVal_last hP, Value]
  refine or_congr ⟨?_, fun h => ⟨_, h, (hu _ _).2 rfl⟩⟩ Iff.rfl
  rintro ⟨a, ha, h⟩
  rw [(hu _ _).1 h] at ha
  exact ha

theorem seen_iff {P : Arg → Bool} {Q : Text → Prop} (h : ∀ a, P (classify a) = true ↔ Q a) {args : List Text} : lastVal (uSeen P) false args = true ↔ ∃ a ∈ args, Q a := by
  have hP : ∀ a, uSeen P a ≠ none ↔ Q a := fun a => by unfold uSeen; rw [← h]; split <;> simp_all
  rw [lastVal_last hP]
  constructor
  · rintro (⟨a, ha, -⟩ | ⟨-, h⟩)
    · exact ⟨a, last_mem ha⟩
    · cases h
  · intro he
    obtain ⟨a, ha⟩ := last_exists he
    have := (hP a).2 (last_mem ha).2
    refine .inl ⟨a, ha, ?_⟩
    unfold uSeen at this ⊢
    split <;> simp_all

theorem flag_iff {u : Text → Option Bool} {P Q : Text → Prop} (h : ∀ a, (u a ≠ none ↔ P a) ∧ (u a = some true ↔ Q a)) {args : List Text} {d : Bool} :
    lastVal u d args = true ↔ (∃ a, Last P args a ∧ Q a) ∨ ((∀ a ∈ args, ¬ P a) ∧ d = true) := by
  rw [lastVal_last fun a => (h a).1]
  simp only [fun a => (h a).2, eq_comm (a := true)]

/-- The name of the file. -/
theorem file_iff {opens : Text → Bool} {args : List Text} {f : Text} : args.foldl (fileStep opens) none = some f ↔ Reads opens args f := by
  classical
  have hsome : ∀ (args : List Text) f, args.foldl (fileStep opens) (some f) = some f := by
    intro args
    induction args with
    | nil => intro f; rfl
    | cons a args ih => intro f; exact ih f
  have hstep : ∀ a, fileStep opens none a = if FileArg a ∧ a ≠ [] ∧ opens a = true then some a else none := by
    intro a
    by_cases hf : FileArg a
    · have hc : classify a = .other false a := (classify_other false a).2 ⟨rfl, .inr ⟨rfl, hf⟩⟩
      simp [fileStep, hc, hf]
    · have hn : ∀ s, classify a ≠ .other false s := fun s h => by
        obtain ⟨-, ⟨h, -⟩ | ⟨-, h⟩⟩ := (classify_other false s).1 h
        · cases h
        · exact hf h
      rw [if_neg fun h => hf h.1]
      unfold fileStep
      simp only
  induction args with
  | nil => simp [Reads]
  | cons a args ih =>
    rw [List.foldl_cons, hstep]
    by_cases hg : FileArg a ∧ a ≠ [] ∧ opens a = true
    · rw [if_pos hg, hsome]
      constructor
      · intro h
        cases h
        exact ⟨[], args, rfl, hg.1, hg.2.1, hg.2.2, by simp⟩
      · rintro ⟨xs, ys, h, h1, h2, h3, h4⟩
        cases xs with
        | nil => rw [(List.cons.inj h).1]
        | cons x xs =>
          obtain ⟨rfl, -⟩ := List.cons.inj h
          have := h4 a (by simp) hg.1 hg.2.1
          rw [hg.2.2] at this; cases this
    · rw [if_neg hg]
      refine ih.trans ⟨?_, ?_⟩
      · rintro ⟨xs, ys, rfl, h1, h2, h3, h4⟩
        refine ⟨a :: xs, ys, rfl, h1, h2, h3, fun x hx h5 h6 => ?_⟩
        rcases List.mem_cons.1 hx with rfl | hx
        · exact Bool.eq_false_iff.2 fun h7 => hg ⟨h5, h6, h7⟩
        · exact h4 x hx h5 h6
      · rintro ⟨xs, ys, h, h1, h2, h3, h4⟩
        cases xs with
        | nil =>
          obtain ⟨rfl, -⟩ := List.cons.inj h
          exact absurd ⟨h1, h2, h3⟩ hg
        | cons x xs =>
          obtain ⟨rfl, h'⟩ := List.cons.inj h
          exact ⟨xs, ys, h', h1, h2, h3, fun y hy => h4 y (by simp [hy])⟩

/-! The settings after all arguments. -/

section
variable (opens : Text → Bool) (args : List Text)

theorem conflicts_strict : (settings opens {} args).conflicts = .strict ↔ Strict args := by
  show lastVal uConflicts .permissive args = _ ↔ _
  rw [lastVal_last fun a => (uConflicts_iff a).1, Strict]
  simp [fun a => (uConflicts_iff a).2.1]

theorem conflicts_ignore : (settings opens {} args).conflicts = .ignore ↔ Ignored args := by
  show lastVal uConflicts .permissive args = _ ↔ _
  rw [lastVal_last fun a => (uConflicts_iff a).1, Ignored]
  simp [fun a => (uConflicts_iff a).2.2]

theorem output_iff : (settings opens {} args).output = true ↔ WantsOutput args := by
  show lastVal uOutput true args = _ ↔ _
  rw [flag_iff uOutput_iff, WantsOutput]
  constructor
  · rintro (⟨a, h1, h2⟩ | ⟨h, -⟩) b hb
    · rwa [← last_unique h1 hb]
    · exact absurd (last_mem hb).2 (h b (last_mem hb).1)
  · intro h
    by_cases he : ∃ a ∈ args, OutputOpt a
    · obtain ⟨a, ha⟩ := last_exists he
      exact .inl ⟨a, ha, h a ha⟩
    · exact .inr ⟨fun a ha hp => he ⟨a, ha, hp⟩, rfl⟩

theorem language_iff {v : Text} : (settings opens {} args).language = v ↔ Value "--output=" args v := value_iff fun a s => (uValue_iff a s).1

theorem ns_iff {v : Text} : (settings opens {} args).ns = v ↔ Value "--namespace=" args v := value_iff fun a s => (uValue_iff a s).2.1

theorem newVisitor_iff {v : Text} : (settings opens {} args).newVisitor = v ↔ Value "--new-visitor=" args v := value_iff fun a s => (uValue_iff a s).2.2

theorem inherit_iff : (settings opens {} args).inheritDefault = true ↔ ∃ a, Last InheritOpt args a ∧ Is "--inherit-default-visitor" a := by
  show lastVal uInherit false args = _ ↔ _
  rw [flag_iff uInherit_iff]
  simp

theorem parser_iff {I : Input} : (if (settings opens {} args).ensureParser then (settings opens {} args).parser else !I.W.rules.isEmpty) = true ↔ MakesParser args I := by
  have h1 : (settings opens {} args).ensureParser = true ↔ ∃ a ∈ args, ParserOpt a := seen_iff fun a => by
    rw [decide_eq_true_eq, ParserOpt, ← classify_noParser, ← classify_withParser]
  have h2 : (settings opens {} args).parser = true ↔ _ := flag_iff uParser_iff
  rw [MakesParser]
  by_cases he : ∃ a ∈ args, ParserOpt a
  · rw [if_pos (h1.2 he), h2]
    have : ¬ ∀ a ∈ args, ¬ ParserOpt a := fun h => by obtain ⟨a, ha, hp⟩ := he; exact h a ha hp
    simp [this]
  · rw [if_neg fun h => he (h1.1 h)]
    have h3 : ∀ a ∈ args, ¬ ParserOpt a := fun a ha hp => he ⟨a, ha, hp⟩
    have h4 : ¬ ∃ a, Last ParserOpt args a ∧ Is "--with-parser" a := fun ⟨a, h, _⟩ => he ⟨a, last_mem h⟩
    rw [or_iff_right h4, and_iff_right h3]
    simp

theorem demands_iff : ((settings opens {} args).ensureLexer && (settings opens {} args).lexer) = true ↔ DemandsLexer args := by
  have h1 : (settings opens {} args).ensureLexer = true ↔ ∃ a ∈ args, LexerOpt a := seen_iff fun a => by
    rw [decide_eq_true_eq, LexerOpt, ← classify_noLexer, ← classify_withLexer]
  have h2 : (settings opens {} args).lexer = true ↔ _ := flag_iff uLexer_iff
  rw [Bool.and_eq_true, h1, h2, DemandsLexer]
  constructor
  · rintro ⟨⟨a, ha, hp⟩, h | ⟨h, -⟩⟩
    · exact h
    · exact absurd hp (h a ha)
  · rintro ⟨a, h1, h2⟩
    exact ⟨⟨a, last_mem h1⟩, .inl ⟨a, h1, h2⟩⟩

theorem lexer_iff {I : Input} : (if (settings opens {} args).ensureLexer then (settings opens {} args).lexer && I.hasLexer else I.hasLexer) = true ↔ MakesLexer args I := by
  have h1 : (settings opens {} args).ensureLexer = true ↔ ∃ a ∈ args, LexerOpt a := seen_iff fun a => by
    rw [decide_eq_true_eq, LexerOpt, ← classify_noLexer, ← classify_withLexer]
  have h2 := demands_iff opens args
  rw [MakesLexer]
  by_cases he : ∃ a ∈ args, LexerOpt a
  · have : ¬ ∀ a ∈ args, ¬ LexerOpt a := fun h => by obtain ⟨a, ha, hp⟩ := he; exact h a ha hp
    rw [h1.2 he, Bool.true_and] at h2
    rw [if_pos (h1.2 he), Bool.and_eq_true, h2, or_iff_left this]
  · rw [if_neg fun h => he (h1.1 h)]
    have h3 : ∀ a ∈ args, ¬ LexerOpt a := fun a ha hp => he ⟨a, ha, hp⟩
    rw [and_iff_right (.inr h3)]

theorem dump_flags : ((settings opens {} args).terminals = true ↔ "--terminals".toList ∈ args) ∧ ((settings opens {} args).symbols = true ↔ "--symbols".toList ∈ args) ∧
    ((settings opens {} args).rules = true ↔ "--rules".toList ∈ args) ∧ ((settings opens {} args).automata = true ↔ "--automata".toList ∈ args) := by
  have key : ∀ {k : Arg} {p : String}, (∀ a, classify a = k ↔ Is p a) → (lastVal (uSeen fun x => decide (x = k)) false args = true ↔ p.toList ∈ args) := by
    intro k p h
    rw [seen_iff (Q := Is p) fun a => by rw [decide_eq_true_eq, h]]
    exact ⟨fun ⟨a, ha, he⟩ => by rw [Is] at he; rwa [← he], fun h => ⟨_, h, rfl⟩⟩
  exact ⟨key classify_terminals, key classify_symbols, key classify_rules, key classify_automata⟩

end

end Verif.Main
