import Verif.Out.Spec
import Mathlib.Tactic.ByContra

/-!
# Lemmas about the preprocessor and the generated headers
-/

namespace Verif.Out

open Verif.Top (Text txt World)
open Verif.Out.Spec

/-! ## The preprocessor -/

abbrev Inc := Text → List Text → Option (List Ev × List Text)

/-- How `run` reads included files. -/
def incl (fs : Disk) (f : Nat) : Inc := fun x defs => match fs x with
  | none => some ([.file x], defs)
  | some ls => run fs f defs ls

/-- Lines other than directives for conditionals. -/
def Flat : Line → Prop
  | .ifndef _ => False
  | .endif => False
  | _ => True

def walk (inc : Inc) : List Text → List Line → Option (List Ev × List Text)
  | defs, [] => some ([], defs)
  | defs, .quote f :: ls => (inc f defs).bind fun r => (walk inc r.2 ls).map fun q => (r.1 ++ q.1, q.2)
  | defs, .angle f :: ls => (walk inc defs ls).map fun q => (.lib f :: q.1, q.2)
  | defs, .part p :: ls => (walk inc defs ls).map fun q => (.part p :: q.1, q.2)
  | defs, .define s :: ls => (nameOf s).bind fun m => walk inc (m :: defs) ls
  | defs, .undef s :: ls => (nameOf s).bind fun m => walk inc (defs.filter (· ≠ m)) ls
  | _, _ :: _ => none

theorem runLines_flat {inc : Inc} : ∀ {ls : List Line} {st : St} {rest : List Line}, (∀ l ∈ ls, Flat l) → st.skip = 0 →
    runLines inc st (ls ++ rest) = (walk inc st.defs ls).bind fun r => (runLines inc { st with defs := r.2 } rest).map fun q => (r.1 ++ q.1, q.2)
  | [], st, rest, _, hs => by
    simp only [List.nil_append, walk, Option.bind_some]
    cases runLines inc st rest <;> simp
  | l :: ls, st, rest, hf, hs => by
    have ih := fun st' (h : st'.skip = 0) => runLines_flat (inc := inc) (ls := ls) (st := st') (rest := rest) (fun l hl => hf l (.tail _ hl)) h
    have hl := hf l (.head _)
    cases l with
    | quote f =>
      rw [List.cons_append, runLines, if_neg (by simp [hs])]
      simp only [walk]
      cases inc f st.defs with
      | none => rfl
      | some r =>
        simp only [Option.bind_some]
        rw [ih _ (by exact hs)]
        simp only
        cases walk inc r.2 ls with
        | none => rfl
        | some q =>
          simp only [Option.bind_some, Option.map_some]
          cases runLines inc { st with defs := q.2 } rest with
          | none => rfl
          | some u => simp
    | angle f =>
      rw [List.cons_append, runLines, if_neg (by simp [hs])]
      simp only [walk]
      rw [ih _ hs]
      cases walk inc st.defs ls with
      | none => rfl
      | some q =>
        simp only [Option.bind_some, Option.map_some]
        cases runLines inc { st with defs := q.2 } rest <;> rfl
    | part p =>
      rw [List.cons_append, runLines, if_neg (by simp [hs])]
      simp only [walk]
      rw [ih _ hs]
      cases walk inc st.defs ls with
      | none => rfl
      | some q =>
        simp only [Option.bind_some, Option.map_some]
        cases runLines inc { st with defs := q.2 } rest <;> rfl
    | define s =>
      rw [List.cons_append, runLines, if_neg (by simp [hs])]
      simp only [walk]
      cases nameOf s with
      | none => rfl
      | some m => simp only [Option.bind_some]; rw [ih _ (by exact hs)]
    | undef s =>
      rw [List.cons_append, runLines, if_neg (by simp [hs])]
      simp only [walk]
      cases nameOf s with
      | none => rfl
      | some m => simp only [Option.bind_some]; rw [ih _ (by exact hs)]
    | ifndef _ => exact hl.elim
    | endif => exact hl.elim

theorem runLines_skip {inc : Inc} : ∀ {ls : List Line} {st : St} {rest : List Line}, (∀ l ∈ ls, Flat l) → st.skip ≠ 0 → runLines inc st (ls ++ rest) = runLines inc st rest
  | [], _, _, _, _ => rfl
  | l :: ls, st, rest, hf, hs => by
    have ih := runLines_skip (inc := inc) (ls := ls) (st := st) (rest := rest) (fun l hl => hf l (.tail _ hl)) hs
    have hl := hf l (.head _)
    cases l with
    | quote f => rw [List.cons_append, runLines, if_pos hs]; exact ih
    | angle f => rw [List.cons_append, runLines, if_pos hs]; exact ih
    | part p => rw [List.cons_append, runLines, if_pos hs]; exact ih
    | define s => rw [List.cons_append, runLines, if_pos hs]; exact ih
    | undef s => rw [List.cons_append, runLines, if_pos hs]; exact ih
    | ifndef _ => exact hl.elim
    | endif => exact hl.elim

theorem run_flat {fs : Disk} {f : Nat} {defs : List Text} {ls : List Line} (hf : ∀ l ∈ ls, Flat l) : run fs (f + 1) defs ls = walk (incl fs f) defs ls := by
  have := runLines_flat (inc := incl fs f) (st := { defs := defs }) (rest := []) hf rfl
  rw [List.append_nil] at this
  show (runLines (incl fs f) { defs := defs } ls).bind _ = _
  rw [this]
  cases walk (incl fs f) defs ls with
  | none => rfl
  | some r => simp [runLines]

/-- A guarded file is read once. -/
theorem run_guarded {fs : Disk} {f : Nat} {defs : List Text} {g : Text} {ls : List Line} (hf : ∀ l ∈ ls, Flat l) (hg : nameOf g = some g) :
    run fs (f + 1) defs (guarded g ls) = if g ∈ defs then some ([], defs) else walk (incl fs f) (g :: defs) ls := by
  show (runLines (incl fs f) { defs := defs } (.ifndef g :: .define g :: ls ++ [.endif])).bind _ = _
  rw [List.cons_append, runLines, if_neg (by simp)]
  simp only [hg, Option.bind_some]
  by_cases h : g ∈ defs
  · rw [if_pos h, if_pos h]
    rw [List.cons_append, runLines, if_pos (by simp)]
    simp only [skipped]
    rw [runLines_skip hf (by simp)]
    simp [runLines, skipped]
  · rw [if_neg h, if_neg h]
    rw [List.cons_append, runLines, if_neg (by simp)]
    simp only [hg, Option.bind_some]
    rw [runLines_flat hf rfl]
    simp only
    cases walk (incl fs f) (g :: defs) ls with
    | none => rfl
    | some r => simp [runLines]

theorem walk_parts {inc : Inc} {defs : List Text} : ∀ {ps : List Part}, walk inc defs (ps.map .part) = some (ps.map .part, defs)
  | [] => rfl
  | p :: ps => by rw [List.map_cons, walk, walk_parts]; rfl

theorem walk_append {inc : Inc} : ∀ {ls ms : List Line} {defs : List Text},
    walk inc defs (ls ++ ms) = (walk inc defs ls).bind fun r => (walk inc r.2 ms).map fun q => (r.1 ++ q.1, q.2)
  | [], ms, defs => by
    simp only [List.nil_append, walk, Option.bind_some]
    cases walk inc defs ms <;> simp
  | l :: ls, ms, defs => by
    have ih := fun d => walk_append (inc := inc) (ls := ls) (ms := ms) (defs := d)
    rw [List.cons_append]
    cases l with
    | quote f =>
      simp only [walk]
      cases inc f defs with
      | none => rfl
      | some r =>
        simp only [Option.bind_some]
        rw [ih]
        cases walk inc r.2 ls with
        | none => rfl
        | some q =>
          simp only [Option.bind_some, Option.map_some]
          cases walk inc q.2 ms with
          | none => rfl
          | some u => simp
    | angle f =>
      simp only [walk]
      rw [ih]
      cases walk inc defs ls with
      | none => rfl
      | some q =>
        simp only [Option.bind_some, Option.map_some]
        cases walk inc q.2 ms <;> rfl
    | part p =>
      simp only [walk]
      rw [ih]
      cases walk inc defs ls with
      | none => rfl
      | some q =>
        simp only [Option.bind_some, Option.map_some]
        cases walk inc q.2 ms <;> rfl
    | define s =>
      simp only [walk]
      cases nameOf s with
      | none => rfl
      | some m => exact ih _
    | undef s =>
      simp only [walk]
      cases nameOf s with
      | none => rfl
      | some m => exact ih _
    | ifndef _ => rfl
    | endif => rfl

/-! ## Sound texts grow -/

/-- What may come behind `out`. -/
def Next (o : Opts) (w : World) : List Ev → List Ev → Prop
  | _, [] => True
  | out, e :: es => (∀ n ∈ needsEv o w e, n ∈ out) ∧ out.count (.part .enter) = out.count (.part .leave) + level e ∧ Next o w (out ++ [e]) es

theorem split_append {α : Type} {out es a b : List α} {e : α} (h : out ++ es = a ++ e :: b) : (∃ b', out = a ++ e :: b') ∨ ∃ a', es = a' ++ e :: b ∧ a = out ++ a' := by
  rcases List.append_eq_append_iff.1 h with ⟨t, h1, h2⟩ | ⟨t, h1, h2⟩
  · exact .inr ⟨t, h2, h1⟩
  · cases t with
    | nil => exact .inr ⟨[], by simpa using h2.symm, by simpa using h1.symm⟩
    | cons x t =>
      simp only [List.cons_append, List.cons.injEq] at h2
      exact .inl ⟨t, by rw [h1, h2.1]⟩

structure Grown (o : Opts) (w : World) (out : List Ev) : Prop where
  ordered : ∀ a e b, out = a ++ e :: b → ∀ n ∈ needsEv o w e, n ∈ a
  levels : ∀ a e b, out = a ++ e :: b → a.count (.part .enter) = a.count (.part .leave) + level e

theorem Grown.snoc {o : Opts} {w : World} {out : List Ev} (h : Grown o w out) {e : Ev} (h1 : ∀ n ∈ needsEv o w e, n ∈ out) (h2 : out.count (.part .enter) = out.count (.part .leave) + level e) :
    Grown o w (out ++ [e]) := by
  constructor
  · intro a e' b hs n hn
    rcases split_append hs with ⟨b', hb⟩ | ⟨a', ha, rfl⟩
    · exact h.ordered _ _ _ hb n hn
    · cases a' with
      | nil =>
        simp only [List.nil_append, List.cons.injEq] at ha
        rw [← ha.1] at hn
        simpa using h1 n hn
      | cons x a' => simp at ha
  · intro a e' b hs
    rcases split_append hs with ⟨b', hb⟩ | ⟨a', ha, rfl⟩
    · exact h.levels _ _ _ hb
    · cases a' with
      | nil =>
        simp only [List.nil_append, List.cons.injEq] at ha
        rw [← ha.1]
        simpa using h2
      | cons x a' => simp at ha

theorem Grown.append {o : Opts} {w : World} : ∀ {es out : List Ev}, Grown o w out → Next o w out es → Grown o w (out ++ es)
  | [], out, h, _ => by simpa using h
  | e :: es, out, h, ⟨h1, h2, h3⟩ => by
    have := Grown.append (h.snoc h1 h2) h3
    simpa using this

/-! ## The generated headers -/

/-- The lines before the declarations. -/
def pre (o : Opts) (w : World) : H → List Line
  | .ast => .quote (H.fwd.file o) :: exportInclude w ++ quotes w.astHeaders ++ [.angle (txt "QList"), .angle (txt "kdev-pg-list.h")]
  | .fwd => exportInclude w
  | .tokenType => exportInclude w ++ quotes w.astHeaders
  | .parser => .quote (H.tokenType.file o) :: (if w.hasLexer then [.quote (H.lexer.file o)] else []) ++
      (if o.ast then [.quote (H.fwd.file o), .angle (txt "kdev-pg-memory-pool.h"), .angle (txt "kdev-pg-allocator.h")] else []) ++
      (if w.tokenStream = txt "KDevPG::TokenStream" then [.angle (txt "kdev-pg-token-stream.h")] else []) ++ quotes w.parserDeclarationHeaders ++ exportInclude w ++
      (if o.opStack then [.angle (txt "QList")] else [])
  | .visitor => .quote (H.ast.file o) :: exportInclude w
  | .defaultVisitor => .quote (H.visitor.file o) :: exportInclude w
  | .serialize => .quote (H.defaultVisitor.file o) :: exportInclude w ++ [.angle (txt "QTextStream"), .angle (txt "QFile")]
  | .debug => .quote (H.defaultVisitor.file o) :: exportInclude w ++ [.angle (txt "kdev-pg-token-stream.h"), .angle (txt "QTextStream"), .angle (txt "QDebug")]
  | .tokenText => exportInclude w ++ [.quote (H.tokenType.file o)]
  | .lexer => .quote (H.tokenType.file o) :: [.angle (txt "kdev-pg-char-sets.h"), .angle (txt "kdev-pg-token-stream.h")] ++ quotes w.lexerDeclarationHeaders

def userParts (u : User) (b : Bool) : List Part := if b then [.user u] else []

def nsParts (l : List Part) : List Part := .enter :: l ++ [.leave]

/-- The declarations. -/
def parts (o : Opts) (w : World) : H → List Part
  | .ast => userParts .decl (w.decl ≠ []) ++ nsParts [.user .namespaceCode, .body .astNode, .user .astCode, .body .ast]
  | .fwd => nsParts [.body .astFwd]
  | .tokenType => userParts .decl (w.decl ≠ []) ++ nsParts [.body .tokenType]
  | .parser => userParts .decl (w.decl ≠ [] ∧ o.ast = false) ++ nsParts [.body .parser]
  | .visitor => nsParts [.body .visitor]
  | .defaultVisitor => nsParts [.body .defaultVisitor]
  | .serialize => nsParts [.body .serialize]
  | .debug => nsParts [.body .debug]
  | .tokenText => nsParts [.body .tokenText]
  | .lexer => nsParts [.body .lexer]

theorem userIf_eq (u : User) (b : Bool) : userIf u b = (userParts u b).map .part := by unfold userIf userParts; split <;> rfl

theorem inNs_eq (l : List Part) : inNs l = (nsParts l).map .part := by simp [inNs, nsParts]

theorem inner_eq (o : Opts) (w : World) (h : H) : inner o w h = pre o w h ++ (parts o w h).map .part := by
  cases h <;> simp [inner, pre, parts, userIf_eq, inNs_eq]

/-- Lines that include, other than generated files, or generated headers of smaller rank. -/
def rank : H → Nat
  | .fwd => 0
  | .tokenType => 0
  | .ast => 1
  | .lexer => 1
  | .tokenText => 1
  | .visitor => 2
  | .parser => 2
  | .defaultVisitor => 3
  | .serialize => 4
  | .debug => 4

theorem mem_outputHeaders {o : Opts} {h : H} : h ∈ outputHeaders o ↔ match h with
    | .ast => o.ast = true | .fwd => o.ast = true | .tokenType => True | .parser => True | .visitor => o.ast = true | .defaultVisitor => o.ast = true
    | .serialize => o.serialize = true | .debug => o.debug = true | .tokenText => o.tokenText = true ∨ o.debug = true | .lexer => False := by
  unfold outputHeaders
  cases o.ast <;> cases o.serialize <;> cases o.debug <;> cases o.tokenText <;> cases h <;> simp

theorem suffix_inj : ∀ {a b : H}, a.suffix = b.suffix → a = b := by
  intro a b
  revert a b
  have : ∀ a ∈ [H.ast, .fwd, .tokenType, .parser, .visitor, .defaultVisitor, .serialize, .debug, .tokenText, .lexer],
      ∀ b ∈ [H.ast, .fwd, .tokenType, .parser, .visitor, .defaultVisitor, .serialize, .debug, .tokenText, .lexer], a.suffix = b.suffix → a = b := by decide +kernel
  intro a b h
  exact this a (by cases a <;> simp) b (by cases b <;> simp) h

theorem file_inj {o : Opts} {a b : H} (h : a.file o = b.file o) : a = b := suffix_inj (List.append_cancel_left h)

theorem guardSuffix_inj {a b : H} (h : a.guardSuffix = b.guardSuffix) : a = b := by
  revert h
  have : ∀ a ∈ [H.ast, .fwd, .tokenType, .parser, .visitor, .defaultVisitor, .serialize, .debug, .tokenText, .lexer],
      ∀ b ∈ [H.ast, .fwd, .tokenType, .parser, .visitor, .defaultVisitor, .serialize, .debug, .tokenText, .lexer], a.guardSuffix = b.guardSuffix → a = b := by decide +kernel
  exact this a (by cases a <;> simp) b (by cases b <;> simp)

theorem clean_ok (c : Nat) : (letter (clean c) || digit (clean c)) = true := by
  unfold clean letter digit
  split
  · rfl
  · simp; omega

theorem clean_letter {c : Nat} (h : digit c = false) : letter (clean c) = true := by
  unfold clean
  split
  · rfl
  · simp [letter, digit] at h ⊢; omega

theorem takeWhile_self {α : Type} {p : α → Bool} : ∀ {l : List α}, (∀ x ∈ l, p x = true) → l.takeWhile p = l
  | [], _ => rfl
  | x :: l, h => by rw [List.takeWhile_cons, if_pos (h x (.head _)), takeWhile_self fun y hy => h y (.tail _ hy)]

theorem nameOf_all {s : Text} (h0 : ∀ c, s.head? = some c → letter c = true) (h : ∀ c ∈ s, (letter c || digit c) = true) (hne : s ≠ []) : nameOf s = some s := by
  cases s with
  | nil => exact absurd rfl hne
  | cons c cs =>
    rw [nameOf, if_pos (h0 c rfl), takeWhile_self fun x hx => h x (.tail _ hx)]

theorem guardSuffix_ok (h : H) : (∀ c ∈ h.guardSuffix, (letter c || digit c) = true) ∧ (∀ c, h.guardSuffix.head? = some c → letter c = true) ∧ h.guardSuffix ≠ [] := by
  cases h <;> decide +kernel

theorem guard_eq {up : Nat → List Nat} {o : Opts} {w : World} (hN : Named up o w) {h : H} (hh : h = .lexer → w.hasLexer = true) : h.guard up o = (upper up o.language).map clean ++ h.guardSuffix := by
  cases h with
  | lexer =>
    have := List.map_congr_left (hN.lexer (hh rfl))
    rw [List.map_id'] at this
    rw [this]
    rfl
  | _ => rfl

theorem guard_name {up : Nat → List Nat} {o : Opts} {w : World} (hN : Named up o w) {h : H} (hh : h = .lexer → w.hasLexer = true) : nameOf (h.guard up o) = some (h.guard up o) := by
  rw [guard_eq hN hh]
  obtain ⟨h1, h2, h3⟩ := guardSuffix_ok h
  refine nameOf_all ?_ ?_ (by simp [h3])
  · intro c hc
    cases e : upper up o.language with
    | nil => rw [e] at hc; exact h2 c hc
    | cons x xs =>
      rw [e] at hc
      simp only [List.map_cons, List.cons_append, List.head?_cons, Option.some.injEq] at hc
      rw [← hc]
      exact clean_letter (hN.first x (by rw [e]; rfl))
  · intro c hc
    rcases List.mem_append.1 hc with hc | hc
    · obtain ⟨x, -, rfl⟩ := List.mem_map.1 hc
      exact clean_ok x
    · exact h1 c hc

theorem guard_inj {up : Nat → List Nat} {o : Opts} {w : World} (hN : Named up o w) {a b : H} (ha : a = .lexer → w.hasLexer = true) (hb : b = .lexer → w.hasLexer = true)
    (h : a.guard up o = b.guard up o) : a = b := by
  rw [guard_eq hN ha, guard_eq hN hb] at h
  exact guardSuffix_inj (List.append_cancel_left h)

end Verif.Out
