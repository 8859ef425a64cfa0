import Verif.Out.Lemmas
import Mathlib.Tactic.Tauto

/-!
# An invariant of preprocessing generated headers
-/

namespace Verif.Out

open Verif.Top (Text txt World)
open Verif.Out.Spec

/-- The files lie on the disk as they were written, the headers of the user are no generated files, nodes are generated for what is built on them. -/
structure Stored (up : Nat → List Nat) (fs : Disk) (o : Opts) (w : World) : Prop where
  named : Named up o w
  stored : ∀ h, present o w h → fs (h.file o) = some (h.lines up o w)
  ext : ∀ x ∈ userHeaders w, fs x = none
  ast : o.serialize = true ∨ o.debug = true → o.ast = true
  ops : o.opStack = true → o.ast = true

variable {up : Nat → List Nat} {fs : Disk} {o : Opts} {w : World}

theorem present_lexer {h : H} (hp : present o w h) : h = .lexer → w.hasLexer = true := by
  rintro rfl
  rcases hp with hp | hp
  · exact (mem_outputHeaders.1 hp).elim
  · exact hp.2

/-- A line of an included header. -/
inductive PreLine (fs : Disk) (o : Opts) (w : World) (r : Nat) : Line → Prop
  | angle {f} : PreLine fs o w r (.angle f)
  | ext {x} : fs x = none → PreLine fs o w r (.quote x)
  | gen {h : H} : present o w h → rank h < r → (h = .debug → Library w) → PreLine fs o w r (.quote (h.file o))

theorem PreLine.flat {r : Nat} {l : Line} (h : PreLine fs o w r l) : Flat l := by cases h <;> trivial

theorem export_pre (S : Stored up fs o w) (r : Nat) : ∀ l ∈ exportInclude w, PreLine fs o w r l := by
  intro l hl
  unfold exportInclude at hl
  split at hl
  · cases hl
  · cases List.mem_singleton.1 hl
    exact .ext (S.ext _ (by simp [userHeaders]))

theorem quotes_pre {r : Nat} {xs : List Text} (h : ∀ x ∈ xs, fs x = none) : ∀ l ∈ quotes xs, PreLine fs o w r l := by
  intro l hl
  obtain ⟨x, hx, rfl⟩ := List.mem_map.1 hl
  exact .ext (h x hx)

theorem pre_ok (S : Stored up fs o w) {h : H} (hp : present o w h) : ∀ l ∈ pre o w h, PreLine fs o w (rank h) l := by
  have hx := export_pre S (rank h)
  have ha := quotes_pre (o := o) (w := w) (r := rank h) (xs := w.astHeaders) fun x hx => S.ext x (by simp [userHeaders, hx])
  have hd := quotes_pre (o := o) (w := w) (r := rank h) (xs := w.parserDeclarationHeaders) fun x hx => S.ext x (by simp [userHeaders, hx])
  have hl := quotes_pre (o := o) (w := w) (r := rank h) (xs := w.lexerDeclarationHeaders) fun x hx => S.ext x (by simp [userHeaders, hx])
  have hT : present o w .tokenType := .inl (mem_outputHeaders.2 trivial)
  have hA : o.ast = true → present o w .fwd ∧ present o w .ast ∧ present o w .visitor ∧ present o w .defaultVisitor := fun e =>
    ⟨.inl (mem_outputHeaders.2 e), .inl (mem_outputHeaders.2 e), .inl (mem_outputHeaders.2 e), .inl (mem_outputHeaders.2 e)⟩
  have hP : ∀ h', h' ≠ .lexer → present o w h' → h' ∈ outputHeaders o := fun h' hne hp => hp.resolve_right fun e => hne e.1
  intro l hl'
  cases h with
  | ast =>
    obtain ⟨a1, -⟩ := hA (mem_outputHeaders.1 (hP _ (by simp) hp))
    simp only [pre, List.cons_append, List.mem_cons, List.mem_append, List.not_mem_nil, or_false] at hl'
    rcases hl' with rfl | (hl' | hl') | rfl | rfl
    · exact .gen a1 (by decide) (by simp)
    · exact hx l hl'
    · exact ha l hl'
    · exact .angle
    · exact .angle
  | fwd => exact hx l hl'
  | tokenType =>
    rcases List.mem_append.1 hl' with hl' | hl'
    · exact hx l hl'
    · exact ha l hl'
  | parser =>
    simp only [pre, List.cons_append, List.mem_cons, List.mem_append] at hl'
    rcases hl' with rfl | ((((hl' | hl') | hl') | hl') | hl') | hl'
    · exact .gen hT (by decide) (by simp)
    · split at hl'
      · next e =>
        cases List.mem_singleton.1 hl'
        exact .gen (.inr ⟨rfl, e⟩) (by decide) (by simp)
      · cases hl'
    · split at hl'
      · next e =>
        simp only [List.mem_cons, List.not_mem_nil, or_false] at hl'
        rcases hl' with rfl | rfl | rfl
        · exact .gen (hA e).1 (by decide) (by simp)
        · exact .angle
        · exact .angle
      · cases hl'
    · split at hl'
      · cases List.mem_singleton.1 hl'; exact .angle
      · cases hl'
    · exact hd l hl'
    · exact hx l hl'
    · split at hl'
      · cases List.mem_singleton.1 hl'; exact .angle
      · cases hl'
  | visitor =>
    obtain ⟨-, a1, -⟩ := hA (mem_outputHeaders.1 (hP _ (by simp) hp))
    rcases List.mem_cons.1 hl' with rfl | hl'
    · exact .gen a1 (by decide) (by simp)
    · exact hx l hl'
  | defaultVisitor =>
    obtain ⟨-, -, a1, -⟩ := hA (mem_outputHeaders.1 (hP _ (by simp) hp))
    rcases List.mem_cons.1 hl' with rfl | hl'
    · exact .gen a1 (by decide) (by simp)
    · exact hx l hl'
  | serialize =>
    obtain ⟨-, -, -, a1⟩ := hA (S.ast (.inl (mem_outputHeaders.1 (hP _ (by simp) hp))))
    simp only [pre, List.cons_append, List.mem_cons, List.mem_append, List.not_mem_nil, or_false] at hl'
    rcases hl' with rfl | hl' | rfl | rfl
    · exact .gen a1 (by decide) (by simp)
    · exact hx l hl'
    · exact .angle
    · exact .angle
  | debug =>
    obtain ⟨-, -, -, a1⟩ := hA (S.ast (.inr (mem_outputHeaders.1 (hP _ (by simp) hp))))
    simp only [pre, List.cons_append, List.mem_cons, List.mem_append, List.not_mem_nil, or_false] at hl'
    rcases hl' with rfl | hl' | rfl | rfl | rfl
    · exact .gen a1 (by decide) (by simp)
    · exact hx l hl'
    · exact .angle
    · exact .angle
    · exact .angle
  | tokenText =>
    rcases List.mem_append.1 hl' with hl' | hl'
    · exact hx l hl'
    · cases List.mem_singleton.1 hl'
      exact .gen hT (by decide) (by simp)
  | lexer =>
    simp only [pre, List.cons_append, List.mem_cons, List.nil_append] at hl'
    rcases hl' with rfl | rfl | rfl | hl'
    · exact .gen hT (by decide) (by simp)
    · exact .angle
    · exact .angle
    · exact hl l hl'

/-- What a line makes available. -/
def Provided (fs : Disk) (o : Opts) (w : World) : Line → List Ev → Prop
  | .angle f, out => .lib f ∈ out
  | .quote x, out => (∀ h : H, x = h.file o → present o w h → body (main h) ∈ out) ∧ (fs x = none → .file x ∈ out)
  | _, _ => True

theorem Provided.mono {l : Line} {out out' : List Ev} (h : Provided fs o w l out) (hs : ∀ e ∈ out, e ∈ out') : Provided fs o w l out' := by
  cases l with
  | angle f => exact hs _ h
  | quote x => exact ⟨fun h' e hp => hs _ (h.1 h' e hp), fun e => hs _ (h.2 e)⟩
  | _ => trivial

structure Inv (up : Nat → List Nat) (fs : Disk) (o : Opts) (w : World) (P : List H) (defs : List Text) (out : List Ev) : Prop where
  i1 : ∀ h, present o w h → h.guard up o ∈ defs → h ∈ P ∨ body (main h) ∈ out
  i2 : ∀ h, present o w h → ∀ b, .body b ∈ parts o w h → body b ∈ out → h.guard up o ∈ defs ∧ h ∉ P
  from_ : ∀ b, body b ∈ out → ∃ h, present o w h ∧ .body b ∈ parts o w h
  once : ∀ b, out.count (body b) ≤ 1
  grown : Grown o w out
  closed : out.count (.part .enter) = out.count (.part .leave)
  prov : ∀ h, present o w h → body (main h) ∈ out → ∀ l ∈ pre o w h, Provided fs o w l out
  cDecl : out.count (user .decl) = if w.decl = [] then 0 else (if body .tokenType ∈ out then 1 else 0) + if body (if o.ast then .ast else .parser) ∈ out then 1 else 0
  cNs : out.count (user .namespaceCode) = if body .ast ∈ out then 1 else 0
  cAst : out.count (user .astCode) = if body .ast ∈ out then 1 else 0
  cBits : user .bits ∉ out
  cLex : user .lexerBits ∉ out

theorem Inv.nil (defs : List Text) (h : ∀ h, present o w h → h.guard up o ∉ defs) : Inv up fs o w [] defs [] where
  i1 := fun k hk e => absurd e (h k hk)
  i2 := fun _ _ _ _ e => by cases e
  from_ := fun _ e => by cases e
  once := fun _ => by simp
  grown := ⟨fun a e b h => by simp at h, fun a e b h => by simp at h⟩
  closed := rfl
  prov := fun _ _ e => by cases e
  cDecl := by simp
  cNs := by simp
  cAst := by simp
  cBits := by simp
  cLex := by simp

/-- Included files that are not generated. -/
def Plain : Ev → Prop
  | .file _ => True
  | .lib _ => True
  | _ => False

theorem Inv.plain {P : List H} {defs : List Text} {out : List Ev} (I : Inv up fs o w P defs out) {e : Ev} (he : Plain e) : Inv up fs o w P defs (out ++ [e]) := by
  have hp : ∀ p : Part, (.part p : Ev) ∈ out ++ [e] ↔ .part p ∈ out := by
    intro p
    cases e <;> simp_all [Plain]
  have hc : ∀ p : Part, (out ++ [e]).count (.part p) = out.count (.part p) := by
    intro p
    cases e <;> simp_all [Plain]
  have hs : ∀ x ∈ out, x ∈ out ++ [e] := fun x hx => List.mem_append_left _ hx
  exact {
    i1 := fun h hh hg => (I.i1 h hh hg).imp id (hs _)
    i2 := fun h hh b hb he => I.i2 h hh b hb ((hp _).1 he)
    from_ := fun b hb => I.from_ b ((hp _).1 hb)
    once := fun b => by rw [hc]; exact I.once b
    grown := I.grown.snoc (by cases e <;> simp_all [Plain, needsEv]) (by rw [I.closed]; cases e <;> simp_all [Plain, level])
    closed := by rw [hc, hc]; exact I.closed
    prov := fun h hh hb l hl => (I.prov h hh ((hp _).1 hb) l hl).mono hs
    cDecl := by rw [hc, I.cDecl]; simp only [hp]
    cNs := by rw [hc, I.cNs]; simp only [hp]
    cAst := by rw [hc, I.cAst]; simp only [hp]
    cBits := fun h => I.cBits ((hp _).1 h)
    cLex := fun h => I.cLex ((hp _).1 h) }

theorem main_mem (o : Opts) (w : World) (h : H) : .body (main h) ∈ parts o w h := by cases h <;> simp [parts, nsParts, main]

theorem body_parts {h : H} {b : Body} (hb : .body b ∈ parts o w h) : b = main h ∨ b = .astNode ∧ h = .ast := by
  have hu : ∀ c, Part.body b ∉ userParts .decl c := fun c => by cases c <;> simp [userParts]
  cases h <;> simp [parts, nsParts, main, hu] at hb ⊢ <;> tauto

theorem main_inj {a b : H} (h : main a = main b) : a = b := by cases a <;> cases b <;> simp_all [main]

theorem parts_inj {a b : H} {x : Body} (ha : .body x ∈ parts o w a) (hb : .body x ∈ parts o w b) : a = b := by
  rcases body_parts ha with h1 | ⟨h1, h2⟩ <;> rcases body_parts hb with h3 | ⟨h3, h4⟩
  · exact main_inj (h1.symm.trans h3)
  · rw [h3] at h1; cases a <;> cases h1
  · rw [h1] at h3; cases b <;> cases h3
  · rw [h2, h4]

/-- What the included lines of a header make available, after them. -/
theorem avail (S : Stored up fs o w) {P : List H} {defs : List Text} {out : List Ev} (I : Inv up fs o w P defs out) {h : H} (hpr : ∀ l ∈ pre o w h, Provided fs o w l out) (hh : present o w h)
    (hs : h = .debug → Library w) : Next o w out ((parts o w h).map .part) := by
  have hc := I.closed
  have hgen : ∀ k : H, present o w k → .quote (k.file o) ∈ pre o w h → body (main k) ∈ out := fun k hk hl => (hpr _ hl).1 k rfl hk
  have hexp : exportInclude w ⊆ pre o w h → ∀ n ∈ exports w, n ∈ out := by
    intro hsub n hn
    unfold exports at hn
    split at hn
    · next e =>
      cases List.mem_singleton.1 hn
      have : Line.quote w.exportMacroHeader ∈ pre o w h := hsub (by rw [exportInclude, if_neg e.2]; exact .head _)
      exact (hpr _ this).2 (S.ext _ (by simp [userHeaders]))
    · cases hn
  have hfiles : ∀ xs : List Text, (∀ x ∈ xs, fs x = none) → quotes xs ⊆ pre o w h → ∀ n ∈ xs.map Ev.file, n ∈ out := by
    intro xs h0 hsub n hn
    obtain ⟨x, hx, rfl⟩ := List.mem_map.1 hn
    exact (hpr _ (hsub (List.mem_map.2 ⟨x, hx, rfl⟩))).2 (h0 x hx)
  have hlib : ∀ f, Line.angle f ∈ pre o w h → Ev.lib f ∈ out := fun f hf => hpr _ hf
  have hT : present o w .tokenType := .inl (mem_outputHeaders.2 trivial)
  have hA : o.ast = true → present o w .fwd ∧ present o w .ast ∧ present o w .visitor ∧ present o w .defaultVisitor := fun e =>
    ⟨.inl (mem_outputHeaders.2 e), .inl (mem_outputHeaders.2 e), .inl (mem_outputHeaders.2 e), .inl (mem_outputHeaders.2 e)⟩
  have hP : ∀ h', h' ≠ .lexer → present o w h' → h' ∈ outputHeaders o := fun h' hne hp => hp.resolve_right fun e => hne e.1
  -- one body alone in the namespace
  have one : ∀ b : Body, parts o w h = nsParts [.body b] → (∀ n ∈ needs o w b, n ∈ out) → Next o w out ((parts o w h).map .part) := by
    intro b e hn
    rw [e]
    refine ⟨by simp [needsEv], by simp [level, hc], fun n hn' => List.mem_append_left _ (hn n hn'), by simp [level, hc], by simp [needsEv], by simp [level, hc], trivial⟩
  have oneD : ∀ b : Body, ∀ c, parts o w h = userParts .decl c ++ nsParts [.body b] → (∀ n ∈ needs o w b, n ∈ out ∨ c = true ∧ n = user .decl) → Next o w out ((parts o w h).map .part) := by
    intro b c e hn
    cases c with
    | false => exact one b (by rw [e]; rfl) fun n hn' => (hn n hn').resolve_right fun e => by cases e.1
    | true =>
      rw [e]
      refine ⟨by simp [needsEv], by simp [level, hc], by simp [needsEv], by simp [level, hc], fun n hn' => ?_, by simp [level, hc], by simp [needsEv], by simp [level, hc], trivial⟩
      rcases hn n hn' with h1 | ⟨-, h1⟩
      · simp [h1]
      · simp [h1]
  -- what is needed transitively
  have trans_exp : ∀ k : H, present o w k → body (main k) ∈ out → exportInclude w ⊆ pre o w k → ∀ n ∈ exports w, n ∈ out := by
    intro k hk hb hsub n hn
    unfold exports at hn
    split at hn
    · next e =>
      cases List.mem_singleton.1 hn
      have : Line.quote w.exportMacroHeader ∈ pre o w k := hsub (by rw [exportInclude, if_neg e.2]; exact .head _)
      exact (I.prov k hk hb _ this).2 (S.ext _ (by simp [userHeaders]))
    · cases hn
  have via : ∀ k k' : H, present o w k → present o w k' → body (main k) ∈ out → .quote (k'.file o) ∈ pre o w k → body (main k') ∈ out :=
    fun k k' hk hk' hb hl => (I.prov k hk hb _ hl).1 k' rfl hk'
  cases h with
  | fwd => exact one _ rfl (by simp [needs])
  | tokenType => exact oneD _ _ rfl (by simp [needs])
  | ast =>
    obtain ⟨a1, -⟩ := hA (mem_outputHeaders.1 (hP _ (by simp) hh))
    have hf := hgen .fwd a1 (by simp [pre])
    have he := hexp (by intro l hl; simp [pre, hl])
    have hq := hfiles w.astHeaders (fun x hx => S.ext x (by simp [userHeaders, hx])) (by intro l hl; simp [pre, hl])
    have hl := hlib (txt "kdev-pg-list.h") (by simp [pre])
    by_cases hd : w.decl = []
    · refine show Next o w out ((userParts .decl (decide (w.decl ≠ [])) ++ nsParts _).map Ev.part) from ?_
      rw [show decide (w.decl ≠ []) = false by simp [hd]]
      refine ⟨by simp [needsEv], by simp [level, hc], by simp [needsEv], by simp [level, hc], ?_, by simp [level, hc], by simp [needsEv], by simp [level, hc], ?_, by simp [level, hc], by simp [needsEv],
        by simp [level, hc], trivial⟩
      · intro n hn
        simp only [needsEv, needs, decl, hd, if_true, List.append_nil, List.mem_append, List.mem_singleton] at hn
        rcases hn with (hn | hn) | rfl
        · simp [he n hn]
        · simp [hq n hn]
        · simp
      · intro n hn
        simp only [needsEv, needs, List.mem_append, List.mem_cons, List.not_mem_nil, or_false] at hn
        rcases hn with hn | rfl | rfl | rfl
        · simp [he n hn]
        · simp
        · simp only [main] at hf; simp [hf]
        · simp [hl]
    · refine show Next o w out ((userParts .decl (decide (w.decl ≠ [])) ++ nsParts _).map Ev.part) from ?_
      rw [show decide (w.decl ≠ []) = true by simp [hd]]
      refine ⟨by simp [needsEv], by simp [level, hc], by simp [needsEv], by simp [level, hc], by simp [needsEv], by simp [level, hc], ?_, by simp [level, hc], by simp [needsEv], by simp [level, hc], ?_,
        by simp [level, hc], by simp [needsEv], by simp [level, hc], trivial⟩
      · intro n hn
        simp only [needsEv, needs, decl, hd, if_false, List.mem_append, List.mem_singleton] at hn
        rcases hn with ((hn | hn) | rfl) | rfl
        · simp [he n hn]
        · simp [hq n hn]
        · simp
        · simp
      · intro n hn
        simp only [needsEv, needs, List.mem_append, List.mem_cons, List.not_mem_nil, or_false] at hn
        rcases hn with hn | rfl | rfl | rfl
        · simp [he n hn]
        · simp
        · simp only [main] at hf; simp [hf]
        · simp [hl]
  | parser =>
    have ht := hgen .tokenType hT (by simp [pre])
    have he := hexp (by intro l hl; simp [pre, hl])
    have hq := hfiles w.parserDeclarationHeaders (fun x hx => S.ext x (by simp [userHeaders, hx])) (by intro l hl; simp [pre, hl])
    have hfw : o.ast = true → body .astFwd ∈ out := fun e => hgen .fwd (hA e).1 (by simp [pre, e])
    refine oneD .parser _ rfl fun n hn => ?_
    simp only [needs, List.mem_append, List.mem_cons, List.not_mem_nil, or_false] at hn
    rcases hn with (((((hn | rfl) | hn) | hn) | hn) | hn) | hn
    · exact .inl (he n hn)
    · exact .inl ht
    · unfold stream at hn
      split at hn
      · next e =>
        cases List.mem_singleton.1 hn
        exact .inl (hgen .lexer (.inr ⟨rfl, e⟩) (by simp [pre, e]))
      · split at hn
        · next e =>
          cases List.mem_singleton.1 hn
          exact .inl (hlib _ (by simp [pre, e]))
        · exact .inl (hq n hn)
    · unfold decl at hn
      split at hn
      · cases hn
      · next e =>
        cases List.mem_singleton.1 hn
        by_cases ha : o.ast = true
        · -- the code is in the header of the tokens
          left
          have := I.cDecl
          rw [if_neg e] at this
          have h1 : body .tokenType ∈ out := ht
          rw [if_pos h1] at this
          exact List.count_pos_iff.1 (by omega)
        · exact .inr ⟨by simp [e, ha], rfl⟩
    · exact .inl (hq n hn)
    · split at hn
      · next e =>
        simp only [List.mem_cons, List.not_mem_nil, or_false] at hn
        rcases hn with rfl | rfl
        · exact .inl (hfw e)
        · exact .inl (hlib _ (by simp [pre, e]))
      · cases hn
    · split at hn
      · next e =>
        cases List.mem_singleton.1 hn
        exact .inl (hfw (S.ops e))
      · cases hn
  | visitor =>
    obtain ⟨a1, a2, -⟩ := hA (mem_outputHeaders.1 (hP _ (by simp) hh))
    have h1 := hgen .ast a2 (by simp [pre])
    have he := hexp (by intro l hl; simp [pre, hl])
    refine one _ rfl fun n hn => ?_
    rcases List.mem_append.1 hn with hn | hn
    · exact he n hn
    · cases List.mem_singleton.1 hn
      exact via .ast .fwd a2 a1 h1 (by simp [pre])
  | defaultVisitor =>
    obtain ⟨-, -, a3, -⟩ := hA (mem_outputHeaders.1 (hP _ (by simp) hh))
    have h1 := hgen .visitor a3 (by simp [pre])
    have he := hexp (by intro l hl; simp [pre, hl])
    refine one _ rfl fun n hn => ?_
    rcases List.mem_append.1 hn with hn | hn
    · exact he n hn
    · cases List.mem_singleton.1 hn
      exact h1
  | serialize =>
    obtain ⟨-, a2, a3, a4⟩ := hA (S.ast (.inl (mem_outputHeaders.1 (hP _ (by simp) hh))))
    have h1 := hgen .defaultVisitor a4 (by simp [pre])
    have h2 := via .defaultVisitor .visitor a4 a3 h1 (by simp [pre])
    have h3 := via .visitor .ast a3 a2 h2 (by simp [pre])
    have he := hexp (by intro l hl; simp [pre, hl])
    refine one _ rfl fun n hn => ?_
    simp only [needs, List.mem_append, List.mem_cons, List.not_mem_nil, or_false] at hn
    rcases hn with hn | rfl | rfl
    · exact he n hn
    · exact h1
    · exact h3
  | debug =>
    obtain ⟨-, a2, a3, a4⟩ := hA (S.ast (.inr (mem_outputHeaders.1 (hP _ (by simp) hh))))
    have h1 := hgen .defaultVisitor a4 (by simp [pre])
    have h2 := via .defaultVisitor .visitor a4 a3 h1 (by simp [pre])
    have h3 := via .visitor .ast a3 a2 h2 (by simp [pre])
    have hl := hlib (txt "kdev-pg-token-stream.h") (by simp [pre])
    obtain ⟨s1, s2⟩ := hs rfl
    refine one _ rfl fun n hn => ?_
    simp only [needs, List.mem_append, List.mem_cons, List.not_mem_nil, or_false] at hn
    rcases hn with (rfl | rfl | rfl) | hn
    · exact h1
    · exact h3
    · exact hl
    · simp only [stream, s1, Bool.false_eq_true, if_false] at hn
      split at hn
      · cases List.mem_singleton.1 hn
        exact hl
      · next e => rw [s2.resolve_left e] at hn; cases hn
  | tokenText =>
    have h1 := hgen .tokenType hT (by simp [pre])
    refine one _ rfl fun n hn => ?_
    cases List.mem_singleton.1 hn
    exact h1
  | lexer =>
    have h1 := hgen .tokenType hT (by simp [pre])
    have he := trans_exp .tokenType hT h1 (by intro l hl; simp [pre, hl])
    have hq := hfiles w.lexerDeclarationHeaders (fun x hx => S.ext x (by simp [userHeaders, hx])) (by intro l hl; simp [pre, hl])
    refine one _ rfl fun n hn => ?_
    simp only [needs, List.mem_append, List.mem_cons, List.not_mem_nil, or_false] at hn
    rcases hn with (hn | rfl | rfl | rfl) | hn
    · exact he n hn
    · exact h1
    · exact hlib _ (by simp [pre])
    · exact hlib _ (by simp [pre])
    · exact hq n hn

theorem count_parts (o : Opts) (w : World) (h : H) (b : Body) : ((parts o w h).map Ev.part).count (body b) ≤ 1 := by
  have hu : ∀ c, ((userParts .decl c).map Ev.part).count (body b) = 0 := fun c => by cases c <;> simp [userParts]
  cases h <;> simp [parts, nsParts, List.count_append, hu, List.count_cons]
  · by_cases h1 : Body.ast = b
    · subst h1; simp
    · simp only [h1, if_false]; split <;> omega
  all_goals split <;> omega

/-- The declarations of a header behind what it includes. -/
theorem Inv.finish (S : Stored up fs o w) {P : List H} {defs : List Text} {out : List Ev} {h : H} (I : Inv up fs o w (h :: P) defs out) (hpr : ∀ l ∈ pre o w h, Provided fs o w l out)
    (hh : present o w h) (hs : h = .debug → Library w) (hd : h.guard up o ∈ defs) (hP : h ∉ P) : Inv up fs o w P defs (out ++ (parts o w h).map .part) := by
  have hm : ∀ b, body b ∈ out ++ (parts o w h).map Ev.part ↔ body b ∈ out ∨ .body b ∈ parts o w h := by
    intro b
    simp [List.mem_append]
  have hsub : ∀ x ∈ out, x ∈ out ++ (parts o w h).map Ev.part := fun x hx => List.mem_append_left _ hx
  have hnot : ∀ b, .body b ∈ parts o w h → body b ∉ out := fun b hb ho => (I.i2 h hh b hb ho).2 (.head _)
  have hu : ∀ c u, Part.user u ∈ userParts .decl c ↔ c = true ∧ u = .decl := fun c u => by cases c <;> simp [userParts]
  exact {
    i1 := fun k hk hg => by
      rcases I.i1 k hk hg with h1 | h1
      · rcases List.mem_cons.1 h1 with rfl | h1
        · exact .inr ((hm _).2 (.inr (main_mem o w _)))
        · exact .inl h1
      · exact .inr (hsub _ h1)
    i2 := fun k hk b hb hbo => by
      rcases (hm b).1 hbo with h1 | h1
      · obtain ⟨h2, h3⟩ := I.i2 k hk b hb h1
        exact ⟨h2, fun e => h3 (.tail _ e)⟩
      · cases parts_inj hb h1
        exact ⟨hd, hP⟩
    from_ := fun b hb => by
      rcases (hm b).1 hb with h1 | h1
      · exact I.from_ b h1
      · exact ⟨h, hh, h1⟩
    once := fun b => by
      rw [List.count_append]
      by_cases hb : .body b ∈ parts o w h
      · rw [List.count_eq_zero.2 (hnot b hb)]
        have := count_parts o w h b
        omega
      · have : ((parts o w h).map Ev.part).count (body b) = 0 := List.count_eq_zero.2 (by simpa using hb)
        have := I.once b
        omega
    grown := I.grown.append (avail S I hpr hh hs)
    closed := by
      have h1 : ∀ c, ((userParts .decl c).map Ev.part).count (.part .enter) = 0 := fun c => by cases c <;> simp [userParts]
      have h2 : ∀ c, ((userParts .decl c).map Ev.part).count (.part .leave) = 0 := fun c => by cases c <;> simp [userParts]
      rw [List.count_append, List.count_append, I.closed]
      cases h <;> simp [parts, nsParts, List.count_append, h1, h2]
    prov := fun k hk hb l hl => by
      rcases (hm _).1 hb with h1 | h1
      · exact (I.prov k hk h1 l hl).mono hsub
      · cases parts_inj (main_mem o w k) h1
        exact (hpr l hl).mono hsub
    cDecl := by
      have n1 : .body .tokenType ∈ parts o w h → body .tokenType ∉ out := hnot _
      have n2 : .body .ast ∈ parts o w h → body .ast ∉ out := hnot _
      have n3 : .body .parser ∈ parts o w h → body .parser ∉ out := hnot _
      rw [List.count_append, I.cDecl]
      simp only [hm]
      by_cases hw : w.decl = [] <;> cases ha : o.ast <;> cases h <;> simp [parts, nsParts, userParts, hw, ha] at n1 n2 n3 ⊢
      all_goals (try simp [n1]) <;> (try simp [n2]) <;> (try simp [n3]) <;> (try omega)
      have : o.ast = true := mem_outputHeaders.1 (hh.resolve_right fun e => by cases e.1)
      rw [ha] at this; cases this
    cNs := by
      have n2 : .body .ast ∈ parts o w h → body .ast ∉ out := hnot _
      rw [List.count_append, I.cNs]
      simp only [hm]
      by_cases hw : w.decl = [] <;> cases ha : o.ast <;> cases h <;> simp [parts, nsParts, userParts, hw, ha] at n2 ⊢
      all_goals try simp [n2]
    cAst := by
      have n2 : .body .ast ∈ parts o w h → body .ast ∉ out := hnot _
      rw [List.count_append, I.cAst]
      simp only [hm]
      by_cases hw : w.decl = [] <;> cases ha : o.ast <;> cases h <;> simp [parts, nsParts, userParts, hw, ha] at n2 ⊢
      all_goals try simp [n2]
    cBits := by
      have := I.cBits
      cases h <;> simp [parts, nsParts, this, hu]
    cLex := by
      have := I.cLex
      cases h <;> simp [parts, nsParts, this, hu] }

/-- The lines before the declarations, if all headers of smaller rank are included well. -/
theorem walk_pre {P : List H} {r f : Nat} (hinc : ∀ h, present o w h → rank h < r → (h = .debug → Library w) → ∀ {defs out}, Inv up fs o w P defs out →
      ∃ E defs', incl fs f (h.file o) defs = some (E, defs') ∧ Inv up fs o w P defs' (out ++ E) ∧ body (main h) ∈ out ++ E ∧ ∀ x ∈ defs, x ∈ defs') (hx : ∀ h, present o w h → fs (h.file o) ≠ none) :
    ∀ {ls : List Line} {defs : List Text} {out : List Ev}, (∀ l ∈ ls, PreLine fs o w r l) → Inv up fs o w P defs out →
      ∃ E defs', walk (incl fs f) defs ls = some (E, defs') ∧ Inv up fs o w P defs' (out ++ E) ∧ (∀ l ∈ ls, Provided fs o w l (out ++ E)) ∧ ∀ x ∈ defs, x ∈ defs'
  | [], defs, out, _, I => ⟨[], defs, rfl, by simpa using I, by simp, fun _ h => h⟩
  | l :: ls, defs, out, hl, I => by
    have ih := fun {defs out} => walk_pre hinc hx (ls := ls) (defs := defs) (out := out) fun l h => hl l (.tail _ h)
    rcases hl l (.head _) with _ | hxn | ⟨hp, hr, hne⟩
    · next g =>
      obtain ⟨E, defs', h1, h2, h3, h4⟩ := ih (I.plain (e := .lib g) trivial)
      refine ⟨.lib g :: E, defs', by rw [walk, h1]; rfl, by simpa using h2, fun l' hl' => ?_, h4⟩
      rcases List.mem_cons.1 hl' with rfl | hl'
      · simp [Provided]
      · simpa using h3 l' hl'
    · next x =>
      obtain ⟨E, defs', h1, h2, h3, h4⟩ := ih (I.plain (e := .file x) trivial)
      refine ⟨.file x :: E, defs', by rw [walk, incl, hxn]; simp [h1], by simpa using h2, fun l' hl' => ?_, h4⟩
      rcases List.mem_cons.1 hl' with rfl | hl'
      · refine ⟨fun h e hp => absurd (e ▸ hxn) (hx h hp), fun _ => by simp⟩
      · simpa using h3 l' hl'
    · next h =>
      obtain ⟨E1, defs1, h1, h2, h3, h4⟩ := hinc h hp hr hne I
      obtain ⟨E, defs', k1, k2, k3, k4⟩ := ih h2
      refine ⟨E1 ++ E, defs', by rw [walk, h1]; simp [k1], by simpa using k2, fun l' hl' => ?_, fun x hx => k4 x (h4 x hx)⟩
      rcases List.mem_cons.1 hl' with rfl | hl'
      · refine ⟨fun h' e _ => ?_, fun e => absurd e (hx h hp)⟩
        cases file_inj e
        rw [← List.append_assoc]
        exact List.mem_append_left _ h3
      · simpa using k3 l' hl'

/-- Including a generated header. -/
theorem include_ok (S : Stored up fs o w) : ∀ (r : Nat) {h : H}, rank h ≤ r → present o w h → (h = .debug → Library w) → ∀ {f : Nat}, r < f → ∀ {P : List H} {defs : List Text} {out : List Ev},
    Inv up fs o w P defs out → (∀ p ∈ P, rank h < rank p) →
    ∃ E defs', run fs f defs (h.lines up o w) = some (E, defs') ∧ Inv up fs o w P defs' (out ++ E) ∧ body (main h) ∈ out ++ E ∧ ∀ x ∈ defs, x ∈ defs' := by
  intro r
  induction r using Nat.strongRecOn with
  | ind r ih =>
    intro h hr hh hs f hf P defs out I hP
    obtain ⟨f, rfl⟩ : ∃ f', f = f' + 1 := ⟨f - 1, by omega⟩
    have hg := guard_name S.named (present_lexer hh)
    have hpre := pre_ok S hh
    have hflat : ∀ l ∈ inner o w h, Flat l := by
      intro l hl
      rw [inner_eq] at hl
      rcases List.mem_append.1 hl with hl | hl
      · exact (hpre l hl).flat
      · obtain ⟨p, -, rfl⟩ := List.mem_map.1 hl
        trivial
    rw [H.lines, run_guarded hflat hg]
    by_cases hd : h.guard up o ∈ defs
    · rw [if_pos hd]
      refine ⟨[], defs, rfl, by simpa using I, ?_, fun _ h => h⟩
      rcases I.i1 h hh hd with h1 | h1
      · exact absurd (hP h h1) (by omega)
      · simpa using h1
    · rw [if_neg hd, inner_eq]
      have hhP : h ∉ P := fun e => absurd (hP h e) (by omega)
      have I' : Inv up fs o w (h :: P) (h.guard up o :: defs) out := {
        I with
        i1 := fun k hk hg => by
          rcases List.mem_cons.1 hg with e | hg
          · cases guard_inj S.named (present_lexer hk) (present_lexer hh) e
            exact .inl (.head _)
          · exact (I.i1 k hk hg).imp (.tail _) id
        i2 := fun k hk b hb hbo => by
          obtain ⟨h1, h2⟩ := I.i2 k hk b hb hbo
          refine ⟨.tail _ h1, fun e => ?_⟩
          rcases List.mem_cons.1 e with rfl | e
          · exact hd h1
          · exact h2 e }
      have hinc : ∀ k, present o w k → rank k < rank h → (k = .debug → Library w) → ∀ {defs out}, Inv up fs o w (h :: P) defs out →
          ∃ E defs', incl fs f (k.file o) defs = some (E, defs') ∧ Inv up fs o w (h :: P) defs' (out ++ E) ∧ body (main k) ∈ out ++ E ∧ ∀ x ∈ defs, x ∈ defs' := by
        intro k hk hkr hne defs out J
        rw [incl, S.stored k hk]
        refine ih (rank k) (by omega) (by omega) hk hne (by omega) J fun p hp => ?_
        rcases List.mem_cons.1 hp with rfl | hp
        · exact hkr
        · have := hP p hp; omega
      obtain ⟨E, defs', h1, h2, h3, h4⟩ := walk_pre hinc (fun k hk e => by rw [S.stored k hk] at e; cases e) hpre I'
      refine ⟨E ++ (parts o w h).map .part, defs', by rw [walk_append, h1]; simp [walk_parts], ?_, ?_, fun x hx => h4 x (.tail _ hx)⟩
      · have := h2.finish S h3 hh hs (h4 _ (.head _)) hhP
        simpa using this
      · have := main_mem o w h
        simp [this]

end Verif.Out
