import Verif.Out.Props
import Verif.Main.Props

/-!
# C108: the generated files that are included are written
-/

namespace Verif.Out

open Verif.Top (Text txt World)
open Verif.Out.Spec

variable {up : Nat → List Nat} {o : Opts} {w : World}

/-- All files that are included with quotes are named by the user or written. -/
def Closed (w : World) (l : List (Text × List Line)) : Prop := ∀ p ∈ l, ∀ x, .quote x ∈ p.2 → x ∈ userHeaders w ∨ x ∈ l.map (·.1)

/-- What is written for a parser and for a lexer. -/
def written (up : Nat → List Nat) (o : Opts) (w : World) (parser lexer : Bool) : List (Text × List Line) := (if parser then output up o w else []) ++ if lexer then outputLexer up o w else []

theorem quote_part {x : Text} {ps : List Part} : .quote x ∉ ps.map Line.part := by simp

theorem quote_quotes {x : Text} {xs : List Text} : .quote x ∈ quotes xs ↔ x ∈ xs := by simp [quotes]

theorem quote_export {x : Text} : .quote x ∈ exportInclude w ↔ x = w.exportMacroHeader ∧ x ≠ [] := by
  unfold exportInclude
  split
  · next h => simp [h]
  · next h =>
    simp only [List.mem_singleton, Line.quote.injEq]
    exact ⟨fun e => ⟨e, by rw [e]; exact h⟩, And.left⟩

/-- The generated headers that a header includes. -/
def uses (o : Opts) (w : World) : H → List H
  | .ast => [.fwd]
  | .parser => .tokenType :: (if w.hasLexer then [.lexer] else []) ++ if o.ast then [.fwd] else []
  | .visitor => [.ast]
  | .defaultVisitor => [.visitor]
  | .serialize => [.defaultVisitor]
  | .debug => [.defaultVisitor]
  | .tokenText => [.tokenType]
  | .lexer => [.tokenType]
  | _ => []

def usesSrc (o : Opts) : Src → List H
  | .parser => .parser :: if o.ast then [.ast] else []
  | .visitor => [.visitor]
  | .defaultVisitor => [.defaultVisitor]
  | .lexer => [.lexer]

theorem header_quotes {h : H} {x : Text} : (.quote x ∈ h.lines up o w → x ∈ userHeaders w ∨ ∃ k ∈ uses o w h, x = k.file o) ∧ ∀ k ∈ uses o w h, .quote (k.file o) ∈ h.lines up o w := by
  have e : ∀ x, .quote x ∈ h.lines up o w ↔ .quote x ∈ pre o w h := by
    intro x
    rw [H.lines, guarded, inner_eq]
    simp
  simp only [e]
  constructor
  · intro hx
    cases h with
    | parser =>
      simp only [pre, List.cons_append, List.mem_cons, List.mem_append, quote_quotes, quote_export, Line.quote.injEq] at hx
      rcases hx with hx | ((((hx | hx) | hx) | hx) | hx) | hx
      · exact .inr ⟨.tokenType, by simp [uses], hx⟩
      · split at hx
        · next e => exact .inr ⟨.lexer, by simp [uses, e], by simpa using hx⟩
        · cases hx
      · split at hx
        · next e => exact .inr ⟨.fwd, by simp [uses, e], by simpa using hx⟩
        · cases hx
      · split at hx <;> simp at hx
      · exact .inl (by simp [userHeaders, hx])
      · exact .inl (by simp [userHeaders, hx.1])
      · split at hx <;> simp at hx
    | _ =>
      simp [pre, quote_quotes, quote_export] at hx
      simp [uses, userHeaders]
      tauto
  · intro k hk
    cases h with
    | parser =>
      simp only [uses, List.cons_append, List.mem_cons, List.mem_append] at hk
      rcases hk with rfl | hk | hk
      · simp [pre]
      · split at hk
        · next e => cases List.mem_singleton.1 hk; simp [pre, e]
        · cases hk
      · split at hk
        · next e => cases List.mem_singleton.1 hk; simp [pre, e]
        · cases hk
    | _ => simp [uses] at hk <;> subst hk <;> simp [pre]

theorem source_quotes {s : Src} {x : Text} : (.quote x ∈ s.lines o w → x ∈ userHeaders w ∨ ∃ k ∈ usesSrc o s, x = k.file o) ∧ ∀ k ∈ usesSrc o s, .quote (k.file o) ∈ s.lines o w := by
  have e : ∀ x, .quote x ∈ s.lines o w ↔ .quote x ∈ srcPre o w s := by
    intro x
    rw [src_eq, List.mem_append, or_iff_left]
    intro h
    exact srcRest_simple s _ h
  simp only [e]
  constructor
  · intro hx
    cases s with
    | parser =>
      simp only [srcPre, List.cons_append, List.mem_cons, List.mem_append, quote_quotes, Line.quote.injEq] at hx
      rcases hx with hx | hx | hx
      · exact .inr ⟨.parser, by simp [usesSrc], hx⟩
      · split at hx
        · next e => exact .inr ⟨.ast, by simp [usesSrc, e], by simpa using hx⟩
        · cases hx
      · exact .inl (by simp [userHeaders, hx])
    | _ =>
      simp [srcPre, quote_quotes] at hx
      simp [usesSrc, userHeaders]
      tauto
  · intro k hk
    cases s with
    | parser =>
      simp only [usesSrc, List.mem_cons] at hk
      rcases hk with rfl | hk
      · simp [srcPre]
      · split at hk
        · next e => cases List.mem_singleton.1 hk; simp [srcPre, e]
        · cases hk
    | _ => simp [usesSrc] at hk; subst hk; simp [srcPre]

theorem mem_names {parser lexer : Bool} {h : H} : h.file o ∈ (written up o w parser lexer).map (·.1) ↔ (parser = true ∧ h ∈ outputHeaders o) ∨ (lexer = true ∧ h = .lexer) := by
  have hs : ∀ (h : H) (s : Src), h.suffix ≠ s.suffix := by
    have : ∀ h ∈ [H.ast, .fwd, .tokenType, .parser, .visitor, .defaultVisitor, .serialize, .debug, .tokenText, .lexer], ∀ s ∈ [Src.parser, .visitor, .defaultVisitor, .lexer], h.suffix ≠ s.suffix := by decide +kernel
    intro h s
    exact this h (by cases h <;> simp) s (by cases s <;> simp)
  have hf : ∀ (h : H) (s : Src), h.file o ≠ s.file o := fun h s e => hs h s (List.append_cancel_left e)
  unfold written
  cases parser <;> cases lexer <;> simp only [Bool.false_eq_true, if_true, if_false, List.map_append, List.map_nil, List.mem_append, List.not_mem_nil, false_or, false_and, or_false, true_and, output,
    outputLexer, List.map_map, List.mem_map, Function.comp_apply, List.map_cons, List.mem_cons]
  · exact ⟨fun h => h.elim (fun e => file_inj e) fun e => absurd e (hf _ _), fun e => .inl (by rw [e])⟩
  · constructor
    · rintro (⟨k, hk, e⟩ | ⟨s, -, e⟩)
      · cases file_inj e; exact hk
      · exact absurd e.symm (hf _ _)
    · exact fun e => .inl ⟨h, e, rfl⟩
  · constructor
    · rintro ((⟨k, hk, e⟩ | ⟨s, -, e⟩) | e | e)
      · cases file_inj e; exact .inl hk
      · exact absurd e.symm (hf _ _)
      · exact .inr (file_inj e)
      · exact absurd e (hf _ _)
    · rintro (e | e)
      · exact .inl (.inl ⟨h, e, rfl⟩)
      · exact .inr (.inl (by rw [e]))

/-- C108: all generated files that are included are written, exactly if the lexer is written when there is one and a parser, and the parser when there is a lexer, and nodes when there are visitors for them. -/
theorem C108_written {parser lexer : Bool} (hu : ∀ h : H, h.file o ∉ userHeaders w) : Closed w (written up o w parser lexer) ↔
    (parser = true → w.hasLexer = true → lexer = true) ∧ (lexer = true → parser = true) ∧ (parser = true → o.serialize = true ∨ o.debug = true → o.ast = true) := by
  have hmem : ∀ h : H, (parser = true ∧ h ∈ outputHeaders o) ∨ (lexer = true ∧ h = .lexer) → (h.file o, h.lines up o w) ∈ written up o w parser lexer := by
    rintro h (⟨e, hh⟩ | ⟨e, rfl⟩)
    · exact List.mem_append_left _ (by rw [if_pos e]; exact List.mem_append_left _ (List.mem_map.2 ⟨h, hh, rfl⟩))
    · exact List.mem_append_right _ (by rw [if_pos e]; exact .head _)
  constructor
  · intro hC
    have key : ∀ h k : H, (parser = true ∧ h ∈ outputHeaders o) ∨ (lexer = true ∧ h = .lexer) → k ∈ uses o w h → (parser = true ∧ k ∈ outputHeaders o) ∨ (lexer = true ∧ k = .lexer) := by
      intro h k hh hk
      exact mem_names.1 ((hC _ (hmem h hh) _ (header_quotes (x := []).2 k hk)).resolve_left (hu k))
    refine ⟨fun hp hl => ?_, fun hl => ?_, fun hp hs => ?_⟩
    · rcases key .parser .lexer (.inl ⟨hp, mem_outputHeaders.2 trivial⟩) (by simp [uses, hl]) with h | h
      · exact (mem_outputHeaders.1 h.2).elim
      · exact h.1
    · rcases key .lexer .tokenType (.inr ⟨hl, rfl⟩) (by simp [uses]) with h | h
      · exact h.1
      · cases h.2
    · have : ∃ h : H, h ∈ outputHeaders o ∧ H.defaultVisitor ∈ uses o w h := by
        rcases hs with hs | hs
        · exact ⟨.serialize, mem_outputHeaders.2 hs, by simp [uses]⟩
        · exact ⟨.debug, mem_outputHeaders.2 hs, by simp [uses]⟩
      obtain ⟨h, h1, h2⟩ := this
      rcases key h .defaultVisitor (.inl ⟨hp, h1⟩) h2 with h | h
      · exact mem_outputHeaders.1 h.2
      · cases h.2
  · rintro ⟨c1, c2, c3⟩ p hp x hx
    have goal : ∀ k : H, (parser = true ∧ k ∈ outputHeaders o) ∨ (lexer = true ∧ k = .lexer) → x = k.file o → x ∈ userHeaders w ∨ x ∈ (written up o w parser lexer).map (·.1) := by
      rintro k hk rfl
      exact .inr (mem_names.2 hk)
    have hh : ∀ h : H, (parser = true ∧ h ∈ outputHeaders o) ∨ (lexer = true ∧ h = .lexer) → ∀ k ∈ uses o w h, (parser = true ∧ k ∈ outputHeaders o) ∨ (lexer = true ∧ k = .lexer) := by
      rintro h (⟨e, hh⟩ | ⟨e, rfl⟩) k hk
      · have hh' := mem_outputHeaders.1 hh
        cases h with
        | parser =>
          simp only [uses, List.cons_append, List.mem_cons, List.mem_append] at hk
          rcases hk with rfl | hk | hk
          · exact .inl ⟨e, mem_outputHeaders.2 trivial⟩
          · split at hk
            · next hl => cases List.mem_singleton.1 hk; exact .inr ⟨c1 e hl, rfl⟩
            · cases hk
          · split at hk
            · next ha => cases List.mem_singleton.1 hk; exact .inl ⟨e, mem_outputHeaders.2 ha⟩
            · cases hk
        | lexer => exact hh'.elim
        | serialize => simp [uses] at hk; subst hk; exact .inl ⟨e, mem_outputHeaders.2 (c3 e (.inl hh'))⟩
        | debug => simp [uses] at hk; subst hk; exact .inl ⟨e, mem_outputHeaders.2 (c3 e (.inr hh'))⟩
        | tokenText => simp [uses] at hk; subst hk; exact .inl ⟨e, mem_outputHeaders.2 trivial⟩
        | ast => simp [uses] at hk; subst hk; exact .inl ⟨e, mem_outputHeaders.2 hh'⟩
        | visitor => simp [uses] at hk; subst hk; exact .inl ⟨e, mem_outputHeaders.2 hh'⟩
        | defaultVisitor => simp [uses] at hk; subst hk; exact .inl ⟨e, mem_outputHeaders.2 hh'⟩
        | _ => simp [uses] at hk
      · simp [uses] at hk
        subst hk
        exact .inl ⟨c2 e, mem_outputHeaders.2 trivial⟩
    rcases List.mem_append.1 hp with hp | hp
    · split at hp
      · next e =>
        rcases List.mem_append.1 hp with hp | hp
        · obtain ⟨h, h1, rfl⟩ := List.mem_map.1 hp
          rcases (header_quotes (x := x)).1 hx with h2 | ⟨k, hk, h2⟩
          · exact .inl h2
          · exact goal k (hh h (.inl ⟨e, h1⟩) k hk) h2
        · obtain ⟨s, h1, rfl⟩ := List.mem_map.1 hp
          rcases (source_quotes (x := x)).1 hx with h2 | ⟨k, hk, h2⟩
          · exact .inl h2
          · refine goal k (.inl ⟨e, mem_outputHeaders.2 ?_⟩) h2
            cases s with
            | parser =>
              simp only [usesSrc, List.mem_cons] at hk
              rcases hk with rfl | hk
              · trivial
              · split at hk
                · next ha => cases List.mem_singleton.1 hk; exact ha
                · cases hk
            | lexer => unfold outputSources at h1; split at h1 <;> simp at h1
            | visitor =>
              simp [usesSrc] at hk; subst hk
              unfold outputSources at h1; split at h1
              · next ha => exact ha
              · simp at h1
            | defaultVisitor =>
              simp [usesSrc] at hk; subst hk
              unfold outputSources at h1; split at h1
              · next ha => exact ha
              · simp at h1
      · cases hp
    · split at hp
      · next e =>
        simp only [outputLexer, List.mem_cons, List.not_mem_nil, or_false] at hp
        rcases hp with rfl | rfl
        · rcases (header_quotes (x := x)).1 hx with h2 | ⟨k, hk, h2⟩
          · exact .inl h2
          · exact goal k (hh .lexer (.inr ⟨e, rfl⟩) k hk) h2
        · rcases (source_quotes (s := .lexer) (o := o) (w := w) (x := x)).1 hx with h2 | ⟨k, hk, h2⟩
          · exact .inl h2
          · simp [usesSrc] at hk; subst hk
            exact goal .lexer (.inr ⟨e, rfl⟩) h2
      · cases hp

/-! ## Runs of the program -/

def text (t : Main.Text) : Text := t.map Char.toNat

/-- What is written for the files that `main` asks for. -/
def contents (up : Nat → List Nat) (o : Opts) (w : World) : Main.File → List (Text × List Line)
  | .parser l n => output up { o with language := text l, ns := text n } w
  | .lexer l n => outputLexer up { o with language := text l, ns := text n } w
  | _ => []

open Verif.Main in
/-- C108: for a successful run that is to write the parser and the lexer, in terms of the arguments and the grammar. -/
theorem C108_run {opens : Main.Text → Bool} {parse : Main.Text → Option Main.Input} {fuel : Nat} {args : List Main.Text} (hab : ∀ a ∈ args, ¬ AboutOpt a) {r : Main.Result}
    (hr : main opens parse fuel args = some r) {file : Main.Text} {I : Main.Input} (hf : Main.Reads opens args file) (hp : parse file = some I) (hs : r.success = true) {l : Main.Text}
    (hl : Value "--output=" args l) (hw : WantsOutput args) (hI : w.hasLexer = I.hasLexer) (hu : ∀ h : H, h.file { o with language := text l } ∉ userHeaders w) :
    Closed w (r.files.flatMap (contents up o w)) ↔
      (MakesParser args I → I.hasLexer = true → MakesLexer args I) ∧ (MakesLexer args I → MakesParser args I) ∧ (MakesParser args I → o.serialize = true ∨ o.debug = true → o.ast = true) := by
  classical
  have hC := C53_written hab hr hf hp
  have hmem : ∀ p, p ∈ r.files.flatMap (contents up o w) ↔ p ∈ written up { o with language := text l } w (decide (MakesParser args I)) (decide (MakesLexer args I)) := by
    obtain ⟨n, hn⟩ : ∃ n, Value "--namespace=" args n ∧ n ≠ [] ∨ Value "--namespace=" args [] ∧ n = l := by
      by_cases h : Value "--namespace=" args []
      · exact ⟨l, .inr ⟨h, rfl⟩⟩
      · exact ⟨_, .inl ⟨(ns_iff opens args).1 rfl, fun e => h ((ns_iff opens args).1 e)⟩⟩
    intro p
    simp only [List.mem_flatMap, written, List.mem_append]
    constructor
    · rintro ⟨f, hf', hpf⟩
      rcases (hC f).1 hf' with h | ⟨-, h⟩
      · rcases h with ⟨rfl, -⟩ | ⟨rfl, -⟩ | ⟨rfl, -⟩ | ⟨rfl, -⟩ <;> cases hpf
      · rcases h with ⟨l', n', h1, -, -, ⟨rfl, h3⟩ | ⟨rfl, h3⟩⟩ | ⟨v, b, rfl, -⟩
        · have : l' = l := ((language_iff opens args).2 h1).symm.trans ((language_iff opens args).2 hl)
          subst this
          exact .inl (by rw [if_pos (by simpa using h3)]; exact hpf)
        · have : l' = l := ((language_iff opens args).2 h1).symm.trans ((language_iff opens args).2 hl)
          subst this
          exact .inr (by rw [if_pos (by simpa using h3)]; exact hpf)
        · cases hpf
    · rintro (h | h)
      · split at h
        · next e => exact ⟨.parser l n, (hC _).2 (.inr ⟨hs, .inl ⟨l, n, hl, hn, hw, .inl ⟨rfl, by simpa using e⟩⟩⟩), h⟩
        · cases h
      · split at h
        · next e => exact ⟨.lexer l n, (hC _).2 (.inr ⟨hs, .inl ⟨l, n, hl, hn, hw, .inr ⟨rfl, by simpa using e⟩⟩⟩), h⟩
        · cases h
  have hcl : Closed w (r.files.flatMap (contents up o w)) ↔ Closed w (written up { o with language := text l } w (decide (MakesParser args I)) (decide (MakesLexer args I))) := by
    have e : ∀ x, x ∈ (r.files.flatMap (contents up o w)).map (·.1) ↔ x ∈ (written up { o with language := text l } w (decide (MakesParser args I)) (decide (MakesLexer args I))).map (·.1) := by
      intro x
      simp only [List.mem_map, hmem]
    unfold Closed
    simp only [hmem, e]
  rw [hcl, C108_written hu, hI]
  simp only [decide_eq_true_eq]

/-- C108 fails for a grammar with a lexer and without rules: `lexer.h` includes `tokentype.h`, which is not written. -/
theorem C108_fails_lexer_only (hu : ∀ h : H, h.file o ∉ userHeaders w) : ¬Closed w (written up o w false true) := fun h => by
  cases ((C108_written hu).1 h).2.1 rfl

/-- C108 fails for `--no-lexer` if the grammar has a lexer: `parser.h` includes `lexer.h`. -/
theorem C108_fails_no_lexer (hu : ∀ h : H, h.file o ∉ userHeaders w) (hl : w.hasLexer = true) : ¬Closed w (written up o w true false) := fun h => by
  cases ((C108_written hu).1 h).1 rfl hl

/-- C108 fails for visitors without nodes. -/
theorem C108_fails_no_ast {lexer : Bool} (hu : ∀ h : H, h.file o ∉ userHeaders w) (ha : o.ast = false) (hs : o.serialize = true ∨ o.debug = true) : ¬Closed w (written up o w true lexer) := fun h => by
  have := ((C108_written hu).1 h).2.2 rfl hs
  rw [ha] at this
  cases this

theorem exNames : ∀ h : H, h.file exO ∉ userHeaders exW := by intro h; cases h <;> decide +kernel

example : Closed exW (written ascii exO exW true true) := (C108_written exNames).2 ⟨fun _ _ => rfl, fun _ => rfl, fun _ _ => rfl⟩

example : ¬Closed exW (written ascii exO exW false true) := C108_fails_lexer_only exNames

open Verif.Main in
example : Closed {} ([Main.File.rules, .parser (arg "x") (arg "x")].flatMap (contents ascii { language := [], debug := true } {})) := by
  refine (C108_run (opens := openG) (parse := parseFine) (fuel := 100) (args := goodArgs) (w := {}) (o := { language := [], debug := true }) good_about good_run good_reads rfl rfl (l := arg "x")
    ((language_iff openG goodArgs).1 (by decide +kernel)) ((output_iff openG goodArgs).1 (by decide +kernel)) rfl (fun h => by cases h <;> decide +kernel)).2 ⟨(fun _ h => nomatch h), (fun h => nomatch h.2), fun _ _ => rfl⟩

end Verif.Out
