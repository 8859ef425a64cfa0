import Verif.Out.Inv

/-!
# Translation units
-/

namespace Verif.Out

open Verif.Top (Text txt World)
open Verif.Out.Spec

variable {up : Nat → List Nat} {fs : Disk} {o : Opts} {w : World}

/-! ## What is on the disk -/

theorem writes_none : ∀ {l : List (Text × List Line)} {d : Disk} {x : Text}, x ∉ l.map (·.1) → d.writes l x = d x
  | [], _, _, _ => rfl
  | p :: l, d, x, h => by
    simp only [List.map_cons, List.mem_cons, not_or] at h
    show (d.write p.1 p.2).writes l x = _
    rw [writes_none h.2, Disk.write, if_neg h.1]

theorem writes_some : ∀ {l : List (Text × List Line)} {d : Disk} {x : Text} {ls : List Line}, (l.map (·.1)).Nodup → (x, ls) ∈ l → d.writes l x = some ls
  | p :: l, d, x, ls, h, hm => by
    simp only [List.map_cons, List.nodup_cons] at h
    show (d.write p.1 p.2).writes l x = _
    rcases List.mem_cons.1 hm with rfl | hm
    · rw [writes_none h.1, Disk.write, if_pos rfl]
    · exact writes_some h.2 hm

def suffixes : List Text := [H.ast, .fwd, .tokenType, .parser, .visitor, .defaultVisitor, .serialize, .debug, .tokenText, .lexer].map H.suffix ++ [Src.parser, .visitor, .defaultVisitor, .lexer].map Src.suffix

theorem suffixes_nodup : suffixes.Nodup := by decide +kernel

theorem files_eq (d : Disk) : files up o w d = d.writes (output up o w ++ if w.hasLexer then outputLexer up o w else []) := by
  simp [files, Disk.writes, List.foldl_append]

/-- The suffixes of the written files. -/
def outSuffixes (o : Opts) (w : World) : List Text :=
  (outputHeaders o).map H.suffix ++ (outputSources o).map Src.suffix ++ if w.hasLexer then [H.lexer.suffix, Src.lexer.suffix] else []

theorem outSuffixes_nodup (o : Opts) (w : World) : (outSuffixes o w).Nodup := by
  unfold outSuffixes outputHeaders outputSources
  cases o.ast <;> cases o.serialize <;> cases o.debug <;> cases o.tokenText <;> cases w.hasLexer <;> decide +kernel

theorem names_eq : (output up o w ++ if w.hasLexer then outputLexer up o w else []).map (·.1) = (outSuffixes o w).map (o.language ++ ·) := by
  unfold output outputLexer outSuffixes
  split <;> simp [List.map_append, Function.comp_def, H.file, Src.file]

theorem names_nodup : ((output up o w ++ if w.hasLexer then outputLexer up o w else []).map (·.1)).Nodup := by
  rw [names_eq]
  exact List.Pairwise.map _ (fun a b h e => h (List.append_cancel_left e)) (outSuffixes_nodup o w)

theorem stored {d : Disk} (P : Proper up o w d) : Stored up (files up o w d) o w where
  named := P.named
  stored := fun h hp => by
    rw [files_eq]
    refine writes_some names_nodup ?_
    rcases hp with hp | ⟨rfl, hp⟩
    · exact List.mem_append_left _ (List.mem_append_left _ (List.mem_map.2 ⟨h, hp, rfl⟩))
    · exact List.mem_append_right _ (by rw [if_pos hp]; exact .head _)
  ext := P.ext
  ast := P.ast
  ops := P.ops

/-! ## Headers -/

theorem rank_lt (h : H) : rank h < 5 := by cases h <;> decide

theorem pre_unit (S : Stored up fs o w) {f : Nat} (hf : 6 ≤ f) {ls : List Line} {defs : List Text} {out : List Ev} (hl : ∀ l ∈ ls, PreLine fs o w 5 l) (I : Inv up fs o w [] defs out) :
    ∃ E defs', walk (incl fs (f - 1)) defs ls = some (E, defs') ∧ Inv up fs o w [] defs' (out ++ E) ∧ (∀ l ∈ ls, Provided fs o w l (out ++ E)) ∧ ∀ x ∈ defs, x ∈ defs' := by
  refine walk_pre (r := 5) (fun h hp hr hd defs out J => ?_) (fun h hp e => by rw [S.stored h hp] at e; cases e) hl I
  rw [incl, S.stored h hp]
  exact include_ok S 4 (by have := rank_lt h; omega) hp hd (by omega) J fun p hp => by cases hp

theorem Inv.sound {P : List H} {defs : List Text} {out : List Ev} (I : Inv up fs o w P defs out) : Sound o w out := ⟨I.once, I.grown.ordered, I.grown.levels, I.closed⟩

/-! ## Sources -/

/-- Lines that define and undefine macros, and parts. -/
def Simple : Line → Prop
  | .define s => nameOf s ≠ none
  | .undef s => nameOf s ≠ none
  | .part _ => True
  | _ => False

def partsOf : List Line → List Ev
  | [] => []
  | .part p :: ls => .part p :: partsOf ls
  | _ :: ls => partsOf ls

def defsOf : List Text → List Line → List Text
  | defs, [] => defs
  | defs, .define s :: ls => defsOf ((nameOf s).getD [] :: defs) ls
  | defs, .undef s :: ls => defsOf (defs.filter (· ≠ (nameOf s).getD [])) ls
  | defs, _ :: ls => defsOf defs ls

theorem Simple.flat {l : Line} (h : Simple l) : Flat l := by cases l <;> trivial

theorem walk_simple {inc : Inc} : ∀ {ls : List Line} {defs : List Text}, (∀ l ∈ ls, Simple l) → walk inc defs ls = some (partsOf ls, defsOf defs ls)
  | [], _, _ => rfl
  | l :: ls, defs, h => by
    have ih := fun d => walk_simple (inc := inc) (ls := ls) (defs := d) fun l hl => h l (.tail _ hl)
    have hl := h l (.head _)
    cases l with
    | define s =>
      cases e : nameOf s with
      | none => exact absurd e hl
      | some m => simp [walk, partsOf, defsOf, e, ih]
    | undef s =>
      cases e : nameOf s with
      | none => exact absurd e hl
      | some m => simp [walk, partsOf, defsOf, e, ih]
    | part p => simp [walk, partsOf, defsOf, ih]
    | _ => exact hl.elim

theorem partsOf_append : ∀ {a b : List Line}, partsOf (a ++ b) = partsOf a ++ partsOf b
  | [], _ => rfl
  | l :: a, b => by cases l <;> simp [partsOf, partsOf_append (a := a)]

theorem partsOf_parts : ∀ {ps : List Part}, partsOf (ps.map .part) = ps.map .part
  | [] => rfl
  | p :: ps => by simp [partsOf, partsOf_parts]

theorem Next_append : ∀ {es fs out : List Ev}, Next o w out es → Next o w (out ++ es) fs → Next o w out (es ++ fs)
  | [], _, out, _, h => by simpa using h
  | e :: es, fs, out, ⟨h1, h2, h3⟩, h => ⟨h1, h2, Next_append h3 (by simpa using h)⟩

/-- The lines before the definitions. -/
def srcPre (o : Opts) (w : World) : Src → List Line
  | .parser => .quote (H.parser.file o) :: (if o.ast then [.quote (H.ast.file o)] else []) ++ quotes w.parserBitsHeaders
  | .visitor => [.quote (H.visitor.file o)]
  | .defaultVisitor => [.quote (H.defaultVisitor.file o)]
  | .lexer => .quote (H.lexer.file o) :: quotes w.lexerBitsHeaders ++ [.angle (txt "cassert")]

def srcRest (o : Opts) (w : World) : Src → List Line
  | .parser => userIf .bits (w.bits ≠ []) ++ inNs [.body .parserBits]
  | .visitor => inNs [.body .visitorBits]
  | .defaultVisitor => inNs [.body .defaultVisitorBits]
  | .lexer => [.part .enter, .part (.body .lexerInit)] ++ macros.map .define ++
    (if o.hasStates then [.define (txt "lxSET_RULE_SET(r) {PP_CONCAT(leavingRuleSet, CURRENT_RULE_SET) (); m_ruleSet = State_##r; enteringRuleSet##r ();}"), .part (.body .ruleSets)] else []) ++
    lexFunctions o ++ [.part (.user .lexerBits)] ++ (if o.hasStates then [.undef (txt "lxSET_RULE_SET")] else []) ++ undefs.map .undef ++ [.part .leave]

theorem src_eq (s : Src) : s.lines o w = srcPre o w s ++ srcRest o w s := by
  cases s <;> simp [Src.lines, srcPre, srcRest, lexerSource]

/-- The parts of a source file. -/
def srcParts (o : Opts) (w : World) : Src → List Part
  | .parser => userParts .bits (w.bits ≠ []) ++ nsParts [.body .parserBits]
  | .visitor => nsParts [.body .visitorBits]
  | .defaultVisitor => nsParts [.body .defaultVisitorBits]
  | .lexer => [.enter, .body .lexerInit] ++ (if o.hasStates then .body .ruleSets :: o.states.map fun s => .body (.lex s) else []) ++ [.body .read, .user .lexerBits, .leave]

theorem nameOf_rule (s : Text) : nameOf (txt "CURRENT_RULE_SET " ++ s) = some (txt "CURRENT_RULE_SET") := by
  have : txt "CURRENT_RULE_SET " = txt "CURRENT_RULE_SET" ++ [32] := by decide +kernel
  rw [this]
  show nameOf (67 :: ((txt "URRENT_RULE_SET") ++ [32] ++ s)) = _
  rw [nameOf, if_pos (by decide), List.append_assoc, List.takeWhile_append_of_pos (by decide +kernel)]
  rfl

theorem srcRest_simple (s : Src) : ∀ l ∈ srcRest o w s, Simple l := by
  have hp : ∀ ps : List Part, ∀ l ∈ ps.map Line.part, Simple l := by
    intro ps l hl
    obtain ⟨p, -, rfl⟩ := List.mem_map.1 hl
    trivial
  cases s with
  | parser =>
    rw [srcRest, userIf_eq, inNs_eq, ← List.map_append]
    exact hp _
  | visitor => rw [srcRest, inNs_eq]; exact hp _
  | defaultVisitor => rw [srcRest, inNs_eq]; exact hp _
  | lexer =>
    have h1 : ∀ l ∈ macros.map Line.define, Simple l := by
      intro l hl
      obtain ⟨m, hm, rfl⟩ := List.mem_map.1 hl
      have : ∀ m ∈ macros, nameOf m ≠ none := by decide +kernel
      exact this m hm
    have h2 : ∀ l ∈ undefs.map Line.undef, Simple l := by
      intro l hl
      obtain ⟨m, hm, rfl⟩ := List.mem_map.1 hl
      have : ∀ m ∈ undefs, nameOf m ≠ none := by decide +kernel
      exact this m hm
    have h3 : ∀ l ∈ lexFunctions o, Simple l := by
      intro l hl
      unfold lexFunctions at hl
      split at hl
      · rcases List.mem_append.1 hl with hl | hl
        · obtain ⟨s, -, hl⟩ := List.mem_flatMap.1 hl
          simp only [List.mem_cons, List.not_mem_nil, or_false] at hl
          rcases hl with rfl | rfl | rfl
          · show nameOf _ ≠ none
            rw [nameOf_rule]; simp
          · trivial
          · show nameOf _ ≠ none
            decide +kernel
        · cases List.mem_singleton.1 hl; trivial
      · cases List.mem_singleton.1 hl; trivial
    intro l hl
    simp only [srcRest, List.mem_append, List.mem_cons, List.not_mem_nil, or_false] at hl
    rcases hl with ((((((hl | hl) | hl) | hl) | rfl) | hl) | hl) | rfl
    · rcases hl with rfl | rfl <;> trivial
    · exact h1 l hl
    · split at hl
      · simp only [List.mem_cons, List.not_mem_nil, or_false] at hl
        rcases hl with rfl | rfl
        · show nameOf _ ≠ none
          decide +kernel
        · trivial
      · cases hl
    · exact h3 l hl
    · trivial
    · split at hl
      · cases List.mem_singleton.1 hl
        show nameOf _ ≠ none
        decide +kernel
      · cases hl
    · exact h2 l hl
    · trivial

theorem partsOf_defines : ∀ {ms : List Text}, partsOf (ms.map .define) = []
  | [] => rfl
  | _ :: ms => by simp [partsOf, partsOf_defines (ms := ms)]

theorem partsOf_undefs : ∀ {ms : List Text}, partsOf (ms.map .undef) = []
  | [] => rfl
  | _ :: ms => by simp [partsOf, partsOf_undefs (ms := ms)]

theorem partsOf_lex : ∀ {ss : List Text}, partsOf (ss.flatMap fun s => [.define (txt "CURRENT_RULE_SET " ++ s), .part (.body (.lex s)), .undef (txt "CURRENT_RULE_SET")]) =
    ss.map fun s => .part (.body (.lex s))
  | [] => rfl
  | s :: ss => by
    rw [List.flatMap_cons, partsOf_append, partsOf_lex]
    rfl

theorem partsOf_srcRest (s : Src) : partsOf (srcRest o w s) = (srcParts o w s).map .part := by
  cases s with
  | parser => rw [srcRest, srcParts, userIf_eq, inNs_eq, ← List.map_append, partsOf_parts]
  | visitor => rw [srcRest, srcParts, inNs_eq, partsOf_parts]
  | defaultVisitor => rw [srcRest, srcParts, inNs_eq, partsOf_parts]
  | lexer =>
    simp only [srcRest, srcParts, partsOf_append, partsOf_defines, partsOf_undefs, lexFunctions]
    cases o.hasStates <;> simp [partsOf, partsOf_append, partsOf_lex, Function.comp_def]

theorem srcPre_ok (S : Stored up fs o w) {s : Src} (hs : presentSrc o w s) : ∀ l ∈ srcPre o w s, PreLine fs o w 5 l := by
  have hA : o.ast = true → present o w .fwd ∧ present o w .ast ∧ present o w .visitor ∧ present o w .defaultVisitor := fun e =>
    ⟨.inl (mem_outputHeaders.2 e), .inl (mem_outputHeaders.2 e), .inl (mem_outputHeaders.2 e), .inl (mem_outputHeaders.2 e)⟩
  have hb := quotes_pre (o := o) (w := w) (r := 5) (xs := w.parserBitsHeaders) fun x hx => S.ext x (by simp [userHeaders, hx])
  have hl := quotes_pre (o := o) (w := w) (r := 5) (xs := w.lexerBitsHeaders) fun x hx => S.ext x (by simp [userHeaders, hx])
  intro l hl'
  cases s with
  | parser =>
    simp only [srcPre, List.cons_append, List.mem_cons, List.mem_append] at hl'
    rcases hl' with rfl | hl' | hl'
    · exact .gen (.inl (mem_outputHeaders.2 trivial)) (by decide) (by simp)
    · split at hl'
      · next e => cases List.mem_singleton.1 hl'; exact .gen (hA e).2.1 (by decide) (by simp)
      · cases hl'
    · exact hb l hl'
  | visitor => cases List.mem_singleton.1 hl'; exact .gen (hA hs).2.2.1 (by decide) (by simp)
  | defaultVisitor => cases List.mem_singleton.1 hl'; exact .gen (hA hs).2.2.2 (by decide) (by simp)
  | lexer =>
    simp only [srcPre, List.cons_append, List.mem_cons, List.mem_append, List.not_mem_nil, or_false] at hl'
    rcases hl' with rfl | hl' | rfl
    · exact .gen (.inr ⟨rfl, hs⟩) (by decide) (by simp)
    · exact hl l hl'
    · exact .angle

theorem body_not_mem {P : List H} {defs : List Text} {out : List Ev} (I : Inv up fs o w P defs out) {b : Body} (hb : ∀ h, main h ≠ b) (hb' : b ≠ .astNode) : body b ∉ out := by
  intro h
  obtain ⟨k, -, hk⟩ := I.from_ b h
  rcases body_parts hk with rfl | ⟨rfl, -⟩
  · exact hb k rfl
  · exact hb' rfl

/-- Parts at level 1 whose needs are there. -/
theorem Next_bodies {out : List Ev} : ∀ {bs : List Body}, (∀ b ∈ bs, ∀ n ∈ needs o w b, n ∈ out) → out.count (.part .enter) = out.count (.part .leave) + 1 → ∀ {ex : List Ev},
    (∀ e ∈ ex, e ≠ .part .enter ∧ e ≠ .part .leave) → Next o w (out ++ ex) (bs.map body)
  | [], _, _, _, _ => trivial
  | b :: bs, h, hc, ex, hx => by
    have c1 : ex.count (.part .enter) = 0 := List.count_eq_zero.2 fun h => (hx _ h).1 rfl
    have c2 : ex.count (.part .leave) = 0 := List.count_eq_zero.2 fun h => (hx _ h).2 rfl
    refine ⟨fun n hn => List.mem_append_left _ (h b (.head _) n hn), by rw [List.count_append, List.count_append, c1, c2]; simpa [level] using hc, ?_⟩
    rw [List.append_assoc]
    refine Next_bodies (fun b hb => h b (.tail _ hb)) hc fun e he => ?_
    rcases List.mem_append.1 he with he | he
    · exact hx e he
    · cases List.mem_singleton.1 he; simp

theorem srcNext (S : Stored up fs o w) {defs : List Text} {out : List Ev} (I : Inv up fs o w [] defs out) {s : Src} (hs : presentSrc o w s) (hp : ∀ l ∈ srcPre o w s, Provided fs o w l out) :
    Next o w out ((srcParts o w s).map .part) := by
  have hc := I.closed
  have hA : o.ast = true → present o w .fwd ∧ present o w .ast ∧ present o w .visitor ∧ present o w .defaultVisitor := fun e =>
    ⟨.inl (mem_outputHeaders.2 e), .inl (mem_outputHeaders.2 e), .inl (mem_outputHeaders.2 e), .inl (mem_outputHeaders.2 e)⟩
  have hgen : ∀ k : H, present o w k → .quote (k.file o) ∈ srcPre o w s → body (main k) ∈ out := fun k hk hl => (hp _ hl).1 k rfl hk
  have hpre : ∀ k k' : H, present o w k → body (main k) ∈ out → present o w k' → .quote (k'.file o) ∈ pre o w k → body (main k') ∈ out :=
    fun k k' hk hb hk' hl => (I.prov k hk hb _ hl).1 k' rfl hk'
  have hfiles : ∀ xs : List Text, (∀ x ∈ xs, fs x = none) → quotes xs ⊆ srcPre o w s → ∀ n ∈ xs.map Ev.file, n ∈ out := by
    intro xs h0 hsub n hn
    obtain ⟨x, hx, rfl⟩ := List.mem_map.1 hn
    exact (hp _ (hsub (List.mem_map.2 ⟨x, hx, rfl⟩))).2 (h0 x hx)
  have one : ∀ b : Body, srcParts o w s = nsParts [.body b] → (∀ n ∈ needs o w b, n ∈ out) → Next o w out ((srcParts o w s).map .part) := by
    intro b e hn
    rw [e]
    refine ⟨by simp [needsEv], by simp [level, hc], fun n hn' => List.mem_append_left _ (hn n hn'), by simp [level, hc], by simp [needsEv], by simp [level, hc], trivial⟩
  cases s with
  | parser =>
    have hn : ∀ n ∈ needs o w .parserBits, n ∈ out ∨ w.bits ≠ [] ∧ n = user .bits := by
      intro n hn
      simp only [needs, List.mem_append, List.mem_singleton] at hn
      rcases hn with ((rfl | hn) | hn) | hn
      · exact .inl (hgen .parser (.inl (mem_outputHeaders.2 trivial)) (by simp [srcPre]))
      · split at hn
        · next e => cases List.mem_singleton.1 hn; exact .inl (hgen .ast (hA e).2.1 (by simp [srcPre, e]))
        · cases hn
      · exact .inl (hfiles _ (fun x hx => S.ext x (by simp [userHeaders, hx])) (fun l hl => by simp [srcPre, hl]) n hn)
      · split at hn
        · cases hn
        · next e => exact .inr ⟨e, List.mem_singleton.1 hn⟩
    by_cases e : w.bits = []
    · exact one .parserBits (by simp [srcParts, userParts, e]) fun n h => (hn n h).resolve_right fun h => h.1 e
    · have : srcParts o w .parser = .user .bits :: nsParts [.body .parserBits] := by simp [srcParts, userParts, e]
      rw [this]
      refine ⟨by simp [needsEv], by simp [level, hc], by simp [needsEv], by simp [level, hc], fun n hn' => ?_, by simp [level, hc], by simp [needsEv], by simp [level, hc], trivial⟩
      rcases hn n hn' with h1 | ⟨-, h1⟩ <;> simp [h1]
  | visitor =>
    have h1 : body .visitor ∈ out := hgen .visitor (hA hs).2.2.1 (.head _)
    have h2 : body .ast ∈ out := hpre .visitor .ast (hA hs).2.2.1 h1 (hA hs).2.1 (.head _)
    exact one .visitorBits rfl (by simp [needs, h1, h2])
  | defaultVisitor =>
    have h1 : body .defaultVisitor ∈ out := hgen .defaultVisitor (hA hs).2.2.2 (.head _)
    have h2 : body .visitor ∈ out := hpre .defaultVisitor .visitor (hA hs).2.2.2 h1 (hA hs).2.2.1 (.head _)
    have h3 : body .ast ∈ out := hpre .visitor .ast (hA hs).2.2.1 h2 (hA hs).2.1 (.head _)
    exact one .defaultVisitorBits rfl (by simp [needs, h1, h3])
  | lexer =>
    have h1 : body .lexer ∈ out := hgen .lexer (.inr ⟨rfl, hs⟩) (.head _)
    have h2 := hfiles w.lexerBitsHeaders (fun x hx => S.ext x (by simp [userHeaders, hx])) (fun l hl => by simp [srcPre, hl])
    have e : (srcParts o w .lexer).map Ev.part =
        [.part .enter] ++ ((.lexerInit :: (if o.hasStates then .ruleSets :: o.states.map .lex else [])).map body ++ [body .read, user .lexerBits, .part .leave]) := by
      unfold srcParts
      cases o.hasStates <;> simp [Function.comp_def]
    rw [e]
    refine Next_append ⟨by simp [needsEv], by simp [level, hc], trivial⟩ (Next_append ?_ ?_)
    · have := Next_bodies (o := o) (w := w) (out := out ++ [.part .enter]) (bs := .lexerInit :: (if o.hasStates then .ruleSets :: o.states.map .lex else [])) (ex := []) ?_ (by simp [hc]) (by simp)
      · simpa using this
      · intro b hb n hn
        refine List.mem_append_left _ ?_
        rcases List.mem_cons.1 hb with rfl | hb
        · rcases List.mem_append.1 hn with hn | hn
          · cases List.mem_singleton.1 hn; exact h1
          · exact h2 n hn
        · split at hb
          · rcases List.mem_cons.1 hb with rfl | hb
            · cases List.mem_singleton.1 hn; exact h1
            · obtain ⟨s, -, rfl⟩ := List.mem_map.1 hb
              cases List.mem_singleton.1 hn; exact h1
          · cases hb
    · have c1 : ∀ bs : List Body, (bs.map body).count (.part .enter) = 0 := fun bs => List.count_eq_zero.2 (by simp)
      have c2 : ∀ bs : List Body, (bs.map body).count (.part .leave) = 0 := fun bs => List.count_eq_zero.2 (by simp)
      refine ⟨?_, by simp only [List.count_append, c1, c2, level]; simp [hc], by simp [needsEv], by simp only [List.count_append, c1, c2, level]; simp [hc], by simp [needsEv],
        by simp only [List.count_append, c1, c2, level]; simp [hc], trivial⟩
      intro n hn
      rcases List.mem_cons.1 hn with rfl | hn
      · simp [h1]
      · split at hn
        · next hst =>
          have hst' : o.hasStates = true := by simpa [Opts.hasStates] using hst
          obtain ⟨s, hs', rfl⟩ := List.mem_map.1 hn
          simp [hst', hs']
        · cases hn

theorem srcParts_nodup (hn : o.states.Nodup) (s : Src) : (srcParts o w s).Nodup := by
  cases s with
  | parser =>
    unfold srcParts
    by_cases h : w.bits = [] <;> simp [userParts, nsParts, h]
  | lexer =>
    have h1 : (o.states.map fun s => Part.body (.lex s)).Nodup := List.Pairwise.map _ (fun a b h e => h (by cases e; rfl)) hn
    unfold srcParts
    cases o.hasStates <;> simp [List.nodup_append, h1]
  | _ => simp [srcParts, nsParts]

theorem srcParts_closed (s : Src) : ((srcParts o w s).map Ev.part).count (.part .enter) = ((srcParts o w s).map Ev.part).count (.part .leave) := by
  have c1 : ∀ bs : List Text, (bs.map (Ev.part ∘ fun s => Part.body (.lex s))).count (.part .enter) = 0 := fun bs => List.count_eq_zero.2 (by simp)
  have c2 : ∀ bs : List Text, (bs.map (Ev.part ∘ fun s => Part.body (.lex s))).count (.part .leave) = 0 := fun bs => List.count_eq_zero.2 (by simp)
  cases s with
  | parser =>
    unfold srcParts
    by_cases h : w.bits = [] <;> simp [userParts, nsParts, h]
  | lexer =>
    unfold srcParts
    cases o.hasStates <;> simp [List.count_append, c1, c2]
  | _ => simp [srcParts, nsParts]

/-- A source file. -/
theorem source_ok (S : Stored up fs o w) (hn : o.states.Nodup) {f : Nat} (hf : 6 ≤ f) {defs : List Text} (hd : ∀ h, present o w h → h.guard up o ∉ defs) {s : Src} (hs : presentSrc o w s) :
    ∃ E defs', run fs f defs (s.lines o w) = some (E ++ (srcParts o w s).map .part, defsOf defs' (srcRest o w s)) ∧ Inv up fs o w [] defs' E ∧ (∀ l ∈ srcPre o w s, Provided fs o w l E) ∧
      Sound o w (E ++ (srcParts o w s).map .part) := by
  obtain ⟨f, rfl⟩ : ∃ f', f = f' + 1 := ⟨f - 1, by omega⟩
  have hpre := srcPre_ok S hs
  obtain ⟨E, defs', h1, h2, h3, -⟩ := pre_unit S hf hpre (Inv.nil defs hd)
  rw [List.nil_append] at h2 h3
  refine ⟨E, defs', ?_, h2, h3, ?_⟩
  · rw [src_eq, run_flat fun l hl => ?_, walk_append]
    · rw [Nat.add_sub_cancel] at h1
      rw [h1]
      simp only [Option.bind_some]
      rw [walk_simple (srcRest_simple s), partsOf_srcRest]
      rfl
    · rcases List.mem_append.1 hl with hl | hl
      · exact (hpre l hl).flat
      · exact (srcRest_simple s l hl).flat
  · have hg := h2.grown.append (srcNext S h2 hs h3)
    refine ⟨fun b => ?_, hg.ordered, hg.levels, ?_⟩
    · rw [List.count_append]
      have hu : ∀ c, Part.body b ∉ userParts .bits c := fun c => by cases c <;> simp [userParts]
      by_cases hb : .body b ∈ srcParts o w s
      · have h4 : body b ∉ E := by
          have key : (∀ h, main h ≠ b) ∧ b ≠ .astNode := by
            cases s with
            | lexer =>
              simp only [srcParts] at hb
              split at hb <;> simp at hb
              · rcases hb with rfl | rfl | ⟨s, -, rfl⟩ | rfl <;> exact ⟨fun h => by cases h <;> simp [main], by simp⟩
              · rcases hb with rfl | rfl <;> exact ⟨fun h => by cases h <;> simp [main], by simp⟩
            | parser =>
              simp [srcParts, nsParts, hu] at hb
              subst hb
              exact ⟨fun h => by cases h <;> simp [main], by simp⟩
            | _ =>
              simp [srcParts, nsParts] at hb
              subst hb
              exact ⟨fun h => by cases h <;> simp [main], by simp⟩
          exact body_not_mem h2 key.1 key.2
        rw [List.count_eq_zero.2 h4, Nat.zero_add]
        have hnd : ((srcParts o w s).map Ev.part).Nodup := List.Pairwise.map _ (fun a b h e => h (by cases e; rfl)) (srcParts_nodup hn s)
        exact List.nodup_iff_count.1 hnd _
      · have : ((srcParts o w s).map Ev.part).count (body b) = 0 := List.count_eq_zero.2 (by simpa using hb)
        have := h2.once b
        omega
    · rw [List.count_append, List.count_append, h2.closed, srcParts_closed]

end Verif.Out
