import Verif.Out.Units

/-!
# Properties of the generated files: C105 (headers and sources are complete), C106 (code of the user appears once), C107 (macros of the lexer)
-/

namespace Verif.Out

open Verif.Top (Text txt World)
open Verif.Out.Spec

variable {up : Nat → List Nat} {o : Opts} {w : World} {d : Disk}

theorem includes_pre {l : Line} (h : Includes up o w d l) : PreLine (files up o w d) o w 5 l := by
  cases h with
  | lib => exact .angle
  | own h => exact .ext h
  | gen hp hd => exact .gen hp (rank_lt _) hd

theorem unit_ok (P : Proper up o w d) {ls : List Line} (hl : ∀ l ∈ ls, Includes up o w d l) {defs : List Text} (hd : ∀ h, present o w h → h.guard up o ∉ defs) {f : Nat} (hf : 6 ≤ f) :
    ∃ out defs', run (files up o w d) f defs ls = some (out, defs') ∧ Inv up (files up o w d) o w [] defs' out ∧ ∀ l ∈ ls, Provided (files up o w d) o w l out := by
  obtain ⟨f, rfl⟩ : ∃ f', f = f' + 1 := ⟨f - 1, by omega⟩
  obtain ⟨E, defs', h1, h2, h3, -⟩ := pre_unit (stored P) hf (fun l h => (includes_pre (hl l h))) (Inv.nil defs hd)
  rw [List.nil_append] at h2 h3
  refine ⟨E, defs', ?_, h2, h3⟩
  rw [run_flat fun l h => (includes_pre (hl l h)).flat]
  exact h1

/-- How often a kind of line occurs. -/
def begun (ls : List Line) : Nat := ls.countP fun l => match l with
  | .ifndef _ => true
  | _ => false
def ended (ls : List Line) : Nat := ls.countP fun l => match l with
  | .endif => true
  | _ => false

theorem runLines_balanced {inc : Text → List Text → Option (List Ev × List Text)} : ∀ {ls : List Line} {st : St} {r : List Ev × St}, runLines inc st ls = some r →
    st.live + st.skip + begun ls = r.2.live + r.2.skip + ended ls
  | [], st, r, h => by cases h; rfl
  | l :: ls, st, r, h => by
    change (if st.skip ≠ 0 then _ else _) = _ at h
    split at h
    · next hs =>
      have ih := runLines_balanced h
      cases l <;> simp only [skipped, begun, ended, List.countP_cons] at ih ⊢ <;> simp only [Bool.false_eq_true, if_false, if_true] <;> omega
    · next hs =>
      have hs : st.skip = 0 := by omega
      cases l with
      | ifndef s =>
        obtain ⟨m, -, h⟩ := Option.bind_eq_some_iff.1 h
        split at h
        all_goals
          have ih := runLines_balanced h
          simp only [begun, ended, List.countP_cons, Bool.false_eq_true, if_false, if_true] at ih ⊢
          omega
      | endif =>
        simp only at h
        split at h
        · cases h
        · have ih := runLines_balanced h
          simp only [begun, ended, List.countP_cons, Bool.false_eq_true, if_false, if_true] at ih ⊢
          omega
      | define s =>
        obtain ⟨m, -, h'⟩ := Option.bind_eq_some_iff.1 h
        have ih := runLines_balanced (ls := ls) h'
        exact ih
      | undef s =>
        obtain ⟨m, -, h'⟩ := Option.bind_eq_some_iff.1 h
        have ih := runLines_balanced (ls := ls) h'
        exact ih
      | quote f =>
        obtain ⟨m, -, h'⟩ := Option.bind_eq_some_iff.1 h
        obtain ⟨q, h2, rfl⟩ := Option.map_eq_some_iff.1 h'
        have ih := runLines_balanced (ls := ls) h2
        exact ih
      | angle f =>
        obtain ⟨q, h2, rfl⟩ := Option.map_eq_some_iff.1 h
        have ih := runLines_balanced (ls := ls) h2
        exact ih
      | part p =>
        obtain ⟨q, h2, rfl⟩ := Option.map_eq_some_iff.1 h
        have ih := runLines_balanced (ls := ls) h2
        exact ih

/-- C105: a file that can be preprocessed closes all conditionals that it opens, also if they are passed over. -/
theorem C105_balanced {fs : Disk} {f : Nat} {defs : List Text} {ls : List Line} {r : List Ev × List Text} (h : run fs f defs ls = some r) : begun ls = ended ls := by
  cases f with
  | zero => cases h
  | succ f =>
    rw [run] at h
    obtain ⟨q, h1, h2⟩ := Option.bind_eq_some_iff.1 h
    have := runLines_balanced h1
    split at h2
    · next e => simp only at this; omega
    · cases h2

example : run (fun _ => none) 1 [txt "A"] [.ifndef (txt "A"), .endif] = some ([], [txt "A"]) ∧ run (fun _ => none) 1 [txt "A"] [.ifndef (txt "A")] = none := by decide +kernel

/-- C105: whatever generated headers a translation unit includes, in whatever order and however often: preprocessing succeeds, each declaration appears once, after all that it needs, inside of the namespace,
which is closed.  Missing: `debugvisitor.h` with the generated lexer, names of the language that are not fit for macros, operators without nodes (see the theorems `C105_fails_...`). -/
theorem C105_headers_partial (P : Proper up o w d) {ls : List Line} (hl : ∀ l ∈ ls, Includes up o w d l) {defs : List Text} (hd : ∀ h, present o w h → h.guard up o ∉ defs) {f : Nat} (hf : 6 ≤ f) :
    ∃ out defs', run (files up o w d) f defs ls = some (out, defs') ∧ Sound o w out ∧ ∀ h, present o w h → .quote (h.file o) ∈ ls → body (main h) ∈ out := by
  obtain ⟨out, defs', h1, h2, h3⟩ := unit_ok P hl hd hf
  exact ⟨out, defs', h1, h2.sound, fun h hp hm => (h3 _ hm).1 h rfl hp⟩

/-- C105: the generated source files are written, and can be preprocessed on their own in the same way. -/
theorem C105_sources_partial (P : Proper up o w d) {defs : List Text} (hd : ∀ h, present o w h → h.guard up o ∉ defs) {f : Nat} (hf : 6 ≤ f) {s : Src} (hs : presentSrc o w s) :
    files up o w d (s.file o) = some (s.lines o w) ∧ ∃ out defs', run (files up o w d) f defs (s.lines o w) = some (out, defs') ∧ Sound o w out ∧ ∀ b ∈ definitions o s, body b ∈ out := by
  constructor
  · rw [files_eq]
    refine writes_some names_nodup ?_
    cases s with
    | lexer => exact List.mem_append_right _ (by simp only [presentSrc] at hs; rw [if_pos hs]; exact .tail _ (.head _))
    | parser => exact List.mem_append_left _ (List.mem_append_right _ (List.mem_map.2 ⟨.parser, .head _, rfl⟩))
    | visitor => exact List.mem_append_left _ (List.mem_append_right _ (List.mem_map.2 ⟨.visitor, by simp only [presentSrc] at hs; simp [outputSources, hs], rfl⟩))
    | defaultVisitor => exact List.mem_append_left _ (List.mem_append_right _ (List.mem_map.2 ⟨.defaultVisitor, by simp only [presentSrc] at hs; simp [outputSources, hs], rfl⟩))
  · obtain ⟨E, defs', h1, -, -, h4⟩ := source_ok (stored P) P.states hf hd hs
    refine ⟨_, _, h1, h4, fun b hb => List.mem_append_right _ (List.mem_map.2 ⟨.body b, ?_, rfl⟩)⟩
    cases s with
    | lexer =>
      simp only [definitions, List.mem_cons] at hb
      simp only [srcParts, Opts.hasStates]
      rcases hb with rfl | rfl | hb
      · simp
      · simp
      · split at hb
        · next e =>
          simp_all
          rcases hb with hb | hb <;> simp [hb]
        · cases hb
    | _ => simp [definitions] at hb; subst hb; simp [srcParts, nsParts]

/-- C105 fails if the language begins with a digit: no generated header can be read, for all settings. -/
theorem C105_fails_digit {c : Nat} (hc : (upper up o.language).head? = some c) (hd : digit c = true) (h : H) (fs : Disk) (f : Nat) (defs : List Text) : run fs f defs (h.lines up o w) = none := by
  cases f with
  | zero => rfl
  | succ f =>
    have hn : nameOf (h.guard up o) = none := by
      obtain ⟨x, hx⟩ : ∃ x, upper up o.language = c :: x := by
        cases e : upper up o.language with
        | nil => rw [e] at hc; cases hc
        | cons y x => rw [e] at hc; cases hc; exact ⟨x, rfl⟩
      have h1 : clean c = c := by
        unfold clean; simp only [digit, Bool.and_eq_true, decide_eq_true_eq] at hd
        rw [if_neg (by omega)]
      have h2 : letter c = false := by
        simp only [digit, Bool.and_eq_true, decide_eq_true_eq] at hd
        simp [letter]; omega
      cases h <;> simp [H.guard, hx, nameOf, h1, h2]
    show (runLines (incl fs f) { defs := defs } (.ifndef _ :: _)).bind _ = _
    rw [runLines, if_neg (by simp)]
    simp [hn]

/-- The table of upper case letters, for ASCII. -/
def ascii (c : Nat) : List Nat := if 97 ≤ c ∧ c ≤ 122 then [c - 32] else [c]

theorem inner_flat (h : H) : ∀ l ∈ inner o w h, Flat l := by
  have hq : ∀ xs : List Text, ∀ l ∈ quotes xs, Flat l := by
    intro xs l hl
    obtain ⟨x, -, rfl⟩ := List.mem_map.1 hl
    trivial
  have hx : ∀ l ∈ exportInclude w, Flat l := by
    intro l hl
    unfold exportInclude at hl
    split at hl
    · cases hl
    · cases List.mem_singleton.1 hl; trivial
  have hp : ∀ l ∈ (parts o w h).map Line.part, Flat l := by
    intro l hl
    obtain ⟨x, -, rfl⟩ := List.mem_map.1 hl
    trivial
  intro l hl
  rw [inner_eq] at hl
  rcases List.mem_append.1 hl with hl | hl
  · cases h <;> simp only [pre, List.cons_append, List.nil_append, List.mem_cons, List.mem_append, List.not_mem_nil, or_false] at hl
    · rcases hl with rfl | (hl | hl) | rfl | rfl <;> first | trivial | exact hx l hl | exact hq _ l hl
    · exact hx l hl
    · rcases hl with hl | hl
      · exact hx l hl
      · exact hq _ l hl
    · rcases hl with rfl | ((((hl | hl) | hl) | hl) | hl) | hl
      · trivial
      · split at hl
        · cases List.mem_singleton.1 hl; trivial
        · cases hl
      · split at hl
        · simp only [List.mem_cons, List.not_mem_nil, or_false] at hl
          rcases hl with rfl | rfl | rfl <;> trivial
        · cases hl
      · split at hl
        · cases List.mem_singleton.1 hl; trivial
        · cases hl
      · exact hq _ l hl
      · exact hx l hl
      · split at hl
        · cases List.mem_singleton.1 hl; trivial
        · cases hl
    · rcases hl with rfl | hl
      · trivial
      · exact hx l hl
    · rcases hl with rfl | hl
      · trivial
      · exact hx l hl
    · rcases hl with rfl | hl | rfl | rfl <;> first | trivial | exact hx l hl
    · rcases hl with rfl | hl | rfl | rfl | rfl <;> first | trivial | exact hx l hl
    · rcases hl with hl | rfl
      · exact hx l hl
      · trivial
    · rcases hl with rfl | rfl | rfl | hl
      · trivial
      · trivial
      · trivial
      · exact hq _ l hl
  · exact hp l hl

/-- C105 fails for languages with other characters: the macro that guards `lexer.h` is named by the characters up to there only.  Where another language with the same beginning has defined it, nothing of
the header is seen. -/
theorem C105_fails_lexer_guard {p x : Text} {c : Nat} (hu : upper up o.language = p ++ c :: x) (hp : nameOf p = some p) (hc : (letter c || digit c) = false) {defs : List Text} (hd : p ∈ defs)
    (fs : Disk) (f : Nat) : run fs (f + 1) defs (H.lexer.lines up o w) = some ([], defs) := by
  have hn : nameOf (H.lexer.guard up o) = some p := by
    cases p with
    | nil => cases hp
    | cons y p =>
      have : H.lexer.guard up o = y :: (p ++ c :: (x ++ H.lexer.guardSuffix)) := by simp [H.guard, hu]
      rw [this]
      rw [nameOf] at hp ⊢
      by_cases e : letter y = true
      · rw [if_pos e] at hp
        simp only [Option.some.injEq, List.cons.injEq, true_and] at hp
        rw [if_pos e, List.takeWhile_append_of_pos (p := fun c => letter c || digit c) fun z hz => List.all_eq_true.1 (List.all_takeWhile (l := p)) z (by rw [hp]; exact hz), List.takeWhile_cons, if_neg (by simp [hc])]
        simp
      · rw [if_neg e] at hp; cases hp
  show (runLines (incl fs f) { defs := defs } (.ifndef _ :: .define _ :: inner o w .lexer ++ [.endif])).bind _ = _
  rw [List.cons_append, runLines, if_neg (by simp)]
  simp only [hn, Option.bind_some, if_pos hd]
  rw [List.cons_append, runLines, if_pos (by simp)]
  simp only [skipped]
  rw [runLines_skip (inner_flat .lexer) (by simp)]
  simp [runLines, skipped]

/-- C105 fails for two languages of which one is called like the other with `_visitor` behind: `visitor.h` of one and `parser.h` of the other have the same guard, so that the one read second is empty. -/
theorem C105_fails_two_languages {o' : Opts} (hl : o'.language = o.language ++ txt "_visitor") (hu : ∀ c ∈ txt "_visitor", up c = ascii c) {w' : World} (hN : Named up o w) {fs : Disk} {f : Nat} {defs : List Text}
    (hd : H.visitor.guard up o ∈ defs) : run fs (f + 1) defs (H.parser.lines up o' w') = some ([], defs) := by
  have e1 : (txt "_visitor").flatMap up = (txt "_visitor").flatMap ascii := by
    rw [List.flatMap_def, List.flatMap_def, List.map_congr_left hu]
  have e : H.parser.guard up o' = H.visitor.guard up o := by
    simp only [H.guard, upper, hl, List.flatMap_append, List.map_append, e1, List.append_assoc]
    congr 1
  rw [H.lines, run_guarded (inner_flat .parser), e, if_pos hd]
  rw [e]
  exact guard_name hN (by simp)

/-- C105 does not include what `tokentext.h` needs of Qt: if the user names no headers, no header at all is included before the function, which returns a `QString`. -/
theorem C105_fails_tokentext (P : Proper up o w d) (ht : o.tokenText = true ∨ o.debug = true) (h1 : w.exportMacroHeader = []) (h2 : w.astHeaders = []) {defs : List Text}
    (hd : ∀ h, present o w h → h.guard up o ∉ defs) {f : Nat} (hf : 2 ≤ f) :
    ∃ out defs', run (files up o w d) f defs (H.tokenText.lines up o w) = some (out, defs') ∧ body .tokenText ∈ out ∧ ∀ e ∈ out, ∃ p, e = .part p := by
  have S := stored P
  obtain ⟨f, rfl⟩ : ∃ f', f = f' + 1 + 1 := ⟨f - 2, by omega⟩
  have p1 : present o w .tokenText := .inl (mem_outputHeaders.2 ht)
  have p2 : present o w .tokenType := .inl (mem_outputHeaders.2 trivial)
  have g : H.tokenType.guard up o ∉ H.tokenText.guard up o :: defs := by
    rw [List.mem_cons, not_or]
    exact ⟨fun e => (by simp : H.tokenType ≠ .tokenText) (guard_inj P.named (by simp) (by simp) e), hd _ p2⟩
  have e1 : inner o w .tokenText = .quote (H.tokenType.file o) :: (nsParts [.body .tokenText]).map .part := by
    rw [inner_eq]; simp [pre, parts, exportInclude, h1]
  have e2 : inner o w .tokenType = (parts o w .tokenType).map .part := by
    rw [inner_eq]; simp [pre, exportInclude, h1, h2, quotes]
  refine ⟨(parts o w .tokenType).map .part ++ (nsParts [.body .tokenText]).map .part, H.tokenType.guard up o :: H.tokenText.guard up o :: defs, ?_, by simp [nsParts], ?_⟩
  · rw [H.lines, run_guarded (inner_flat _) (guard_name P.named (by simp)), if_neg (hd _ p1), e1, walk, incl, S.stored _ p2]
    simp only
    rw [H.lines, run_guarded (inner_flat _) (guard_name P.named (by simp)), if_neg g, e2, walk_parts]
    simp only [Option.bind_some]
    rw [walk_parts]
    rfl
  · intro e he
    rw [← List.map_append] at he
    obtain ⟨p, -, rfl⟩ := List.mem_map.1 he
    exact ⟨p, rfl⟩

/-! ## Code of the user -/

theorem count_user_parts (u : User) (s : Src) : ((srcParts o w s).map Ev.part).count (user u) = if (s = .parser ∧ u = .bits ∧ w.bits ≠ []) ∨ (s = .lexer ∧ u = .lexerBits) then 1 else 0 := by
  have c1 : ∀ bs : List Text, (bs.map (Ev.part ∘ fun s => Part.body (.lex s))).count (user u) = 0 := fun bs => List.count_eq_zero.2 (by simp)
  cases s with
  | lexer =>
    unfold srcParts
    cases o.hasStates <;> cases u <;> simp [List.count_append, c1]
  | parser =>
    unfold srcParts
    by_cases h : w.bits = [] <;> cases u <;> simp [userParts, nsParts, h]
  | _ => simp [srcParts, nsParts]

/-- C106: in a translation unit that includes generated headers, the code for the namespace and for nodes appears at most once, and exactly once where nodes are declared; the code at the end of the grammar
and that for the lexer does not appear.  Missing: the code at the beginning of the grammar (see `C106_fails_decl`). -/
theorem C106_headers_partial (P : Proper up o w d) {ls : List Line} (hl : ∀ l ∈ ls, Includes up o w d l) {defs : List Text} (hd : ∀ h, present o w h → h.guard up o ∉ defs) {f : Nat} (hf : 6 ≤ f) :
    ∃ out defs', run (files up o w d) f defs ls = some (out, defs') ∧ (∀ u, u = .namespaceCode ∨ u = .astCode → out.count (user u) = if body .ast ∈ out then 1 else 0) ∧
      user .bits ∉ out ∧ user .lexerBits ∉ out := by
  obtain ⟨out, defs', h1, h2, -⟩ := unit_ok P hl hd hf
  exact ⟨out, defs', h1, fun u hu => by rcases hu with rfl | rfl; exacts [h2.cNs, h2.cAst], h2.cBits, h2.cLex⟩

/-- C106: the code at the end of the grammar appears exactly once, in `parser.cpp`, and the code for the lexer in `lexer.cpp`; no source file sees the code for the namespace or the nodes twice. -/
theorem C106_sources_partial (P : Proper up o w d) {defs : List Text} (hd : ∀ h, present o w h → h.guard up o ∉ defs) {f : Nat} (hf : 6 ≤ f) {s : Src} (hs : presentSrc o w s) :
    ∃ out defs', run (files up o w d) f defs (s.lines o w) = some (out, defs') ∧ out.count (user .bits) = (if s = .parser ∧ w.bits ≠ [] then 1 else 0) ∧
      out.count (user .lexerBits) = (if s = .lexer then 1 else 0) ∧ (∀ u, u = .namespaceCode ∨ u = .astCode → out.count (user u) = if body .ast ∈ out then 1 else 0) := by
  obtain ⟨E, defs', h1, h2, -, -⟩ := source_ok (stored P) P.states hf hd hs
  refine ⟨_, _, h1, ?_, ?_, fun u hu => ?_⟩
  · rw [List.count_append, count_user_parts, List.count_eq_zero.2 h2.cBits]; simp
  · rw [List.count_append, count_user_parts, List.count_eq_zero.2 h2.cLex]; simp
  · have hb : body .ast ∈ E ++ (srcParts o w s).map Ev.part ↔ body .ast ∈ E := by
      have : Part.body .ast ∉ srcParts o w s := by
        have hu : ∀ c, Part.body .ast ∉ userParts .bits c := fun c => by cases c <;> simp [userParts]
        cases s <;> simp [srcParts, nsParts, hu]
      simp [this]
    rw [List.count_append, count_user_parts]
    simp only [hb]
    rcases hu with rfl | rfl
    · rw [h2.cNs]; simp
    · rw [h2.cAst]; simp

/-- C106 fails for the code at the beginning of the grammar: if there is any, `parser.cpp` sees it twice, for all settings. -/
theorem C106_fails_decl (P : Proper up o w d) (hw : w.decl ≠ []) {defs : List Text} (hd : ∀ h, present o w h → h.guard up o ∉ defs) {f : Nat} (hf : 6 ≤ f) :
    ∃ out defs', run (files up o w d) f defs (Src.parser.lines o w) = some (out, defs') ∧ out.count (user .decl) = 2 := by
  obtain ⟨E, defs', h1, h2, h3, -⟩ := source_ok (stored P) P.states hf hd (s := .parser) trivial
  have pp : present o w .parser := .inl (mem_outputHeaders.2 trivial)
  have a1 : body .parser ∈ E := (h3 _ (.head _)).1 .parser rfl pp
  have a2 : body .tokenType ∈ E := (h2.prov .parser pp a1 _ (.head _)).1 .tokenType rfl (.inl (mem_outputHeaders.2 trivial))
  refine ⟨_, _, h1, ?_⟩
  rw [List.count_append, count_user_parts, h2.cDecl, if_neg hw, if_pos a2]
  have a3 : body (if o.ast then .ast else .parser) ∈ E := by
    split
    · next e => exact (h3 (.quote (H.ast.file o)) (by simp [srcPre, e])).1 .ast rfl (.inl (mem_outputHeaders.2 e))
    · exact a1
  rw [if_pos a3]
  simp

/-! ## Macros -/

theorem defsOf_append : ∀ {a b : List Line} {defs : List Text}, defsOf defs (a ++ b) = defsOf (defsOf defs a) b
  | [], _, _ => rfl
  | l :: a, b, defs => by cases l <;> simp [defsOf, defsOf_append (a := a)]

theorem mem_defines {m : Text} : ∀ {ms : List Text} {defs : List Text}, (∀ x ∈ ms, nameOf x ≠ none) → (m ∈ defsOf defs (ms.map .define) ↔ m ∈ defs ∨ some m ∈ ms.map nameOf)
  | [], _, _ => by simp [defsOf]
  | x :: ms, defs, h => by
    rw [List.map_cons, defsOf, mem_defines fun y hy => h y (.tail _ hy)]
    cases e : nameOf x with
    | none => exact absurd e (h x (.head _))
    | some y =>
      simp only [Option.getD_some, List.mem_cons, List.map_cons, e, Option.some.injEq]
      tauto

theorem mem_undefs {m : Text} : ∀ {ms : List Text} {defs : List Text}, (∀ x ∈ ms, nameOf x ≠ none) → (m ∈ defsOf defs (ms.map .undef) ↔ m ∈ defs ∧ some m ∉ ms.map nameOf)
  | [], _, _ => by simp [defsOf]
  | x :: ms, defs, h => by
    rw [List.map_cons, defsOf, mem_undefs fun y hy => h y (.tail _ hy)]
    cases e : nameOf x with
    | none => exact absurd e (h x (.head _))
    | some y =>
      simp only [Option.getD_some, List.mem_cons, List.map_cons, e, Option.some.injEq, List.mem_filter, decide_eq_true_eq, ne_eq, not_or]
      tauto

theorem mem_rules {m : Text} (hm : m ≠ txt "CURRENT_RULE_SET") : ∀ {ss : List Text} {defs : List Text},
    m ∈ defsOf defs (ss.flatMap fun s => [.define (txt "CURRENT_RULE_SET " ++ s), .part (.body (.lex s)), .undef (txt "CURRENT_RULE_SET")]) ↔ m ∈ defs
  | [], _ => Iff.rfl
  | s :: ss, defs => by
    have e : nameOf (txt "CURRENT_RULE_SET") = some (txt "CURRENT_RULE_SET") := by decide +kernel
    rw [List.flatMap_cons, defsOf_append, mem_rules hm]
    simp only [defsOf, nameOf_rule, e, Option.getD_some, List.mem_filter, List.mem_cons, decide_eq_true_eq, ne_eq]
    tauto

/-- The macros that are for the code of rules. -/
def ruleMacros : List Text := ["lxCURR_POS", "lxCURR_IDX", "lxCONTINUE", "lxLENGTH", "lxBEGIN_POS", "lxBEGIN_IDX", "lxNAMED_TOKEN", "lxTOKEN", "lxDONE", "lxRETURN", "lxEOF", "lxFINISH", "yytoken", "lxFAIL", "lxSKIP",
  "lxNEXT_CHR"].map txt

/-- C107: which macros `lexer.cpp` leaves defined at its end: a macro for the code of rules, exactly if it is one of seven. -/
theorem C107_left (P : Proper up o w d) (hL : w.hasLexer = true) {defs : List Text} (hd : ∀ h, present o w h → h.guard up o ∉ defs) {f : Nat} (hf : 6 ≤ f) :
    ∃ out defs', run (files up o w d) f defs (Src.lexer.lines o w) = some (out, defs') ∧
      ∀ m ∈ ruleMacros, m ∈ defs' ↔ m ∈ ["lxNAMED_TOKEN", "lxDONE", "lxEOF", "lxFINISH", "yytoken", "lxFAIL", "lxSKIP"].map txt := by
  obtain ⟨E, defs', h1, -, -, -⟩ := source_ok (stored P) P.states hf hd (s := .lexer) hL
  refine ⟨_, _, h1, fun m hm => ?_⟩
  have h2 : ∀ x ∈ macros, nameOf x ≠ none := by decide +kernel
  have h3 : ∀ x ∈ undefs, nameOf x ≠ none := by decide +kernel
  have h4 : ∀ m ∈ ruleMacros, some m ∈ macros.map nameOf ∧ m ≠ txt "CURRENT_RULE_SET" ∧ m ≠ txt "lxSET_RULE_SET" ∧
      (some m ∉ undefs.map nameOf ↔ m ∈ ["lxNAMED_TOKEN", "lxDONE", "lxEOF", "lxFINISH", "yytoken", "lxFAIL", "lxSKIP"].map txt) := by decide +kernel
  obtain ⟨k1, k2, k3, k4⟩ := h4 m hm
  have e1 : nameOf (txt "lxSET_RULE_SET(r) {PP_CONCAT(leavingRuleSet, CURRENT_RULE_SET) (); m_ruleSet = State_##r; enteringRuleSet##r ();}") = some (txt "lxSET_RULE_SET") := by decide +kernel
  have e2 : nameOf (txt "lxSET_RULE_SET") = some (txt "lxSET_RULE_SET") := by decide +kernel
  rw [← k4]
  simp only [srcRest, defsOf_append, lexFunctions]
  have e3 : ∀ d : List Text, defsOf d [.part .leave] = d := fun _ => rfl
  rw [e3, mem_undefs h3]
  have : ∀ x, (x ∧ some m ∉ undefs.map nameOf ↔ some m ∉ undefs.map nameOf) ↔ (some m ∉ undefs.map nameOf → x) := fun x => ⟨fun h q => (h.2 q).1, fun h => ⟨And.right, fun q => ⟨h q, q⟩⟩⟩
  rw [this]
  intro _
  cases o.hasStates
  · simp only [Bool.false_eq_true, if_false, defsOf]
    rw [mem_defines h2]
    exact .inr k1
  · simp only [if_true, defsOf, defsOf_append, e1, e2, Option.getD_some, List.mem_filter, decide_eq_true_eq]
    refine ⟨?_, k3⟩
    rw [mem_rules k2, List.mem_cons, mem_defines h2]
    exact .inr (.inr k1)

/-! ## A concrete case, and what fails -/

/-- A language with all kinds of files, and two rule sets. -/
def exO : Opts := { language := txt "calc", ns := txt "Calc", serialize := true, debug := true, tokenText := true, opStack := true, states := [txt "start", txt "string"] }

/-- Settings with headers of all kinds and code at all places. -/
def exW : World where
  decl := txt "class Session;"
  bits := txt "int i;"
  lexerBits := txt "int j;"
  hasLexer := true
  tokenStream := txt "Lexer"
  exportMacro := txt "EXPORT"
  exportMacroHeader := txt "export.h"
  namespaceCode := txt "class X;"
  astCode := txt "class Y;"
  parserDeclarationHeaders := [txt "session.h", txt "problem.h"]
  parserBitsHeaders := [txt "debug.h"]
  astHeaders := [txt "duchain.h"]
  lexerDeclarationHeaders := [txt "input.h"]
  lexerBitsHeaders := [txt "bits.h"]

def empty : Disk := fun _ => none

theorem exProper : Proper ascii exO exW empty where
  named := ⟨fun c h => by
      have : (upper ascii exO.language).head? = some 67 := by decide +kernel
      rw [this] at h
      cases h
      rfl, fun _ => by decide +kernel⟩
  ext := by decide +kernel
  ast := fun _ => rfl
  ops := fun _ => rfl
  states := by decide +kernel

theorem exGuards : ∀ h, present exO exW h → h.guard ascii exO ∉ [] := fun _ _ h => by cases h

/-- All headers but that of the debug visitor, two of them twice. -/
def exUnit : List Line := [.angle (txt "QString"), .quote (H.serialize.file exO), .quote (H.parser.file exO), .quote (H.ast.file exO), .quote (H.serialize.file exO), .quote (txt "own.h"), .quote (H.tokenText.file exO),
  .quote (H.lexer.file exO), .quote (H.parser.file exO)]

theorem exIncludes : ∀ l ∈ exUnit, Includes ascii exO exW empty l := fun l hl => by
  have p : ∀ h : H, h ≠ .debug → present exO exW h := by intro h; cases h <;> simp [present, outputHeaders, exO, exW]
  simp only [exUnit, List.mem_cons, List.not_mem_nil, or_false] at hl
  rcases hl with rfl | rfl | rfl | rfl | rfl | rfl | rfl | rfl | rfl
  · exact .lib
  all_goals first | exact .gen (p _ (by simp)) (by simp) | exact .own (by decide +kernel)

example : ∃ out defs', run (files ascii exO exW empty) 6 [] exUnit = some (out, defs') ∧ Sound exO exW out ∧ ∀ h, present exO exW h → .quote (h.file exO) ∈ exUnit → body (main h) ∈ out :=
  C105_headers_partial exProper exIncludes exGuards (Nat.le_refl 6)

example : ∃ out defs', run (files ascii exO exW empty) 6 [] exUnit = some (out, defs') ∧ (∀ u, u = .namespaceCode ∨ u = .astCode → out.count (user u) = if body .ast ∈ out then 1 else 0) ∧
    user .bits ∉ out ∧ user .lexerBits ∉ out := C106_headers_partial exProper exIncludes exGuards (Nat.le_refl 6)

example : ∃ out defs', run (files ascii exO exW empty) 6 [] (Src.lexer.lines exO exW) = some (out, defs') ∧ Sound exO exW out ∧ ∀ b ∈ definitions exO .lexer, body b ∈ out :=
  (C105_sources_partial exProper exGuards (Nat.le_refl 6) (s := .lexer) rfl).2

example : ∃ out defs', run (files ascii exO exW empty) 6 [] (Src.parser.lines exO exW) = some (out, defs') ∧ out.count (user .decl) = 2 := C106_fails_decl exProper (by decide +kernel) exGuards (Nat.le_refl 6)

example : ∃ out defs', run (files ascii exO exW empty) 6 [] (Src.lexer.lines exO exW) = some (out, defs') ∧
    ∀ m ∈ ruleMacros, m ∈ defs' ↔ m ∈ ["lxNAMED_TOKEN", "lxDONE", "lxEOF", "lxFINISH", "yytoken", "lxFAIL", "lxSKIP"].map txt := C107_left exProper rfl exGuards (Nat.le_refl 6)

example (h : H) (fs : Disk) (f : Nat) (defs : List Text) : run fs f defs (h.lines ascii { exO with language := txt "3d" } exW) = none :=
  C105_fails_digit (c := 51) (by decide +kernel) (by decide) h fs f defs

example : ∃ out defs', run (files ascii exO exW empty) 6 [] (Src.visitor.lines exO exW) = some (out, defs') ∧ out.count (user .bits) = (if Src.visitor = .parser ∧ exW.bits ≠ [] then 1 else 0) ∧
    out.count (user .lexerBits) = (if Src.visitor = .lexer then 1 else 0) ∧ (∀ u, u = .namespaceCode ∨ u = .astCode → out.count (user u) = if body .ast ∈ out then 1 else 0) :=
  C106_sources_partial exProper exGuards (Nat.le_refl 6) (s := .visitor) rfl

/-- Only the token texts, without settings. -/
def texts : Opts := { language := txt "calc", tokenText := true }

theorem textsProper : Proper ascii texts {} empty where
  named := ⟨fun c h => by
      have : (upper ascii texts.language).head? = some 67 := by decide +kernel
      rw [this] at h
      cases h
      rfl, nofun⟩
  ext := by decide +kernel
  ast := by simp [texts]
  ops := by simp [texts]
  states := .nil

example : ∃ out defs', run (files ascii texts {} empty) 2 [] (H.tokenText.lines ascii texts {}) = some (out, defs') ∧ body .tokenText ∈ out ∧ ∀ e ∈ out, ∃ p, e = .part p :=
  C105_fails_tokentext textsProper (.inl rfl) rfl rfl (fun _ _ h => by cases h) (Nat.le_refl 2)

/-- `a-b` and `a-c`: the macro is `A`. -/
example (fs : Disk) (f : Nat) : run fs (f + 1) [txt "A"] (H.lexer.lines ascii { exO with language := txt "a-c" } exW) = some ([], [txt "A"]) :=
  C105_fails_lexer_guard (p := txt "A") (c := 45) (x := txt "C") (by decide +kernel) (by decide +kernel) (by decide) (.head _) fs f

example (fs : Disk) (f : Nat) : run fs (f + 1) [H.visitor.guard ascii exO] (H.parser.lines ascii { exO with language := txt "calc_visitor" } exW) = some ([], [H.visitor.guard ascii exO]) :=
  C105_fails_two_languages (o := exO) (w := exW) (by decide +kernel) (fun _ _ => rfl) exProper.named (.head _)

theorem decided {α : Type} {x : Option α} {p : α → Prop} [DecidablePred p] (h : x.map (fun a => decide (p a)) = some true) : ∃ a, x = some a ∧ p a := by
  cases x with
  | none => cases h
  | some a => exact ⟨a, rfl, by simpa using h⟩

/-- C105 fails for `debugvisitor.h` with the generated lexer: the class of the lexer is not declared. -/
theorem C105_fails_debug : Proper ascii exO exW empty ∧ present exO exW .debug ∧ ∃ r, run (files ascii exO exW empty) 6 [] [.quote (H.debug.file exO)] = some r ∧ ¬Sound exO exW r.1 := by
  refine ⟨exProper, by simp [present, outputHeaders, exO], ?_⟩
  obtain ⟨r, h1, h2, h3⟩ := decided (x := run (files ascii exO exW empty) 6 [] [.quote (H.debug.file exO)]) (p := fun r => body .debug ∈ r.1 ∧ body .lexer ∉ r.1) (by decide +kernel)
  refine ⟨r, h1, fun hS => ?_⟩
  obtain ⟨a, b, e⟩ := List.append_of_mem h2
  have := hS.ordered a _ b e (body .lexer) (by simp [needsEv, needs, stream, exW])
  exact h3 (e ▸ List.mem_append_left _ this)

def noAst : Opts := { language := txt "calc", ast := false, opStack := true }

/-- C105 fails for operators without nodes: the stack of operators in the parser needs `AstNode`, which is declared nowhere. -/
theorem C105_fails_operators : ∃ r, run (files ascii noAst {} empty) 6 [] [.quote (H.parser.file noAst)] = some r ∧ ¬Sound noAst {} r.1 := by
  obtain ⟨r, h1, h2, h3⟩ := decided (x := run (files ascii noAst {} empty) 6 [] [.quote (H.parser.file noAst)]) (p := fun r => body .parser ∈ r.1 ∧ body .astFwd ∉ r.1) (by decide +kernel)
  refine ⟨r, h1, fun hS => ?_⟩
  obtain ⟨a, b, e⟩ := List.append_of_mem h2
  have := hS.ordered a _ b e (body .astFwd) (by simp [needsEv, needs, noAst])
  exact h3 (e ▸ List.mem_append_left _ this)

end Verif.Out
