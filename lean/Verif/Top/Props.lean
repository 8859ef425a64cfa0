import Verif.Top.Settings
import Verif.Top.Pairs
import Verif.Top.File
import Verif.GLex.TokenProps
import Verif.Front.FileProps

/-!
# C101, C102, C103, C104: whole grammar files
-/

namespace Verif.Top

open Verif.LexSyn (Chars)

/-! ## C101: one reading -/

theorem scan_mono {E : GLex.Env} : ∀ {f g : Nat} {st : GLex.St} {s : List Nat} {r : List T × GLex.Step}, f ≤ g → GLex.scan E f st s = some r → GLex.scan E g st s = some r
  | 0, _, _, _, _, _, h => by cases h
  | f + 1, 0, _, _, _, hg, _ => by omega
  | f + 1, g + 1, st, s, r, hg, h => by
    rw [GLex.scan] at h ⊢
    cases e : GLex.lex E (s.length + 1) st s with
    | none => rw [e] at h; cases h
    | some q =>
      rw [e] at h
      cases q with
      | ret t x st' s' =>
        obtain ⟨p, hp, e2⟩ := Option.map_eq_some_iff.1 h
        simp only
        rw [scan_mono (by omega) hp, ← e2]
        rfl
      | _ => exact h

/-- C101: a list of tokens has at most one reading as a grammar file: the parts, the declarations, the rules and the items in them are determined. -/
theorem C101_tokens {ts : List T} {F G : File} (h : System ts F) (h' : System ts G) : F = G := h.unique h'

/-- C101: so have the bytes of a file. -/
theorem C101_bytes {E : GLex.Env} {s : List Nat} {F G : File} (h : Reads E s F) (h' : Reads E s G) : F = G := by
  obtain ⟨f, toks, st, h1, h2⟩ := h
  obtain ⟨f', toks', st', h1', h2'⟩ := h'
  have e1 := scan_mono (Nat.le_max_left f f') h1
  have e2 := scan_mono (Nat.le_max_right f f') h1'
  rw [e1] at e2
  cases e2
  exact h2.unique h2'

/-- C101: whether bytes are a grammar file is decided with as much fuel as there are bytes. -/
theorem C101_fuel {E : GLex.Env} {s : List Nat} {F : File} : Reads E s F ↔ ∃ toks st, GLex.scan E (s.length + 1) {} s = some (toks, .eof st) ∧ System toks F := by
  constructor
  · rintro ⟨f, toks, st, h1, h2⟩
    obtain ⟨toks', r, h3, -⟩ := GLex.C73_scan_terminates E s
    have e1 := scan_mono (Nat.le_max_left f (s.length + 1)) h1
    have e2 := scan_mono (Nat.le_max_right f (s.length + 1)) h3
    rw [e1] at e2
    cases e2
    exact ⟨toks, st, h3, h2⟩
  · rintro ⟨toks, st, h1, h2⟩
    exact ⟨_, toks, st, h1, h2⟩

/-- C101: the code before the declarations is the first token of the file, if that is code, and nothing otherwise; the code behind the rules likewise the last one. -/
theorem C101_code {ts : List T} {F : File} (h : System ts F) :
    (∀ c q, ts = (.named "T_CODE", c) :: q → F.first = c) ∧ ((∀ c q, ts ≠ (.named "T_CODE", c) :: q) → F.first = []) ∧
    (F.rules ≠ [] → (∀ c q, ts = q ++ [(.named "T_CODE", c)] → F.last = c) ∧ ((∀ c q, ts ≠ q ++ [(.named "T_CODE", c)]) → F.last = [])) := by
  cases h with
  | @mk a x ts ds us rs b y h1 h2 h3 h4 =>
    refine ⟨?_, ?_, fun hr => ?_⟩
    · intro c q e
      cases h1 with
      | some => exact ((Prod.mk.inj (List.cons.inj e).1).2)
      | none =>
        obtain ⟨ps, n1, p1, rfl, rfl⟩ := h2.pieces
        cases ps with
        | nil => exact absurd rfl n1
        | cons p ps =>
          obtain ⟨t, q', e2, hk⟩ := (p1 p (.head _)).head
          simp only [List.nil_append, List.map_cons, List.flatten_cons, e2, List.cons_append] at e
          have := (Declares.not_rule hk).1
          rw [(List.cons.inj e).1, ofLex_code] at this
          cases this
    · intro hn
      cases h1 with
      | none => rfl
      | some => exact absurd rfl (hn _ _)
    · constructor
      · intro c q e
        cases h4 with
        | some => exact (Prod.mk.inj (List.cons.inj (List.append_inj' e rfl).2).1).2
        | none =>
          rcases h3.last with rfl | ⟨ws, t, rfl, ht⟩
          · obtain ⟨vs, hm, h⟩ := h3
            cases h with
            | nil => exact absurd rfl hr
            | more => simp at hm
          · rw [List.append_nil, ← List.append_assoc] at e
            cases (List.append_inj' e rfl).2
            cases ht
      · intro hn
        cases h4 with
        | none => rfl
        | some => exact absurd rfl (hn _ _)

/-- C101: in lexer sections every sign is read as what it is written for. -/
theorem C101_signs (c : Char) (x : List Nat) (v : LexSyn.Tok) : lexTok (.ch c.toNat, x) = some v ↔ Spec.sign v = some c := by
  have inj : ∀ {d : Char}, c.toNat = d.toNat → c = d := fun h => Char.toNat_inj.1 h
  constructor
  · intro h
    unfold lexTok at h
    split at h <;> first
      | (rename_i e; cases e; done)
      | (rename_i e; obtain ⟨e, -⟩ := Prod.mk.inj e; have e := GLex.Tok.ch.inj e; cases h
         simp only [Spec.sign, Option.some.injEq]
         exact (inj (by rw [e]; rfl)).symm)
      | cases h
  · intro h
    cases v <;> simp only [Spec.sign, Option.some.injEq, reduceCtorEq] at h <;> subst h <;> rfl

/-! ### An example -/

/-- A grammar file. -/
def exSource : List Nat := txt "%token N, A (\"a\"), C ;
%input_encoding \"ascii\" %table_lexer
%lexer \"start\" -> %fail [: :]
[0-9]+ N ; \"a\" %la([xy]) A ; [xy] ; \"#\" .* %ba(\"!\") C ;
;
N (A | C)* -> s ;
"

def exDecls : List Decl := [.tokens Front.listToks, .string .encoding (txt "ascii"), .table, .lexer (some (txt "start")) LexFile.exSection]

def exFile : File := ⟨[], exDecls, Front.listRules, []⟩

def exToks1 : List T := [(.named "T_TOKEN_DECLARATION", []), (.named "T_TERMINAL", [78]), (.ch 44, []), (.named "T_TERMINAL", [65]), (.ch 40, []), (.named "T_STRING", [97]), (.ch 41, []),
  (.ch 44, []), (.named "T_TERMINAL", [67]), (.ch 59, [])]
def exToks2 : List T := [(.named "T_INPUT_ENCODING", []), (.named "T_STRING", txt "ascii")]
def exToks3 : List T := [(.named "T_TABLE_LEXER", [])]
def exToks4 : List T := [(.named "T_FAIL", []), (.named "T_CODE", [32]), (.ch 91, []), (.named "T_RANGE", [48, 45, 57]), (.ch 93, []), (.ch 43, []), (.named "T_TERMINAL", [78]), (.ch 59, []),
  (.named "T_STRING", [97]), (.named "T_LOOKAHEAD", []), (.ch 40, []), (.ch 91, []), (.named "T_UNQUOTED_STRING", [120, 121]), (.ch 93, []), (.ch 41, []), (.named "T_TERMINAL", [65]), (.ch 59, []),
  (.ch 91, []), (.named "T_UNQUOTED_STRING", [120, 121]), (.ch 93, []), (.ch 59, []), (.named "T_STRING", [35]), (.ch 46, []), (.ch 42, []), (.named "T_BARRIER", []), (.ch 40, []),
  (.named "T_STRING", [33]), (.ch 41, []), (.named "T_TERMINAL", [67]), (.ch 59, [])]
def exToks5 : List T := [(.named "T_TERMINAL", [78]), (.ch 40, []), (.named "T_TERMINAL", [65]), (.ch 124, []), (.named "T_TERMINAL", [67]), (.ch 41, []), (.ch 42, []), (.named "T_ARROW", []),
  (.named "T_IDENTIFIER", [115]), (.ch 59, [])]

def exSectionToks : List LexSyn.Tok := [.fail, .code [32], .lb, .range [48, 45, 57], .rb, .plus, .term [78], .semi, .str [97], .la, .lp, .lb, .unq [120, 121], .rb, .rp, .term [65], .semi,
  .lb, .unq [120, 121], .rb, .semi, .str [35], .dot, .star, .ba, .lp, .str [33], .rp, .term [67], .semi]

theorem ex_section : LexSyn.Ds true exSectionToks LexFile.exSection := by
  open LexSyn in
  have up : ∀ {b : Bool} {ts : List LexSyn.Tok} {x : E}, D true b .seq ts x → D true b .alt ts x := fun h => .altOne (.andOne (.butOne (.preOne h)))
  have one : ∀ {b : Bool} {ts : List LexSyn.Tok} {x : E}, D true b .rep ts x → D true b .alt ts x := fun h => up (.seqOne (.sepOne h))
  have coll : D true false .alt [.lb, .unq [120, 121], .rb] (.coll [120, 121]) := one (.repOne (.bracket (ts := [.unq [120, 121]]) (one (.repOne .coll))))
  have str : ∀ s, D true false .alt [.str s] (.str s) := fun s => one (.repOne .str)
  have d4 : LexSyn.Ds true _ _ := .barrier (ts := [.str [35], .dot, .star])
    (up (.cat (ts := [.str [35]]) (us := [.dot, .star]) (.seqOne (.sepOne (.repOne .str))) (.sepOne (.star (ts := [.dot]) (.repOne .dot))) (fun _ => ⟨rfl, rfl⟩)))
    (str [33]) .none (.terminal (s := [67])) .nil
  have d3 : LexSyn.Ds true _ _ := .rule coll .none .skip (by simp) d4
  have d2 : LexSyn.Ds true _ _ := .lookahead (str [97]) coll .none (.terminal (s := [65])) d3
  have d1 : LexSyn.Ds true _ _ := .rule (one (.plus (ts := [.lb, .range [48, 45, 57], .rb]) (.repOne (.bracket (ts := [.range [48, 45, 57]]) (one (.repOne .range)))))) .none (.terminal (s := [78]))
    (by simp) d2
  exact .fail d1

theorem ex_rules : Rules exToks5 Front.listRules := by
  refine ⟨Front.listTokens, by decide +kernel, ?_⟩
  open Syntax in
  have t : ∀ s, D true .primary [.term s] (.term s) := fun s => .atom .term
  have c : ∀ s, D true .cond [.term s] (.term s) := fun s => .sequence (.one (.unary (.primary (t s))))
  have a : D true .option [.term [65], .bar, .term [67]] (.alt (.term [65]) (.term [67])) := .alt (ts := [.term [65]]) (.single (c _)) (c _)
  have d : D true .option [.term [78], .lp, .term [65], .bar, .term [67], .rp, .star] _ :=
    .single (.sequence (.seq (ts := [.term [78]]) (.one (.unary (.primary (t _)))) (.unary (.star (ts := [.lp, .term [65], .bar, .term [67], .rp]) (.paren (ts := [.term [65], .bar, .term [67]]) a))) (by simp [codeFirst])))
  exact .more (us := [.term [78], .lp, .term [65], .bar, .term [67], .rp, .star, .arrow, .ident [115]]) .nil (.plain d .none)

theorem ex_system : System (exToks1 ++ exToks2 ++ exToks3 ++ ([(.named "T_LEXER", []), (.named "T_STRING", txt "start"), (.named "T_ARROW", [])] ++ exToks4 ++ [(.ch 59, [])]) ++ exToks5) exFile := by
  have h1 : Declares exToks1 (.tokens Front.listToks) :=
    .tokens (us := [(.named "T_TERMINAL", [78]), (.ch 44, []), (.named "T_TERMINAL", [65]), (.ch 40, []), (.named "T_STRING", [97]), (.ch 41, []), (.ch 44, []), (.named "T_TERMINAL", [67])]) rfl
      (.more (ts := [(.named "T_TERMINAL", [78]), (.ch 44, []), (.named "T_TERMINAL", [65]), (.ch 40, []), (.named "T_STRING", [97]), (.ch 41, [])])
        (.more (.one .plain) rfl (.described rfl rfl)) rfl .plain) rfl
  have h2 : Declares exToks2 (.string .encoding (txt "ascii")) := .string rfl
  have h3 : Declares exToks3 .table := .table rfl
  have h4 : Declares ([(.named "T_LEXER", []), (.named "T_STRING", txt "start"), (.named "T_ARROW", [])] ++ exToks4 ++ [(.ch 59, [])]) (.lexer (some (txt "start")) LexFile.exSection) :=
    .named rfl rfl (us := exToks4) (vs := exSectionToks) (by decide +kernel) ex_section rfl
  have := System.mk .none (.more (.more (.more (.one h1) h2) h3) h4) ex_rules .none
  simpa [exFile, exDecls] using this

/-- The scan ends well with these tokens. -/
def scans (s : List Nat) (toks : List T) : Bool := match GLex.scan {} (s.length + 1) {} s with
  | some (ts, .eof _) => ts == toks
  | _ => false

theorem reads_of {s : List Nat} {toks : List T} {F : File} (h : scans s toks = true) (hF : System toks F) : Reads {} s F := by
  unfold scans at h
  split at h
  · next ts st e =>
    cases eq_of_beq h
    exact ⟨_, _, st, e, hF⟩
  · cases h

/-- The file is read so. -/
theorem ex_reads : Reads {} exSource exFile := reads_of (by decide +kernel) ex_system

/-! ## C102: the end of a lexer section -/

/-- C102: in a file that is read, the last declaration of every lexer section is a definition or a rule. -/
theorem C102_closed {E : GLex.Env} {s : List Nat} {F : File} (h : Reads E s F) {e : Option Text} {ds : List LexSyn.Decl} (hd : .lexer e ds ∈ F.decls) :
    ∃ ds' d, ds = ds' ++ [d] ∧ ((∃ n x, d = .define n x) ∨ ∃ x y c a, d = .rule x y c a) := by
  obtain ⟨f, toks, st, h1, h2⟩ := h
  rcases closed h1 h2 hd with ⟨n, x, e⟩ | ⟨x, y, c, a, e⟩
  · obtain ⟨ds', rfl⟩ := List.getLast?_eq_some_iff.1 e
    exact ⟨ds', _, rfl, .inl ⟨n, x, rfl⟩⟩
  · obtain ⟨ds', rfl⟩ := List.getLast?_eq_some_iff.1 e
    exact ⟨ds', _, rfl, .inr ⟨x, y, c, a, rfl⟩⟩

/-- C102 fails for empty sections: the productions have them, but no file has one. -/
theorem C102_fails_empty : (∃ ts F, System ts F ∧ .lexer none [] ∈ F.decls) ∧ ∀ {E : GLex.Env} {s : List Nat} {F : File} {e : Option Text}, Reads E s F → .lexer e [] ∉ F.decls := by
  refine ⟨⟨_, _, .mk .none (.one (.start (t := (.named "T_LEXER", [])) (a := (.named "T_ARROW", [])) (us := []) (vs := []) (b := (.ch 59, [])) rfl rfl rfl .nil rfl)) ⟨[], List.map_nil, .nil⟩ .none, .head _⟩, ?_⟩
  intro E s F e h hd
  obtain ⟨ds', d, h1, -⟩ := C102_closed h hd
  simp at h1

/-- C102 fails for sections with `%fail`, `%enter` or `%leave` at the end: the productions have them, but no file has one. -/
theorem C102_fails_code (c : Text) :
    (∀ d, d = .fail c ∨ d = .enter c ∨ d = .leave c → ∃ ts F, System ts F ∧ .lexer none [d] ∈ F.decls) ∧
    ∀ {E : GLex.Env} {s : List Nat} {F : File} {e : Option Text} {ds : List LexSyn.Decl}, Reads E s F → .lexer e (ds ++ [.fail c]) ∉ F.decls ∧ .lexer e (ds ++ [.enter c]) ∉ F.decls ∧
      .lexer e (ds ++ [.leave c]) ∉ F.decls := by
  have key : ∀ {k : T} {v : LexSyn.Tok} {d : LexSyn.Decl}, lexTok k = some v → LexSyn.Ds true [v, .code c] [d] → ∃ ts F, System ts F ∧ .lexer none [d] ∈ F.decls := by
    intro k v d hk hd
    exact ⟨_, _, .mk .none (.one (.start (t := (.named "T_LEXER", [])) (a := (.named "T_ARROW", [])) (us := [k, (.named "T_CODE", c)]) (b := (.ch 59, [])) rfl rfl
      (by rw [List.map_cons, hk]; rfl) hd rfl)) ⟨[], List.map_nil, .nil⟩ .none, .head _⟩
  have no : ∀ {E : GLex.Env} {s : List Nat} {F : File} {e : Option Text} {ds : List LexSyn.Decl} {d : LexSyn.Decl}, Reads E s F → (∀ n x, d ≠ .define n x) → (∀ x y c a, d ≠ .rule x y c a) →
      .lexer e (ds ++ [d]) ∉ F.decls := by
    intro E s F e ds d h h1 h2 hd
    obtain ⟨ds', d', e1, e2⟩ := C102_closed h hd
    obtain ⟨-, e3⟩ := List.append_inj' e1 rfl
    cases e3
    rcases e2 with ⟨n, x, e2⟩ | ⟨x, y, c, a, e2⟩
    · exact h1 _ _ e2
    · exact h2 _ _ _ _ e2
  refine ⟨?_, fun h => ⟨no h (by simp) (by simp), no h (by simp) (by simp), no h (by simp) (by simp)⟩⟩
  rintro d (rfl | rfl | rfl)
  · exact key (k := (.named "T_FAIL", [])) rfl (.fail .nil)
  · exact key (k := (.named "T_ENTER_RULE_SET", [])) rfl (.enter .nil)
  · exact key (k := (.named "T_LEAVE_RULE_SET", [])) rfl (.leave .nil)

/-- The section of the example ends with a rule; the tokens of a file with a section that ends with `%fail` are not those of any bytes. -/
example : ∃ ds' d, LexFile.exSection = ds' ++ [d] ∧ ((∃ n x, d = .define n x) ∨ ∃ x y c a, d = .rule x y c a) := C102_closed ex_reads (.tail _ (.tail _ (.tail _ (.head _))))

/-- With one semicolon behind `%fail` the scanner stays in the section until the end of the file; with two, the second is not expected. -/
example : scans (txt "%lexer -> %fail [: x :] ;\n A -> s ;\n") [] = false ∧ (GLex.scan {} 100 {} (txt "%lexer -> %fail [: x :] ;\n A -> s ;\n")).map (fun r => match r.2 with | .stop => true | _ => false) = some true := by
  decide +kernel

/-! ## C103: the settings of a file -/

/-- C103: whenever the declarations are carried out to the end, the settings are as described. -/
theorem C103_settings {F : File} {w : World} (hrun : F.run = some w) : Spec.Settled F.first F.decls F.last w := by
  obtain ⟨w, h, rfl⟩ := Option.map_eq_some_iff.1 hrun
  have hg : ∀ k : Cls, Spec.Gathered (Spec.members k F.decls) ((Spec.members k F.decls).foldl (fun ms p => ms.push p.1 p.2) {}) := by
    intro k
    obtain ⟨h1, h2, h3⟩ := push_members (Spec.members k F.decls) {}
    exact ⟨by rw [h1]; rfl, by rw [h2]; rfl, by rw [h3]; rfl⟩
  exact {
    decl := decl_eq h
    bits := by show w.bits ++ _ = _; rw [bits_eq h]; rfl
    lexerBits := (lexerBits_eq h).trans (List.nil_append _)
    parserMembers := by have := hg .parser; rwa [← show w.parserMembers = _ from parserMembers_eq h] at this
    lexerMembers := by have := hg .lexer; rwa [← show w.lexerMembers = _ from lexerMembers_eq h] at this
    tokens := (tokens_eq h).trans (List.nil_append _)
    sections := (sections_eq h).trans (List.nil_append _)
    hasLexer := by show w.hasLexer = true ↔ _; rw [hasLexer_eq h]; cases Spec.sections F.decls <;> simp
    type := type_eq h
    exportMacro := exportMacro_eq h
    exportMacroHeader := exportMacroHeader_eq h
    inputStream := inputStream_eq h
    parserBase := parserBase_eq h
    lexerBase := lexerBase_eq h
    tokenStream := tokenStream_eq h
    namespaceCode := namespaceCode_eq h
    astCode := astCode_eq h
    parserDeclarationHeaders := (parserDeclarationHeaders_eq h).trans (List.nil_append _)
    parserBitsHeaders := (parserBitsHeaders_eq h).trans (List.nil_append _)
    astHeaders := (astHeaders_eq h).trans (List.nil_append _)
    lexerDeclarationHeaders := (lexerDeclarationHeaders_eq h).trans (List.nil_append _)
    lexerBitsHeaders := (lexerBitsHeaders_eq h).trans (List.nil_append _)
    astBases := fun x => by
      show get x w.astBases = _
      rw [astBases_eq h, get_bases]
      cases (Spec.bases x F.decls).getLast? <;> rfl }

/-- C103: they are carried out to the end exactly if no directive for the type of the automata comes behind a lexer section and all encodings are known. -/
theorem C103_goes_on {F : File} : (∃ w, F.run = some w) ↔ Spec.Proper F.decls := by
  have := run_some (ds := F.decls) (w := { decl := F.first })
  constructor
  · rintro ⟨w, hrun⟩
    obtain ⟨w, h, rfl⟩ := Option.map_eq_some_iff.1 hrun
    obtain ⟨h1, h2⟩ := this.1 ⟨w, h⟩
    exact ⟨fun a d b e hd => (h1 a d b e hd).2, h2⟩
  · rintro ⟨h1, h2⟩
    obtain ⟨w, h⟩ := this.2 ⟨fun a d b e hd => ⟨rfl, h1 a d b e hd⟩, h2⟩
    exact ⟨_, by rw [File.run, h]; rfl⟩

/-- C103: then the type of the automata is the same for all lexer sections: that at the end. -/
theorem C103_type {F : File} {w : World} (hrun : F.run = some w) {a b : List Decl} {e : Option Text} {ds : List LexSyn.Decl} (he : F.decls = a ++ .lexer e ds :: b) :
    ∃ w', a.foldlM World.exec { decl := F.first } = some w' ∧ w'.type = w.type := by
  obtain ⟨w, h, rfl⟩ := Option.map_eq_some_iff.1 hrun
  rw [he, List.foldlM_append] at h
  obtain ⟨w', h1, h2⟩ := Option.bind_eq_some_iff.1 h
  refine ⟨w', h1, ?_⟩
  rw [List.foldlM_cons] at h2
  obtain ⟨w2, h3, h4⟩ := Option.bind_eq_some_iff.1 h2
  cases h3
  obtain ⟨h5, -⟩ := run_some.1 ⟨w, h4⟩
  have h6 : b.filterMap Spec.directive = [] := by
    refine List.filterMap_eq_nil_iff.2 fun d hd => ?_
    by_contra hne
    obtain ⟨p, q, rfl⟩ := List.append_of_mem hd
    exact absurd (h5 p d q rfl hne).1 (by simp)
  have h7 := type_eq h4
  rw [h6] at h7
  exact Option.some.inj h7

def exWorld : World := { tokens := Front.listToks, type := 6, hasLexer := true, sections := [(some (txt "start"), LexFile.exSection)] }

theorem ex_run : exFile.run = some exWorld := by decide +kernel

/-- With several values for one setting, headers, members and base classes. -/
example : ∃ w, File.run ⟨txt "x", [.string .exportMacro (txt "A"), .string .astHeader (txt "a.h"), .member .parser .publicDecl (txt "int i;"), .astBase (txt "n") (txt "B"), .string .exportMacro (txt "C"),
      .string .astHeader (txt "b.h"), .bits .parser (txt "f"), .member .parser .constructorCode (txt "i = 0;"), .astBase (txt "n") (txt "D"), .astBase (txt "m") (txt "E")], [], txt "g"⟩ = some w ∧
    w.exportMacro = txt "C" ∧ w.astHeaders = [txt "a.h", txt "b.h"] ∧ w.bits = txt "fg" ∧ (w.astBases.find? (·.1 = txt "n")).map (·.2) = some (txt "D") ∧ w.parserMembers.constructors = [txt "i = 0;"] := by
  refine ⟨_, rfl, ?_⟩
  decide +kernel

/-- A directive behind a lexer section ends the program. -/
example : File.run ⟨[], [.lexer none [], .table], [], []⟩ = none := rfl

/-! ## C104: from the bytes of a file to the texts that are accepted -/

section
open Verif.Front hiding St
open Verif.Auto Verif.LexFile Verif.LexSyn
open Verif.Grammar (find computeFirst computeFollow)
open Verif.Gen (Ctx LL1)
open Verif.Whole (User host run)

/-- C104 (partial): let the bytes `s` be read as a file, and its declarations be carried out.  If no bare code stands below `@`, the bases of operator rules are symbols, no postfix operator has priority `0` without associativity and the terminals used are declared, then the actions of the rules make nodes; and if
the lexer sections are as in `C96_lexer_partial` and the rules as in `C100_exactly_partial`, then on every text the generated parser with the generated lexer accepts exactly if the rules of the lexer cut the
text into tokens whose names are a sentence of the start symbol.  Missing: what is missing in these theorems. -/
theorem C104_accepted_partial {E : GLex.Env} {s : List Nat} {F : Top.File} {w : Top.World} (hread : Reads E s F) (hrun : F.run = some w) (hv : ∀ r ∈ F.rules, Valid r.item) (hd : DeclaredIn w.tokens F.rules)
    {C : Type} [CharSetLike C] {A : Chars C} {R : LexSyn.Spec.Reading} (order : List Bits → List Bits) (ho : Enumerates order) {fuelA : Nat} (hA : Alphabet order fuelA w.type C A) (hR : R.Bounded)
    (uni : Store C → LexSyn.Out (Store C)) (st0 : Store C) (N : LexSyn.Text → Lang) (hst : ∀ s d, st0 s = some d → d.ready = false ∧ d.nfa.Wf ∧ ∀ w, d.nfa.Lang w ↔ N s w)
    (hu : (∃ ds ss', w.sections = (none, ds) :: ss') ∧ uni (fun _ => none) = .ok st0 ∨ (∀ p ∈ w.sections, p.1 ≠ none) ∧ st0 = fun _ => none)
    (hf : ∀ p ∈ w.sections, FaithfulAll A R p.2) (hb : BehindFile A R N (fun s => st0 s ≠ none) w.sections) (hcl : LexSyn.Spec.ClosedFile (fun s => st0 s ≠ none) w.sections)
    (hsafe : LexSyn.Spec.SafeFile R (CharSetLike.size C) N w.sections) {step : List (C × Nat) → Nat → Option Nat} (hstep : ∀ d : DFA C, d.Wf → OnePer d.rules → Lexer.StepOk step d)
    (I : Numbers) {es : Nat → LexFile.Spec.Rules} (hes : ∀ r, LexFile.Spec.File R (CharSetLike.size C) I.tok I.num (I.name r) N w.sections (es r)) (hus : ∀ r, LexFile.Spec.Usable (es r))
    (hfail : ∀ r, LexFile.Spec.Quiet (LexSyn.Spec.last (LexSyn.Spec.bytes "qDebug() << \"error\"; exit(-1);") LexSyn.Spec.failCode (LexSyn.Spec.ofEnv (I.name r) w.sections)))
    (hadv : ∀ r, ∀ e ∈ es r, ∀ w, e.1 w → e.2.ahead < w.length) :
    (∃ us st, ActRs us F.rules (({} : Front.St).tokens w.tokens) st) ∧ ∀ {us st}, ActRs us F.rules (({} : Front.St).tokens w.tokens) st → ∀ {K : Ctx}, Handed st.finish.1 K.W → K.eofTok = st.finish.2 → (∀ r ∈ F.rules, Simple False r.item) → OpsFine F.rules →
      ∀ {r : Syntax.Rule}, r ∈ F.rules → Alone F.rules r.sym → LL1 K → ∀ {f1 k1 f2 k2 : Nat}, computeFirst K.W f1 k1 = some K.F → computeFollow K.W K.F K.eofTok f2 k2 = some K.S →
      ∀ {U : User}, (∀ k, U.oracle k = true) → ∀ {num : Syntax.Name → Nat} {numOf : Nat → Nat}, Numbered st.finish.1.tab num numOf → Fits w.tokens num (fun x => ∃ r, ∃ e ∈ es r, e.2.term = .tok x) →
      ∃ k, find st.finish.1.tab.symbols r.sym = some k ∧ ∃ G, ∀ fuel, G ≤ fuel → ∃ sys, execFile A order fuel uni Sys.init w.sections = .ok sys ∧
        ∃ d : Nat → DFA C, (∀ r, ∃ G, ∀ fuel', G ≤ fuel' → automaton order fuel' (sys.envs (I.name r)).rules (sys.envs (I.name r)).actions = some (d r)) ∧
          ∀ buf, (∀ x ∈ buf, x < CharSetLike.size C) → ∀ L, Generated I step d sys buf L → ∃ D, LexFile.Spec.Describes es buf D ∧
            ((∃ f σ, run K fuel (host L K.W numOf) U f k = some (.ok, σ)) ↔ ∃ ω, Sentence F.rules r.sym ω ∧ Cut D num ω) := by
  refine ⟨?_, ?_⟩
  · obtain ⟨f, toks, st', h1, h2⟩ := hread
    cases h2 with
    | mk _ _ hr _ =>
      obtain ⟨us, -, hrs⟩ := hr
      exact ⟨us, (C99_runs hrs hd).2 hv⟩
  · intro us st hact K hW he hs hop r hr hal hll f1 k1 f2 k2 hF hS U hor num numOf hn hfit
    exact C100_file_partial hA.size hR order ho uni st0 N hst w.sections hu hf hb hcl hsafe hstep I hes hus hfail hadv hact hd hW he hs hop hr hal hll hF hS hor hn hfit

/-- The conditions of `C104_accepted_partial` hold for the file of the example; the text `1ax#b!` is accepted. -/
example : ∃ k numOf, find listSt.finish.1.tab.symbols [115] = some k ∧ Numbered listSt.finish.1.tab listNumber numOf ∧
    ∃ F, ∀ fuel, F ≤ fuel → ∃ sys, execFile asciiChars List.dedup fuel (fun _ => .stuck) Sys.init exWorld.sections = .ok sys ∧
      ∃ d : Nat → DFA (CharSet.Table 128), ∀ L, Generated exNumbers Lexer.tableStep d sys [49, 97, 120, 35, 98, 33] L → ∃ f σ, run listK fuel (host L listK.W numOf) Whole.quietUser f k = some (.ok, σ) := by
  obtain ⟨c1, c2, c3, c4, c5, c6⟩ := ex_conditions
  obtain ⟨numOf, hn⟩ := numbered_exists (C99_terminals list_act list_declared list_handed).2.1 listNumber
  obtain ⟨-, h⟩ := C104_accepted_partial ex_reads ex_run (fun r hr => by cases List.mem_singleton.1 hr; exact ⟨trivial, trivial, trivial⟩) list_declared (C := CharSet.Table 128) (A := asciiChars) (R := exK)
    List.dedup enumerates_dedup (fuelA := 0) .tAscii c1 (fun _ => .stuck) exStore exN (by simp) (Or.inr ⟨by simp [exWorld], rfl⟩) c2 c3 c4 c5 ex_tab exNumbers (es := fun _ => LexFile.exRules)
    (fun _ => ex_file) (fun _ => ex_usable) c6 (fun _ => ex_advances)
  obtain ⟨k, hk, G, h⟩ := h list_act (K := listK) list_handed rfl (fun r hr => by cases List.mem_singleton.1 hr; exact ⟨trivial, trivial, trivial⟩) (fun r hr o ho => by cases List.mem_singleton.1 hr; cases ho) (r := listRules[0]) (.head _)
    ⟨by decide +kernel, fun r hr => by cases List.mem_singleton.1 hr; exact fun h => by rcases h with h | h | h <;> exact h⟩ listK_ll1
    (f1 := 50) (k1 := 20) (f2 := 50) (k2 := 20) (by decide +kernel) (by decide +kernel) (U := Whole.quietUser) (fun _ => rfl) hn list_fits
  refine ⟨k, numOf, hk, hn, G, fun fuel hf => ?_⟩
  obtain ⟨sys, h1, d, h2, h3⟩ := h fuel hf
  refine ⟨sys, h1, d, fun L hL => ?_⟩
  obtain ⟨D, d1, d2⟩ := h3 _ (by decide) L hL
  refine d2.2 ⟨[[78], [65], [67]], ⟨_, .head _, rfl, .cons (α := [[78]]) .term (.again (α := [[65]]) (.left .term) (.again (α := [[67]]) (.right .term) .none))⟩, ?_⟩
  exact Whole.list_yields d1

end

end Verif.Top
