import Verif.Main.Lemmas
import Mathlib.Tactic.Tauto

/-!
# C53: command-line decisions
-/

namespace Verif.Main

open Verif.Grammar Verif.Check

variable {opens : Text → Bool} {parse : Text → Option Input} {fuel : Nat} {args : List Text}

/-- The conflicts reported are some. -/
def Conflicting (I : Input) (fuel : Nat) : Prop := ∃ c, checkRules I fuel false = some c ∧ 0 < c.firstFirst + c.firstFollow

/-- No error is found in the rules. -/
def RulesOk (args : List Text) (I : Input) (fuel : Nat) : Prop :=
  MakesParser args I → I.W.rules ≠ [] ∧ ∀ ignore c, checkRules I fuel ignore = some c → c.errors = 0

theorem identifier_iff {t : Text} : identifier t = true ↔ Identifier t := by
  cases t with
  | nil => simp [identifier, Identifier]
  | cons c cs => simp [identifier, Identifier, letter, or_assoc]

theorem lexerErrors_zero {I : Input} {m w : Bool} : lexerErrors I m w = 0 ↔ m = false ∧ (w = true → "start".toList ∈ I.states ∧ Identifier I.tokenStream) := by
  rw [← identifier_iff]
  unfold lexerErrors
  cases m <;> cases w <;> simp

/-- The errors do not depend on whether conflicts are looked for. -/
theorem errors_ignore {I : Input} {b : Bool} {c : Counts} (h : checkRules I fuel b = some c) : ∀ {c'}, checkRules I fuel true = some c' → c'.errors = c.errors := by
  intro c' h'
  unfold checkRules at h h'
  split at h
  · rename_i hi
    rw [hi] at h'
    simp only [Option.bind_eq_some_iff, Option.map_eq_some_iff] at h h'
    obtain ⟨e2, h2, F, hF, S, hS, c1, h3, c2, h4, e3, h5, e4, h6, e5, h7, e6, h8, rfl⟩ := h
    obtain ⟨e2', h2', F', hF', S', hS', c1', h3', c2', h4', e3', h5', e4', h6', e5', h7', e6', h8', rfl⟩ := h'
    rw [h2] at h2'; rw [hF] at hF'
    cases h2'; cases hF'
    rw [h5] at h5'; rw [h6] at h6'; rw [h7] at h7'; rw [h8] at h8'
    cases h5'; cases h6'; cases h7'; cases h8'
    rfl
  · cases h

/-- The program after reading the arguments. -/
theorem main_run (hab : ∀ a ∈ args, ¬ AboutOpt a) : main opens parse fuel args = finish parse fuel (settings opens {} args) := by
  unfold main
  rw [readArgs_settings, if_neg fun ⟨a, ha, h⟩ => hab a ha h]

/-- Nothing can be read. -/
theorem run_unread (hab : ∀ a ∈ args, ¬ AboutOpt a) (hf : ∀ f I, Reads opens args f → parse f ≠ some I) :
    main opens parse fuel args = some { success := false } := by
  rw [main_run hab]
  unfold finish
  cases h : (settings opens {} args).file with
  | none => rfl
  | some f =>
    simp only
    cases hp : parse f with
    | none => rfl
    | some I => exact absurd hp (hf f I (file_iff.1 h))

/-- The files asked for. -/
def Wanted (args : List Text) (I : Input) (f : File) : Prop :=
  (∃ l n, Value "--output=" args l ∧ (Value "--namespace=" args n ∧ n ≠ [] ∨ Value "--namespace=" args [] ∧ n = l) ∧ WantsOutput args ∧
    (f = .parser l n ∧ MakesParser args I ∨ f = .lexer l n ∧ MakesLexer args I)) ∨
  ∃ v b, f = .visitor v b ∧ Value "--new-visitor=" args v ∧ v ≠ [] ∧ (b = true ↔ ∃ a, Last InheritOpt args a ∧ Is "--inherit-default-visitor" a)

theorem mem_dumps {t s r a : Bool} {T S R A : Prop} (ht : t = true ↔ T) (hs : s = true ↔ S) (hr : r = true ↔ R) (ha : a = true ↔ A) {f : File} :
    f ∈ (if t = true then [File.terminals] else []) ++ (if s = true then [File.symbols] else []) ++ (if r = true then [File.rules] else []) ++
      (if a = true then [File.automata] else []) ↔ (f = .terminals ∧ T) ∨ (f = .symbols ∧ S) ∨ (f = .rules ∧ R) ∨ (f = .automata ∧ A) := by
  rw [← ht, ← hs, ← hr, ← ha]
  cases t <;> cases s <;> cases r <;> cases a <;> simp [or_assoc]

theorem counts_errors {I : Input} {par b : Bool} (hpar' : par = true ↔ MakesParser args I) {c : Counts} (hc : parserCounts I fuel b par = some c) :
    c.errors = 0 ↔ RulesOk args I fuel := by
  unfold parserCounts at hc
  rw [RulesOk, ← hpar']
  by_cases h1 : par = true
  · rw [if_pos h1] at hc
    by_cases h2 : I.W.rules = []
    · rw [if_pos h2] at hc
      cases hc
      simp [h1, h2]
    · rw [if_neg h2] at hc
      simp only [h1, ne_eq, h2, not_false_eq_true, true_and, forall_const]
      constructor
      · intro h0 b' c' h'
        cases hb : b with
        | true =>
          rw [hb] at hc
          rw [← errors_ignore h' hc, h0]
        | false =>
          rw [hb] at hc
          cases b' with
          | true => rw [errors_ignore hc h', h0]
          | false => rw [hc] at h'; cases h'; exact h0
      · intro h; exact h _ _ hc
  · rw [if_neg h1] at hc
    cases hc
    simp [h1]

theorem counts_conflicts {I : Input} {par : Bool} (hpar' : par = true ↔ MakesParser args I) {c : Counts}
    (hc : parserCounts I fuel ((settings opens {} args).conflicts == .ignore) par = some c) (he : c.errors = 0) :
    (settings opens {} args).conflicts = .strict ∧ 0 < c.firstFirst + c.firstFollow ↔ Strict args ∧ MakesParser args I ∧ Conflicting I fuel := by
  rw [conflicts_strict, ← hpar']
  by_cases hs : Strict args
  · have hig : ((settings opens {} args).conflicts == .ignore) = false := by
      rw [(conflicts_strict opens args).2 hs]; rfl
    rw [hig] at hc
    unfold parserCounts at hc
    by_cases h1 : par = true
    · rw [if_pos h1] at hc
      by_cases h2 : I.W.rules = []
      · rw [if_pos h2] at hc
        cases hc
        cases he
      · rw [if_neg h2] at hc
        have : Conflicting I fuel ↔ 0 < c.firstFirst + c.firstFollow := by
          unfold Conflicting
          rw [hc]
          simp
        rw [this]
        simp only [hs, h1]
        tauto
    · rw [if_neg h1] at hc
      cases hc
      simp [h1]
  · simp [hs]

theorem noName_iff : (!((settings opens {} args).terminals || (settings opens {} args).symbols || (settings opens {} args).rules) && (settings opens {} args).output &&
    (settings opens {} args).language.isEmpty) = true ↔ NoName args := by
  have h1 := output_iff opens args
  have h2 := language_iff opens args (v := [])
  obtain ⟨d1, d2, d3, -⟩ := dump_flags opens args
  have hd : (∀ a ∈ args, ¬ DumpOpt a) ↔ ¬ ("--terminals".toList ∈ args ∨ "--symbols".toList ∈ args ∨ "--rules".toList ∈ args) := by
    constructor
    · rintro h (h' | h' | h')
      · exact h _ h' (.inl rfl)
      · exact h _ h' (.inr (.inl rfl))
      · exact h _ h' (.inr (.inr rfl))
    · rintro h a ha (h' | h' | h') <;> (rw [Is] at h'; subst h')
      · exact h (.inl ha)
      · exact h (.inr (.inl ha))
      · exact h (.inr (.inr ha))
  rw [NoName, ← h1, ← h2, hd, ← d1, ← d2, ← d3]
  simp only [Bool.and_eq_true, Bool.not_eq_true', Bool.or_eq_false_iff, List.isEmpty_iff, not_or, Bool.not_eq_true]
  exact ⟨fun ⟨⟨⟨⟨a, b⟩, c⟩, d⟩, e⟩ => ⟨d, e, a, b, c⟩, fun ⟨d, e, a, b, c⟩ => ⟨⟨⟨⟨a, b⟩, c⟩, d⟩, e⟩⟩

/-- A file was read. -/
theorem run_read (hab : ∀ a ∈ args, ¬ AboutOpt a) {file : Text} {I : Input} (hf : Reads opens args file) (hp : parse file = some I) {r : Result}
    (hr : main opens parse fuel args = some r) :
    (r.success = true ↔ RulesOk args I fuel ∧ LexerOk args I ∧ ¬ (Strict args ∧ MakesParser args I ∧ Conflicting I fuel) ∧ ¬ NoName args) ∧
    ∀ f, f ∈ r.files ↔ Dump args f ∨ (r.success = true ∧ Wanted args I f) := by
  rw [main_run hab] at hr
  unfold finish at hr
  rw [show (settings opens {} args).file = some file from file_iff.2 hf] at hr
  simp only [hp] at hr
  generalize hpar : (if (settings opens {} args).ensureParser = true then (settings opens {} args).parser else !I.W.rules.isEmpty) = par at hr
  generalize hlex : (if (settings opens {} args).ensureLexer = true then (settings opens {} args).lexer && I.hasLexer else I.hasLexer) = lex at hr
  have hpar' : par = true ↔ MakesParser args I := by rw [← hpar]; exact parser_iff opens args
  have hlex' : lex = true ↔ MakesLexer args I := by rw [← hlex]; exact lexer_iff opens args
  have hdem := demands_iff opens args
  generalize hm : ((settings opens {} args).ensureLexer && (settings opens {} args).lexer && !I.hasLexer) = missing at hr
  have hmiss : missing = false ↔ (DemandsLexer args → I.hasLexer = true) := by
    rw [← hm, ← hdem]
    generalize ((settings opens {} args).ensureLexer && (settings opens {} args).lexer) = x
    cases x <;> cases I.hasLexer <;> simp
  have hlo : lexerErrors I missing lex = 0 ↔ LexerOk args I := by
    rw [lexerErrors_zero, hmiss, hlex', LexerOk]
  have hdump : ∀ f, f ∈ (if (settings opens {} args).terminals = true then [File.terminals] else []) ++ (if (settings opens {} args).symbols = true then [File.symbols] else []) ++
      (if (settings opens {} args).rules = true then [File.rules] else []) ++ (if (settings opens {} args).automata = true then [File.automata] else []) ↔ Dump args f := by
    intro f
    obtain ⟨d1, d2, d3, d4⟩ := dump_flags opens args
    exact mem_dumps d1 d2 d3 d4
  generalize (if (settings opens {} args).terminals = true then [File.terminals] else []) ++ (if (settings opens {} args).symbols = true then [File.symbols] else []) ++
      (if (settings opens {} args).rules = true then [File.rules] else []) ++ (if (settings opens {} args).automata = true then [File.automata] else []) = dumps at hr hdump
  cases hc : parserCounts I fuel ((settings opens {} args).conflicts == .ignore) par with
  | none => rw [hc] at hr; cases hr
  | some c =>
    rw [hc] at hr
    simp only at hr
    have herr : c.errors = 0 ↔ RulesOk args I fuel := counts_errors hpar' hc
    have hname := noName_iff (opens := opens) (args := args)
    split at hr
    · cases hr
    split at hr
    · rename_i h
      cases hr
      refine ⟨⟨fun h => absurd h (by simp), fun ⟨h1, h2, _⟩ => ?_⟩, fun f => by rw [hdump]; simp⟩
      rw [← herr] at h1
      rw [← hlo] at h2
      omega
    · rename_i h0
      have he : c.errors = 0 := by omega
      have hl : lexerErrors I missing lex = 0 := by omega
      have hcon := counts_conflicts hpar' hc he
      split at hr
      · rename_i h
        cases hr
        exact ⟨⟨fun h => absurd h (by simp), fun ⟨_, _, h3, _⟩ => absurd (hcon.1 h) h3⟩, fun f => by rw [hdump]; simp⟩
      rename_i h3
      split at hr
      · rename_i h
        cases hr
        exact ⟨⟨fun h => absurd h (by simp), fun ⟨_, _, _, h4⟩ => absurd (hname.1 h) h4⟩, fun f => by rw [hdump]; simp⟩
      rename_i h4
      cases hr
      refine ⟨⟨fun _ => ⟨herr.1 he, hlo.1 hl, fun h => h3 (hcon.2 h), fun h => h4 (hname.2 h)⟩, fun _ => rfl⟩, fun f => ?_⟩
      have hns : ∀ n, (if (settings opens {} args).ns = [] then (settings opens {} args).language else (settings opens {} args).ns) = n ↔
          (Value "--namespace=" args n ∧ n ≠ [] ∨ Value "--namespace=" args [] ∧ n = (settings opens {} args).language) := by
        intro n
        rw [← ns_iff opens args, ← ns_iff opens args]
        by_cases hn : (settings opens {} args).ns = []
        · rw [if_pos hn, hn]
          constructor
          · intro h; exact .inr ⟨rfl, h.symm⟩
          · rintro (⟨h, h'⟩ | ⟨-, h⟩)
            · exact absurd h.symm h'
            · exact h.symm
        · rw [if_neg hn]
          constructor
          · intro h; exact .inl ⟨h, fun h' => hn (h.trans h')⟩
          · rintro (⟨h, -⟩ | ⟨h, -⟩)
            · exact h
            · exact absurd h hn
      simp only [List.mem_append, hdump, true_and, List.mem_ite_nil_right, List.mem_ite_nil_left, List.mem_singleton, Bool.and_eq_true, hpar', hlex', output_iff, List.isEmpty_iff]
      rw [Wanted]
      have hval : ∀ {l}, Value "--output=" args l ↔ l = (settings opens {} args).language := fun {l} => by rw [← language_iff opens args, eq_comm]
      have hnew : ∀ {l}, Value "--new-visitor=" args l ↔ l = (settings opens {} args).newVisitor := fun {l} => by rw [← newVisitor_iff opens args, eq_comm]
      rw [or_assoc, or_assoc]
      refine or_congr Iff.rfl ?_
      rw [← or_assoc]
      refine or_congr ⟨?_, ?_⟩ ⟨?_, ?_⟩
      · rintro (⟨⟨h1, h2⟩, h5⟩ | ⟨⟨h1, h2⟩, h5⟩)
        · exact ⟨_, _, hval.2 rfl, (hns _).1 rfl, h1, .inl ⟨h5, h2⟩⟩
        · exact ⟨_, _, hval.2 rfl, (hns _).1 rfl, h1, .inr ⟨h5, h2⟩⟩
      · rintro ⟨l, n, h1, h2, h5, h6⟩
        have h1 := hval.1 h1
        subst h1
        have h2 := (hns n).2 h2
        subst h2
        rcases h6 with ⟨h6, h7⟩ | ⟨h6, h7⟩
        · exact .inl ⟨⟨h5, h7⟩, h6⟩
        · exact .inr ⟨⟨h5, h7⟩, h6⟩
      · rintro ⟨h1, h2⟩
        exact ⟨_, _, h2, hnew.2 rfl, h1, inherit_iff opens args⟩
      · rintro ⟨v, b, h1, h2, h5, h6⟩
        have h2 := hnew.1 h2
        subst h2
        refine ⟨h5, ?_⟩
        rw [h1, show b = (settings opens {} args).inheritDefault from Bool.eq_iff_iff.2 (h6.trans (inherit_iff opens args).symm)]

/-- C53: if it is about the program itself, it ends successfully and writes nothing, whatever the other arguments are. -/
theorem C53_about (h : ∃ a ∈ args, AboutOpt a) : main opens parse fuel args = some { success := true } := by
  unfold main
  rw [readArgs_settings, if_pos h]

/-- C53: the exit code. -/
theorem C53_success (hab : ∀ a ∈ args, ¬ AboutOpt a) {r : Result} (hr : main opens parse fuel args = some r) :
    r.success = true ↔ ∃ file I, Reads opens args file ∧ parse file = some I ∧ RulesOk args I fuel ∧ LexerOk args I ∧
      ¬ (Strict args ∧ MakesParser args I ∧ Conflicting I fuel) ∧ ¬ NoName args := by
  by_cases h : ∃ file I, Reads opens args file ∧ parse file = some I
  · obtain ⟨file, I, hf, hp⟩ := h
    rw [(run_read hab hf hp hr).1]
    constructor
    · intro h; exact ⟨file, I, hf, hp, h⟩
    · rintro ⟨file', I', hf', hp', h⟩
      have : file = file' := Option.some.inj ((file_iff.2 hf).symm.trans (file_iff.2 hf'))
      subst this
      have : I = I' := Option.some.inj (hp.symm.trans hp')
      subst this
      exact h
  · rw [run_unread hab fun f I hf hp => h ⟨f, I, hf, hp⟩] at hr
    cases hr
    simp only [Bool.false_eq_true, false_iff]
    rintro ⟨file, I, hf, hp, -⟩
    exact h ⟨file, I, hf, hp⟩

/-- C53: what is written if a file was read: what is to be dumped, and if all is well what is wanted. -/
theorem C53_written (hab : ∀ a ∈ args, ¬ AboutOpt a) {r : Result} (hr : main opens parse fuel args = some r) {file : Text} {I : Input} (hf : Reads opens args file)
    (hp : parse file = some I) (f : File) : f ∈ r.files ↔ Dump args f ∨ (r.success = true ∧ Wanted args I f) := (run_read hab hf hp hr).2 f

/-- C53: nothing is written if no file could be read. -/
theorem C53_unread (hab : ∀ a ∈ args, ¬ AboutOpt a) (hf : ∀ f I, Reads opens args f → parse f ≠ some I) :
    main opens parse fuel args = some { success := false } := run_unread hab hf

/-- C53: with errors, or with conflicts in strict mode, neither the parser nor the lexer is written. -/
theorem C53_refused (hab : ∀ a ∈ args, ¬ AboutOpt a) {r : Result} (hr : main opens parse fuel args = some r) {file : Text} {I : Input} (hf : Reads opens args file)
    (hp : parse file = some I) (hbad : ¬ RulesOk args I fuel ∨ ¬ LexerOk args I ∨ (Strict args ∧ MakesParser args I ∧ Conflicting I fuel)) :
    r.success = false ∧ ∀ l n, File.parser l n ∉ r.files ∧ File.lexer l n ∉ r.files := by
  obtain ⟨h1, h2⟩ := run_read hab hf hp hr
  have hs : r.success = false := by
    rw [← Bool.not_eq_true, h1]
    rintro ⟨h3, h4, h5, -⟩
    rcases hbad with h | h | h
    · exact h h3
    · exact h h4
    · exact h5 h
  refine ⟨hs, fun l n => ⟨fun h => ?_, fun h => ?_⟩⟩
  all_goals
    rcases (h2 _).1 h with (⟨h, -⟩ | ⟨h, -⟩ | ⟨h, -⟩ | ⟨h, -⟩) | ⟨h, -⟩
    · cases h
    · cases h
    · cases h
    · cases h
    · rw [hs] at h; cases h

/-! ### The order of the arguments -/

/-- Two arguments that contradict each other, or name two files. -/
def Clash (opens : Text → Bool) (a b : Text) : Prop := a ≠ b ∧ ((ConflictOpt a ∧ ConflictOpt b) ∨ (OutputOpt a ∧ OutputOpt b) ∨ (Starts "--namespace=" a ∧ Starts "--namespace=" b) ∨
  (ParserOpt a ∧ ParserOpt b) ∨ (LexerOpt a ∧ LexerOpt b) ∨ (InheritOpt a ∧ InheritOpt b) ∨
  (FileArg a ∧ FileArg b ∧ a ≠ [] ∧ b ≠ [] ∧ opens a = true ∧ opens b = true))

theorem lastVal_perm {u : Text → Option α} {d : α} {args' : List Text} (hp : args.Perm args') (h : ∀ a ∈ args, ∀ b ∈ args, u a ≠ none → u b ≠ none → u a = u b) :
    lastVal u d args' = lastVal u d args := by
  rw [lastVal_iff]
  rcases (lastVal_iff (u := u) (d := d) args).1 rfl with ⟨a, ha, h1⟩ | ⟨h1, h2⟩
  · obtain ⟨ha1, ha2⟩ := last_mem ha
    obtain ⟨b, hb⟩ := last_exists (P := fun a => u a ≠ none) ⟨a, hp.subset ha1, ha2⟩
    obtain ⟨hb1, hb2⟩ := last_mem hb
    exact .inl ⟨b, hb, (h b (hp.mem_iff.2 hb1) a ha1 hb2 ha2).trans h1⟩
  · exact .inr ⟨fun a ha => h1 a (hp.mem_iff.2 ha), h2⟩

theorem uSeen_same {P : Arg → Bool} {a b : Text} (ha : uSeen P a ≠ none) (hb : uSeen P b ≠ none) : uSeen P a = uSeen P b := by
  unfold uSeen at *
  split at ha <;> split at hb <;> simp_all

theorem file_perm {args' : List Text} (hp : args.Perm args')
    (h : ∀ a ∈ args, ∀ b ∈ args, FileArg a ∧ a ≠ [] ∧ opens a = true → FileArg b ∧ b ≠ [] ∧ opens b = true → a = b) :
    args'.foldl (fileStep opens) none = args.foldl (fileStep opens) none := by
  have key : ∀ as : List Text, (∃ f, Reads opens as f) ↔ ∃ a ∈ as, FileArg a ∧ a ≠ [] ∧ opens a = true := by
    classical
    intro as
    constructor
    · rintro ⟨f, xs, ys, rfl, h1, h2, h3, -⟩
      exact ⟨f, by simp, h1, h2, h3⟩
    · intro he
      induction as with
      | nil => obtain ⟨a, ha, -⟩ := he; cases ha
      | cons b as ih =>
        by_cases hb : FileArg b ∧ b ≠ [] ∧ opens b = true
        · exact ⟨b, [], as, rfl, hb.1, hb.2.1, hb.2.2, by simp⟩
        · obtain ⟨a, ha, h1⟩ := he
          rcases List.mem_cons.1 ha with rfl | ha
          · exact absurd h1 hb
          · obtain ⟨f, xs, ys, rfl, g1, g2, g3, g4⟩ := ih ⟨a, ha, h1⟩
            refine ⟨f, b :: xs, ys, rfl, g1, g2, g3, fun x hx h5 h6 => ?_⟩
            rcases List.mem_cons.1 hx with rfl | hx
            · exact Bool.eq_false_iff.2 fun h7 => hb ⟨h5, h6, h7⟩
            · exact g4 x hx h5 h6
  have mem : ∀ {as f}, Reads opens as f → f ∈ as ∧ FileArg f ∧ f ≠ [] ∧ opens f = true := by
    rintro as f ⟨xs, ys, rfl, h1, h2, h3, -⟩
    exact ⟨by simp, h1, h2, h3⟩
  cases hf : args.foldl (fileStep opens) none with
  | some f =>
    obtain ⟨h1, h2⟩ := mem (file_iff.1 hf)
    obtain ⟨g, hg⟩ := (key args').2 ⟨f, hp.subset h1, h2⟩
    obtain ⟨h3, h4⟩ := mem hg
    rw [file_iff.2 hg, h g (hp.mem_iff.2 h3) f h1 h4 h2]
  | none =>
    cases hg : args'.foldl (fileStep opens) none with
    | none => rfl
    | some g =>
      obtain ⟨h3, h4⟩ := mem (file_iff.1 hg)
      obtain ⟨f, hf'⟩ := (key args).2 ⟨g, hp.mem_iff.2 h3, h4⟩
      rw [file_iff.2 hf'] at hf; cases hf

/-- C53: the order of the arguments does not matter if no two of them clash. -/
theorem C53_order_partial {args' : List Text} (hp : args.Perm args') (hcl : ∀ a ∈ args, ∀ b ∈ args, ¬ Clash opens a b) :
    main opens parse fuel args' = main opens parse fuel args := by
  have same : ∀ {β : Type} {u : Text → Option β} {P : Text → Prop}, (∀ a, u a ≠ none ↔ P a) → (∀ a b, P a → P b → a ≠ b → Clash opens a b) →
      ∀ a ∈ args, ∀ b ∈ args, u a ≠ none → u b ≠ none → u a = u b := by
    intro β u P h1 h2 a ha b hb h3 h4
    by_cases hab : a = b
    · rw [hab]
    · exact absurd (h2 a b ((h1 a).1 h3) ((h1 b).1 h4) hab) (hcl a ha b hb)
  have starts : ∀ {u : Text → Option Text} {p : String}, (∀ a s, u a = some s ↔ a = p.toList ++ s) → ∀ a, u a ≠ none ↔ Starts p a := by
    intro u p h a
    rw [Option.ne_none_iff_exists']
    exact exists_congr fun s => h a s
  have hs : settings opens {} args' = settings opens {} args := by
    unfold settings
    rw [lastVal_perm hp fun a _ b _ => uSeen_same, lastVal_perm hp fun a _ b _ => uSeen_same, lastVal_perm hp fun a _ b _ => uSeen_same, lastVal_perm hp fun a _ b _ => uSeen_same,
      lastVal_perm hp fun a _ b _ => uSeen_same, lastVal_perm hp fun a _ b _ => uSeen_same,
      lastVal_perm hp (same (fun a => (uParser_iff a).1) fun a b ha hb h => ⟨h, .inr (.inr (.inr (.inl ⟨ha, hb⟩)))⟩),
      lastVal_perm hp (same (fun a => (uLexer_iff a).1) fun a b ha hb h => ⟨h, .inr (.inr (.inr (.inr (.inl ⟨ha, hb⟩))))⟩),
      lastVal_perm hp (same (fun a => (uInherit_iff a).1) fun a b ha hb h => ⟨h, .inr (.inr (.inr (.inr (.inr (.inl ⟨ha, hb⟩)))))⟩),
      lastVal_perm hp (same (fun a => (uOutput_iff a).1) fun a b ha hb h => ⟨h, .inr (.inl ⟨ha, hb⟩)⟩),
      lastVal_perm hp (same (starts fun a s => (uValue_iff a s).2.2) fun a b ha hb h => ⟨h, .inl ⟨.inr (.inr (.inr ha)), .inr (.inr (.inr hb))⟩⟩),
      lastVal_perm hp (same (starts fun a s => (uValue_iff a s).1) fun a b ha hb h => ⟨h, .inr (.inl ⟨.inr (.inl ha), .inr (.inl hb)⟩)⟩),
      lastVal_perm hp (same (starts fun a s => (uValue_iff a s).2.1) fun a b ha hb h => ⟨h, .inr (.inr (.inl ⟨ha, hb⟩))⟩),
      lastVal_perm hp (same (fun a => (uConflicts_iff a).1) fun a b ha hb h => ⟨h, .inl ⟨ha, hb⟩⟩)]
    rw [file_perm hp fun a ha b hb h1 h2 => by
      by_cases hab : a = b
      · exact hab
      · exact absurd ⟨hab, .inr (.inr (.inr (.inr (.inr (.inr ⟨h1.1, h2.1, h1.2.1, h2.2.1, h1.2.2, h2.2.2⟩)))))⟩ (hcl a ha b hb)]
  unfold main
  rw [readArgs_settings, readArgs_settings, hs]
  have : (∃ a ∈ args', AboutOpt a) ↔ ∃ a ∈ args, AboutOpt a := exists_congr fun a => and_congr_left' hp.mem_iff.symm
  by_cases h : ∃ a ∈ args, AboutOpt a
  · rw [if_pos h, if_pos (this.2 h)]
  · rw [if_neg h, if_neg fun h' => h (this.1 h')]

/-- C53: the options about the style of what is written have no influence on the decisions. -/
theorem C53_style {xs ys : List Text} {a : Text} (ha : StyleOpt a) : main opens parse fuel (xs ++ a :: ys) = main opens parse fuel (xs ++ ys) := by
  have hc : classify a = .other true a := (classify_other true a).2 ⟨rfl, .inl ⟨rfl, ha⟩⟩
  have hstep : ∀ o, step opens o a = some o := fun o => by unfold step; rw [hc]
  have : ∀ (xs : List Text) (o : Opts), readArgs opens o (xs ++ a :: ys) = readArgs opens o (xs ++ ys) := by
    intro xs
    induction xs with
    | nil => intro o; simp only [List.nil_append]; rw [readArgs, hstep]
    | cons x xs ih =>
      intro o
      simp only [List.cons_append, readArgs]
      cases step opens o x with
      | none => rfl
      | some o => exact ih o
  unfold main
  rw [this]

/-- C53, C41: for rules without inlining cycles the program ends, unless it crashes (`--automata` for a lexer that is not made). -/
theorem C53_ends (args : List Text) (hok : ∀ f I, parse f = some I → Wf I.W ∧ I.W.terminals.Nodup ∧ I.W.node I.eof = some .term ∧ (∀ n, I.W.node n ≠ some (.action none)) ∧
      InlineAcyclic I.W ∧ NoInlinedOp I.W)
    (hau : ∀ f I, parse f = some I → "--automata".toList ∈ args → MakesLexer args I ∨ I.states = []) :
    ∃ f0, ∀ fuel, f0 ≤ fuel → ∃ r, main opens parse fuel args = some r := by
  by_cases hab : ∃ a ∈ args, AboutOpt a
  · exact ⟨0, fun _ _ => ⟨_, C53_about hab⟩⟩
  have hab : ∀ a ∈ args, ¬ AboutOpt a := fun a ha h => hab ⟨a, ha, h⟩
  by_cases h : ∃ file I, Reads opens args file ∧ parse file = some I
  · obtain ⟨file, I, hf, hp⟩ := h
    obtain ⟨w1, w2, w3, w4, w5, w6⟩ := hok file I hp
    obtain ⟨f0, h0⟩ := C41_checks_end w1 w2 w3 w4 w5 w6
    refine ⟨f0, fun fuel hfuel => ?_⟩
    rw [main_run hab]
    unfold finish
    rw [show (settings opens {} args).file = some file from file_iff.2 hf]
    simp only [hp]
    have hlex := lexer_iff opens args (I := I)
    generalize (if (settings opens {} args).ensureParser = true then (settings opens {} args).parser else !I.W.rules.isEmpty) = par
    generalize (if (settings opens {} args).ensureLexer = true then (settings opens {} args).lexer && I.hasLexer else I.hasLexer) = lex at hlex ⊢
    have hc : ∃ c, parserCounts I fuel ((settings opens {} args).conflicts == .ignore) par = some c := by
      unfold parserCounts
      split
      · split
        · exact ⟨_, rfl⟩
        · exact h0 fuel hfuel _
      · exact ⟨_, rfl⟩
    obtain ⟨c, hc⟩ := hc
    rw [hc]
    simp only
    have hno : ¬ ((settings opens {} args).automata && !lex && !I.states.isEmpty) = true := by
      intro h
      simp only [Bool.and_eq_true, Bool.not_eq_true', List.isEmpty_eq_false_iff] at h
      rcases hau file I hp ((dump_flags opens args).2.2.2.1 h.1.1) with h' | h'
      · rw [← hlex, h.1.2] at h'; cases h'
      · exact h.2 h'
    rw [if_neg hno]
    split
    · exact ⟨_, rfl⟩
    · split
      · exact ⟨_, rfl⟩
      · split <;> exact ⟨_, rfl⟩
  · exact ⟨0, fun _ _ => ⟨_, C53_unread hab fun f I hf hp => h ⟨f, I, hf, hp⟩⟩⟩

/-- C41: with a parser to be made from the rules, the generation is refused exactly if the rules are not acceptable, or there are conflicts in strict mode;
the lexer and the name of the output being right. -/
theorem C41_refused_partial (hab : ∀ a ∈ args, ¬ AboutOpt a) {r : Result} (hr : main opens parse fuel args = some r) {file : Text} {I : Input} (hf : Reads opens args file)
    (hp : parse file = some I) (hm : MakesParser args I) (hlex : LexerOk args I) (hn : ¬ NoName args) (hw : Wf I.W) (hb : ∀ n, I.W.node n ≠ some (.action none))
    (hocc : ∀ n o, I.W.node n = some (.op o) → Occurs I.W n) (hl : LeadOk I.W) (hrun : ∃ ignore c, checkRules I fuel ignore = some c) :
    r.success = false ↔ I.W.rules = [] ∨ ¬ Accepted I ∨ (Strict args ∧ Conflicting I fuel) := by
  have hs := (run_read hab hf hp hr).1
  have hr' : RulesOk args I fuel ↔ I.W.rules ≠ [] ∧ Accepted I := by
    obtain ⟨b, c, hc⟩ := hrun
    unfold RulesOk
    rw [← C41_errors_partial hw hb hocc hl hc]
    constructor
    · intro h; exact ⟨(h hm).1, (h hm).2 b c hc⟩
    · rintro ⟨h1, h2⟩ -
      refine ⟨h1, fun b' c' hc' => ?_⟩
      rw [C41_errors_partial hw hb hocc hl hc', ← C41_errors_partial hw hb hocc hl hc]
      exact h2
  rw [← Bool.not_eq_true, hs, hr']
  by_cases h1 : I.W.rules = [] <;> by_cases h2 : Accepted I <;> by_cases h3 : Strict args ∧ Conflicting I fuel <;> simp [h1, h2, h3, hm, hlex, hn]

/-! ### Examples -/

def arg (s : String) : Text := s.toList

/-- The file `g` can be opened, and is `fine`. -/
def openG (t : Text) : Bool := t = arg "g"

def parseFine : Text → Option Input := fun _ => some fine

def goodArgs : List Text := [arg "--output=x", arg "--strict-conflicts", arg "h", arg "--rules", arg "g"]

theorem good_run : main openG parseFine 100 goodArgs = some { success := true, files := [.rules, .parser (arg "x") (arg "x")] } := by decide +kernel

theorem good_about : ∀ a ∈ goodArgs, ¬ AboutOpt a := by
  intro a ha h
  rw [← classify_about] at h
  have : ∀ a ∈ goodArgs, classify a ≠ .about := by decide +kernel
  exact this a ha h

theorem good_reads : Reads openG goodArgs (arg "g") := file_iff.1 (by decide +kernel)

example : ∃ file I, Reads openG goodArgs file ∧ parseFine file = some I ∧ RulesOk goodArgs I 100 ∧ LexerOk goodArgs I ∧
    ¬ (Strict goodArgs ∧ MakesParser goodArgs I ∧ Conflicting I 100) ∧ ¬ NoName goodArgs := (C53_success good_about good_run).1 rfl

example : Wanted goodArgs fine (.parser (arg "x") (arg "x")) := by
  rcases (C53_written good_about good_run good_reads rfl (.parser (arg "x") (arg "x"))).1 (by decide) with (⟨h, -⟩ | ⟨h, -⟩ | ⟨h, -⟩ | ⟨h, -⟩) | ⟨-, h⟩
  · cases h
  · cases h
  · cases h
  · cases h
  · exact h

example : main openG parseFine 100 [arg "--version", arg "--foo"] = some { success := true } := C53_about ⟨arg "--version", by simp, .inr (.inl rfl)⟩

example : main (fun _ => false) parseFine 100 goodArgs = some { success := false } := C53_unread good_about fun f I ⟨_, _, _, _, _, h, _⟩ => by cases h

/-- `(A | A B) -> s`. -/
def sharing : Input where
  W := { heap := [.zero, .term, .term, .term, .cons 1 2, .alt 1 4, .sym, .evolve 5 6], parsed := 8, rules := [7], zero := 0, terminals := [1, 2], start := [6], bnf := fun _ => none }
  D := {}
  eof := 3
  eofs := []
  hasLexer := false
  states := []
  tokenStream := []

def parseSharing : Text → Option Input := fun _ => some sharing

theorem sharing_counts : checkRules sharing 100 false = some { firstFirst := 1 } := by decide +kernel

def strictArgs : List Text := [arg "--output=x", arg "--strict-conflicts", arg "g"]

theorem strict_about : ∀ a ∈ strictArgs, ¬ AboutOpt a := by
  intro a ha h
  rw [← classify_about] at h
  have : ∀ a ∈ strictArgs, classify a ≠ .about := by decide +kernel
  exact this a ha h

theorem strict_makes : MakesParser strictArgs sharing := (parser_iff openG strictArgs).1 (by decide +kernel)

theorem strict_strict : Strict strictArgs := ⟨arg "--strict-conflicts", ⟨[arg "--output=x"], [arg "g"], rfl, .inr (.inl rfl), by
  intro y hy h
  rw [List.mem_singleton] at hy
  subst hy
  exact absurd ((uConflicts_iff _).1.2 h) (by decide +kernel)⟩, rfl⟩

example : ∃ r, main openG parseSharing 100 strictArgs = some r ∧ r.success = false ∧ ∀ l n, File.parser l n ∉ r.files ∧ File.lexer l n ∉ r.files :=
  ⟨{ success := false }, by decide +kernel, C53_refused strict_about (opens := openG) (parse := parseSharing) (fuel := 100) (by decide +kernel) (file := arg "g") (file_iff.1 (by decide +kernel)) rfl
    (.inr (.inr ⟨strict_strict, strict_makes, _, sharing_counts, by decide⟩))⟩

example : main openG parseSharing 100 [arg "g", arg "--strict-conflicts", arg "--output=x"] = main openG parseSharing 100 strictArgs := by
  refine C53_order_partial (args := strictArgs) (by decide +kernel) ?_
  have hk : ∀ a ∈ strictArgs, ∀ b ∈ strictArgs, a ≠ b → (uConflicts a = none ∨ uConflicts b = none) ∧ (uOutput a = none ∨ uOutput b = none) ∧ (uNs a = none ∨ uNs b = none) ∧
      (uParser a = none ∨ uParser b = none) ∧ (uLexer a = none ∨ uLexer b = none) ∧ (uInherit a = none ∨ uInherit b = none) ∧ (openG a = false ∨ openG b = false) := by decide +kernel
  rintro a ha b hb ⟨hab, h⟩
  obtain ⟨k1, k2, k3, k4, k5, k6, k7⟩ := hk a ha b hb hab
  rcases h with ⟨h1, h2⟩ | ⟨h1, h2⟩ | ⟨h1, h2⟩ | ⟨h1, h2⟩ | ⟨h1, h2⟩ | ⟨h1, h2⟩ | ⟨-, -, -, -, h1, h2⟩
  · rcases k1 with k | k
    · exact (uConflicts_iff a).1.2 h1 k
    · exact (uConflicts_iff b).1.2 h2 k
  · rcases k2 with k | k
    · exact (uOutput_iff a).1.2 h1 k
    · exact (uOutput_iff b).1.2 h2 k
  · obtain ⟨s, h1⟩ := h1
    obtain ⟨t, h2⟩ := h2
    rcases k3 with k | k
    · rw [(uValue_iff a s).2.1.2 h1] at k; cases k
    · rw [(uValue_iff b t).2.1.2 h2] at k; cases k
  · rcases k4 with k | k
    · exact (uParser_iff a).1.2 h1 k
    · exact (uParser_iff b).1.2 h2 k
  · rcases k5 with k | k
    · exact (uLexer_iff a).1.2 h1 k
    · exact (uLexer_iff b).1.2 h2 k
  · rcases k6 with k | k
    · exact (uInherit_iff a).1.2 h1 k
    · exact (uInherit_iff b).1.2 h2 k
  · rcases k7 with k | k
    · rw [h1] at k; cases k
    · rw [h2] at k; cases k

example : main openG parseFine 100 ([arg "--output=x"] ++ arg "--debug-visitor" :: [arg "g"]) = main openG parseFine 100 ([arg "--output=x"] ++ [arg "g"]) :=
  C53_style (.inr (.inr (.inr (.inl rfl))))

example : ∃ f0, ∀ fuel, f0 ≤ fuel → ∃ r, main openG parseFine fuel goodArgs = some r := by
  obtain ⟨ha, hn⟩ := (checkRules_ok fine_wf (fine_counts false)).1 rfl
  refine C53_ends goodArgs (fun f I h => ?_) fun f I _ h => absurd h (by decide +kernel)
  cases h
  exact ⟨fine_wf, by decide +kernel, by decide +kernel, of_noBare (by decide +kernel), ha, hn⟩

/-- The operators of `fine`: none. -/
theorem fine_noOps (n : Nat) (o : OpItem) (h : fine.W.node n = some (.op o)) : Occurs fine.W n := by
  exfalso
  have := List.all_eq_true.1 (show (List.range fine.W.heap.length).all (fun n => match fine.W.node n with | some (.op _) => false | _ => true) = true by decide +kernel) n
    (List.mem_range.2 (lt_of_node h))
  rw [h] at this
  cases this

example : true = false ↔ fine.W.rules = [] ∨ ¬ Accepted fine ∨ (Strict goodArgs ∧ Conflicting fine 100) := by
  obtain ⟨file, I, hf, hp, -, h2, -, h3⟩ := (C53_success good_about good_run).1 rfl
  cases hp
  exact C41_refused_partial good_about good_run good_reads rfl ((parser_iff openG goodArgs).1 (by decide +kernel)) h2 h3 fine_wf (of_noBare (by decide +kernel)) fine_noOps
    fine_lead.1 ⟨false, {}, fine_counts false⟩

/-! ### Where the claim fails -/

/-- C53 fails: the order matters for arguments that clash. -/
theorem C53_fails_order : main openG parseSharing 100 [arg "g", arg "--new-visitor=V", arg "--strict-conflicts"] = some { success := false } ∧
    main openG parseSharing 100 [arg "g", arg "--strict-conflicts", arg "--new-visitor=V"] = some { success := true, files := [.visitor (arg "V") false] } ∧
    main openG parseFine 100 [arg "g", arg "--output=x", arg "--no-output"] = some { success := true } ∧
    main openG parseFine 100 [arg "g", arg "--no-output", arg "--output=x"] = some { success := true, files := [.parser (arg "x") (arg "x")] } := by
  refine ⟨?_, ?_, ?_, ?_⟩ <;> decide +kernel

/-- C53 fails: without the name of the output the program fails, though there is neither an error nor a conflict. -/
theorem C53_fails_no_name : checkRules fine 100 false = some {} ∧ main openG parseFine 100 [arg "g"] = some { success := false } ∧
    main openG parseFine 100 [arg "g", arg "--automata"] = some { success := false, files := [.automata] } := by
  refine ⟨fine_counts false, ?_, ?_⟩ <;> decide +kernel

/-- If something is dumped, the output gets an empty name. -/
theorem C53_fails_empty_name : main openG parseFine 100 [arg "g", arg "--terminals"] = some { success := true, files := [.terminals, .parser [] []] } := by decide +kernel

/-- A lexer with one state. -/
def withLexer : Input := { fine with hasLexer := true, states := [arg "start"], tokenStream := arg "Lexer" }

/-- C53 fails: `--automata` with `--no-lexer` crashes if there is a lexer in the file. -/
theorem C53_fails_automata : main openG (fun _ => some withLexer) 100 [arg "g", arg "--output=x", arg "--automata", arg "--no-lexer"] = none ∧
    main openG (fun _ => some withLexer) 100 [arg "g", arg "--output=x", arg "--automata"] =
      some { success := true, files := [.automata, .parser (arg "x") (arg "x"), .lexer (arg "x") (arg "x")] } := by
  refine ⟨?_, ?_⟩ <;> decide +kernel

end Verif.Main
