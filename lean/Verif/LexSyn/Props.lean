import Verif.LexSyn.Print
import Verif.LexSyn.Rules
import Verif.LexSyn.Faithful
import Verif.LexSyn.Envs
import Verif.LexSyn.Known
import Verif.Enc.Sets

set_option linter.unusedSectionVars false

/-!
# Lexer sections: reading, writing, meaning, tables

* C91: regular expressions and lexer sections have one reading.
* C92: every expression can be written, and operators bind in a fixed order.
* C93: the automaton of a written expression matches what it says.
* C94: the tables of rules and actions correspond.
-/

namespace Verif.LexSyn

open Verif.Auto Verif.Utf Verif.Utf.Spec Verif.Enc Verif.CharSet

variable {C : Type}

/-! ## C91 -/

/-- C91: with Bison's choices a list of tokens is read as at most one expression. -/
theorem C91_one_reading {b : Bool} {ts : List Tok} {x y : E} (h : D true b .alt ts x) (h' : D true b .alt ts y) : x = y := unique h h'

/-- `a | b* c @ d`. -/
example : D true false .alt [.unq [97], .bar, .unq [98], .star, .unq [99], .at_, .unq [100]]
    (.alt (.word [97]) (.cat (.star (.word [98])) (.sepBy (.word [99]) (.word [100])))) :=
  .alt (ts := [.unq [97]]) (.altOne (.andOne (.butOne (.preOne (.seqOne (.sepOne (.repOne .word)))))))
    (.andOne (.butOne (.preOne (.cat (ts := [.unq [98], .star]) (.seqOne (.sepOne (.star (ts := [.unq [98]]) (.repOne .word))))
      (.sep (ts := [.unq [99]]) (.sepOne (.repOne .word)) (.repOne .word)) fun _ => ⟨rfl, rfl⟩))))

/-- C91: by the choices no text is lost: what the productions derive at all is still read. -/
theorem C91_nothing_lost (b : Bool) (n : Lv) (ts : List Tok) : (∃ x, D false b n ts x) ↔ ∃ x, D true b n ts x :=
  ⟨fun ⟨_, h⟩ => resolve h, fun ⟨_, h⟩ => ⟨_, h.weaken⟩⟩

/-- C91: without the choices the productions are ambiguous: `a *` is the iteration of `a`, or `a` followed by the iteration of nothing. -/
theorem C91_ambiguous (s : Text) : D false false .alt [.unq s, .star] (.star (.word s)) ∧ D false false .alt [.unq s, .star] (.cat (.word s) (.star .eps)) :=
  ⟨.altOne (.andOne (.butOne (.preOne (.seqOne (.sepOne (.star (ts := [.unq s]) (.repOne .word))))))),
    .altOne (.andOne (.butOne (.preOne (.cat (ts := [.unq s]) (us := [.star]) (.seqOne (.sepOne (.repOne .word)))
      (.sepOne (.star (ts := []) (.repOne .eps))) (by simp)))))⟩

/-- C91: a section is read in at most one way, and it is clear where it ends: at the `;` that closes it. -/
theorem C91_section {us vs r s : List Tok} {ds es : List Decl} (h : Ds true us ds) (h' : Ds true vs es) (e : us ++ .semi :: r = vs ++ .semi :: s) :
    ds = es ∧ us = vs ∧ r = s := section_unique h h' e

/-- `a -> x ; {x} %la( b ) [: c :] T ; ;`. -/
example : Ds true [.unq [97], .arrow, .ident [120], .semi, .named [120], .la, .lp, .unq [98], .rp, .code [99], .term [84], .semi]
    [.define [120] (.word [97]), .rule (.named [120]) (.lookahead (.word [98])) [99] (.terminal [84])] :=
  .define (ts := [.unq [97]]) (.altOne (.andOne (.butOne (.preOne (.seqOne (.sepOne (.repOne .word)))))))
    (.lookahead (ts := [.named [120]]) (vs := [.unq [98]]) (cs := [.code [99]]) (as := [.term [84]])
      (.altOne (.andOne (.butOne (.preOne (.seqOne (.sepOne (.repOne .named)))))))
      (.altOne (.andOne (.butOne (.preOne (.seqOne (.sepOne (.repOne .word))))))) .some .terminal .nil)

/-- C91: a rule with nothing in it is not read as one: the section ends there. -/
theorem C91_empty_rule : Ds false [.semi] [.rule .eps .nothing [] .skip] ∧ ¬ ∃ ds r, Ds true (.semi :: r) ds := by
  constructor
  · exact .rule (ts := []) (cs := []) (as := []) (us := []) (.altOne (.andOne (.butOne (.preOne (.seqOne (.sepOne (.repOne .eps))))))) .none .skip (by simp) .nil
  · rintro ⟨ds, r, h⟩
    obtain ⟨_, h, _⟩ := section_unique (r := r ++ [.semi]) (s := []) (us := []) .nil h (by simp)
    cases h

/-- C91: a descent parser that always goes on where it can reads exactly these expressions. -/
theorem C91_descent {b : Bool} {ts : List Tok} {x : E} : D true b .alt ts x ↔ ∃ F, ∀ fuel, F ≤ fuel → pAlt fuel b ts = some (x, []) := by
  have := reads_iff (b := b) (ts := ts) (x := x) (rest := []) rfl (by simp)
  rw [List.append_nil] at this
  exact this

/-! ## C92 -/

/-- C92: each expression, written with parentheses only where the table of strengths demands them, is read as itself and as nothing else. -/
theorem C92_written (b : Bool) (x y : E) : D true b .alt (Spec.text b x) y ↔ y = x :=
  have h : D true b .alt (Spec.text b x) x := (written b x).reads.le (Nat.zero_le _)
  ⟨fun h' => unique h' h, fun e => e ▸ h⟩

/-- Eight tokens with all priorities: `~a & b ^ c d*`. -/
example : Spec.text false (.and (.neg (.word [97])) (.but (.word [98]) (.cat (.word [99]) (.star (.word [100]))))) =
    [.tilde, .unq [97], .amp, .unq [98], .hat, .unq [99], .unq [100], .star] := by decide

/-- The same within brackets: the concatenation and the words need parentheses. -/
example : Spec.text true (.and (.neg (.word [97])) (.but (.coll [98]) (.cat (.word [99]) (.star (.word [100]))))) =
    [.tilde, .lp, .unq [97], .rp, .amp, .unq [98], .hat, .lp, .unq [99], .unq [100], .star, .rp] := by decide

/-- C92: `~` and `?` are refused behind anything but the beginning, `|`, `&`, `^`, `~`, `?`, `(` and `[`; even by the productions without Bison's choices. -/
theorem C92_prefix {o b : Bool} {p q : List Tok} {u t : Tok} (ht : t = .tilde ∨ t = .opt) (hu : ¬ Spec.Before u) : ¬ ∃ x, D o b .alt (p ++ u :: t :: q) x := by
  rintro ⟨x, h⟩
  rcases placed h (p ++ [u]) t q (by simp) ht with ⟨_, h⟩ | ⟨p', v, h, hv⟩
  · simp at h
  · have := (List.append_inj' h rfl).2
    cases this
    exact hu hv

/-- `a ~b`. -/
example : ¬ ∃ x, D true false .alt [.unq [97], .tilde, .unq [98]] x := C92_prefix (p := []) (Or.inl rfl) (by simp [Spec.Before])

/-- C92: juxtaposed tokens that are expressions by themselves are concatenated outside brackets and united inside, from left to right. -/
theorem C92_juxtaposition {b : Bool} {t : Tok} {x : E} {us : List (Tok × E)} (h : Spec.Single b t x) (hu : ∀ p ∈ us, Spec.Single b p.1 p.2) (y : E) :
    D true b .alt (t :: us.map (·.1)) y ↔ y = us.foldl (fun y p => if b then .alt y p.2 else .cat y p.2) x := by
  have h : D true b .alt (t :: us.map (·.1)) (us.foldl (fun y p => if b then .alt y p.2 else .cat y p.2) x) :=
    .altOne (.andOne (.butOne (.preOne (sequence (ts := [t]) (.seqOne (.sepOne (.repOne h.atom))) h.begins.2 hu))))
  exact ⟨fun h' => unique h' h, fun e => e ▸ h⟩

example : Spec.Single false .dot .dot ∧ (∀ p ∈ [(Tok.str [97], E.str [97]), (.unq [98], .word [98])], Spec.Single false p.1 p.2) := by
  refine ⟨.dot, ?_⟩
  intro p hp
  simp only [List.mem_cons, List.not_mem_nil, or_false] at hp
  rcases hp with rfl | rfl
  · exact .str
  · exact .unq

/-- C92: `[^abc]` is not the complement of a collection: it is the empty word minus the characters, so exactly the empty word (if no character has an empty encoding). -/
theorem C92_no_complement (s : Text) (x : E) : (D true false .alt [.lb, .hat, .unq s, .rb] x ↔ x = .but .eps (.coll s)) ∧
    ∀ K size N, (∀ c, K.enc c ≠ []) → ∀ w, Spec.den K size N (.but .eps (.coll s)) w ↔ w = [] := by
  have h : D true false .alt [.lb, .hat, .unq s, .rb] (.but .eps (.coll s)) :=
    .altOne (.andOne (.butOne (.preOne (.seqOne (.sepOne (.repOne (.bracket (ts := [.hat, .unq s])
      (.altOne (.andOne (.but (ts := []) (.preOne (.seqOne (.sepOne (.repOne .eps)))) (.butOne (.preOne (.seqOne (.sepOne (.repOne .coll))))))))))))))) 
  refine ⟨⟨fun h' => unique h' h, fun e => e ▸ h⟩, ?_⟩
  intro K size N hK w
  constructor
  · exact fun h => h.1
  · rintro rfl
    exact ⟨rfl, fun ⟨c, _, hc⟩ => hK c hc.symm⟩

example : (∀ c, (fixed (fun s => s) 128).enc c ≠ []) := by simp [fixed]

/-! ## C93 -/

section
variable [CharSetLike C]

/-- C93: what was used before makes no difference.  Whichever of the definitions have been minimised by an earlier use, an expression gets the automaton it would get with the definitions written
out in place of the names. -/
theorem C93_names {A : Chars C} {order : List Bits → List Bits} {fuel : Nat} {ns : Text → Option (Rx C)} {x : E} {a : Rx C} (h : Resolves A ns x a)
    {st : Store C} (hi : Inv order fuel st ns) :
    (∀ n, a.build order fuel = some n → ∃ st', build A order fuel x st = .ok (n, st') ∧ Inv order fuel st' ns) ∧
      (a.build order fuel = none → build A order fuel x st = .stuck) := by
  have := build_agrees h hi
  constructor
  · intro n hn; rw [hn] at this; exact this
  · intro hn; rw [hn] at this; exact this

/-- C93: names have to be defined before they are used: if an expression is built all names in it are known, and `exit(-1)` is called only where one is not. -/
theorem C93_known {A : Chars C} {order : List Bits → List Bits} {fuel : Nat} (x : E) (st : Store C) :
    (∀ n st', build A order fuel x st = .ok (n, st') → Spec.Closed (fun s => st s ≠ none) x) ∧
      (build A order fuel x st = .exit → ¬ Spec.Closed (fun s => st s ≠ none) x) :=
  ⟨fun n st' h => ((build_known x st).1 n st' h).1, (build_known x st).2⟩

example {A : Chars C} {order : List Bits → List Bits} {fuel : Nat} : build A order fuel (.alt .eps (.named [120])) (fun _ => none) = .exit := rfl

/-- C93 (partial): all sections of a file together.  If names are defined before use, all iterations are safe (`Spec.Safe`), the texts are in the part of the encoding that is handled rightly
(`FaithfulAll`, see below), and there are neither lookaheads nor barriers, then the sections are read without error, and the rules of each rule set match exactly the words the
expressions denote, a name standing for its last definition before.  `uni` loads the definitions of Unicode classes in `st0`, which match `N`.  Missing: rules with
lookahead or barrier (C54, C58, C94), the other iterations (`C93_fails_star`), and the other texts (C25-C29). -/
theorem C93_file_partial {A : Chars C} {K : Spec.Reading} (hK : K.Bounded) (order : List Bits → List Bits) (ho : Enumerates order) (uni : Store C → Out (Store C)) (st0 : Store C)
    (N : Text → Lang) (hst : ∀ s d, st0 s = some d → d.ready = false ∧ d.nfa.Wf ∧ ∀ w, d.nfa.Lang w ↔ N s w) (ss : List (Option Text × List Decl))
    (hu : (∃ ds ss', ss = (none, ds) :: ss') ∧ uni (fun _ => none) = .ok st0 ∨ (∀ p ∈ ss, p.1 ≠ none) ∧ st0 = fun _ => none)
    (hf : ∀ p ∈ ss, FaithfulAll A K p.2) (hp : ∀ p ∈ ss, Spec.PlainAll p.2) (hc : Spec.ClosedFile (fun s => st0 s ≠ none) ss)
    (hs : Spec.SafeFile K (CharSetLike.size C) N ss) :
    ∃ F, ∀ fuel, F ≤ fuel → ∃ sys', execFile A order fuel uni Sys.init ss = .ok sys' ∧
      ∀ e, List.Forall₂ (fun n L => n.Wf ∧ ∀ w, n.Lang w ↔ L w) (sys'.envs e).rules (Spec.fileLangs K (CharSetLike.size C) e N ss) := by
  classical
  let ns : Text → Option (Rx C) := fun s => match st0 s with
    | none => none
    | some d => if h : d.nfa.Wf then some (.leaf d.nfa h) else none
  have hns : ∀ s, (st0 s = none ∧ ns s = none) ∨ ∃ d, ∃ h : d.nfa.Wf, st0 s = some d ∧ ns s = some (.leaf d.nfa h) := by
    intro s
    simp only [ns]
    cases hd : st0 s with
    | none => exact Or.inl ⟨rfl, rfl⟩
    | some d => exact Or.inr ⟨d, (hst s d hd).2.1, rfl, by simp [(hst s d hd).2.1]⟩
  have hi : ∀ fuel, Inv order fuel st0 ns := by
    intro fuel
    constructor
    · intro s h
      rcases hns s with ⟨h1, _⟩ | ⟨d, hd, _, h2⟩
      · exact h1
      · rw [h2] at h; cases h
    · intro s a h
      rcases hns s with ⟨_, h1⟩ | ⟨d, hd, h1, h2⟩
      · rw [h1] at h; cases h
      · rw [h2] at h; cases h
        exact ⟨d, h1, by rw [(hst s d h1).1]; rfl⟩
  obtain ⟨F, h1⟩ := file_matches (ns := ns) (kn := fun s => st0 s ≠ none) ho hK uni ss hf hp (by
      intro s h
      rcases hns s with ⟨h1, _⟩ | ⟨d, hd, _, h2⟩
      · exact absurd h1 h
      · rw [h2]; simp) (N := N) (by
      intro s a h w
      rcases hns s with ⟨_, h1⟩ | ⟨d, hd, h1, h2⟩
      · rw [h1] at h; cases h
      · rw [h2] at h; cases h
        exact (hst s d h1).2.2 w) (by
      intro s a h
      rcases hns s with ⟨_, h1⟩ | ⟨d, hd, h1, h2⟩
      · rw [h1] at h; cases h
      · rw [h2] at h; cases h; trivial) hc hs
  refine ⟨F, fun fuel hfu => ?_⟩
  rcases hu with ⟨⟨ds, ss', rfl⟩, hu⟩ | ⟨hu, he⟩
  · obtain ⟨sys', rs, e, g1, g2⟩ := h1 fuel hfu ⟨st0, fun _ => ⟨[], [], [], []⟩, true⟩ (hi fuel) (Or.inl rfl)
    refine ⟨sys', ?_, fun e => ?_⟩
    · simp only [execFile, execSection, Sys.init, Bool.false_eq_true, if_false, hu, Out.bind]
      exact e
    · rw [g1]; exact g2 e
  · obtain ⟨sys', rs, e, g1, g2⟩ := h1 fuel hfu Sys.init (by rw [he] at hi; exact hi fuel) (Or.inr hu)
    exact ⟨sys', e, fun e => by rw [g1]; exact g2 e⟩

end

/-! Texts in the encodings: `Texts` gives the conditions on words, collections and ranges. -/

/-- Texts in ASCII without escapes stand for themselves. -/
theorem denotes_ascii {K : Spec.Reading} (s : Text) (hk : K.chars s = s := by rfl) (h : Text.unescaped s = s := by decide +kernel) (hc : ∀ c ∈ s, c < 128 := by decide) :
    Denotes K s := by
  refine ⟨?_, fun c h => ?_⟩
  · rw [h, hk]; exact (encode16_self s fun c hc' => by have := hc c hc'; omega).symm
  · rw [hk] at h; have := hc c h; simp only [Scalar]; omega

/-- Such texts meet the conditions of all encodings: here `[0-9] (ab | [xyz])`. -/
theorem texts_example {K : Spec.Reading} {W L R : List Nat → Prop} (hk : ∀ s, K.chars s = s) (hw : W [97, 98]) (hl : L [120, 121, 122]) (hr : R [48, 45, 57]) :
    Texts K W L R (.cat (.range [48, 45, 57]) (.alt (.word [97, 98]) (.coll [120, 121, 122]))) :=
  ⟨⟨denotes_ascii _ (hk _), by rw [hk]; exact hr⟩, ⟨denotes_ascii _ (hk _), by rw [hk]; exact hw⟩, ⟨denotes_ascii _ (hk _), by rw [hk]; exact hl⟩⟩

section
variable [RangeSet C]

/-- C93, ASCII: all texts in ASCII. -/
theorem C93_ascii (hsz : CharSetLike.size C = 128) (cf : Text → List Nat) {x : E}
    (h : Texts (fixed cf 128) (∀ c ∈ ·, c < 128) (∀ c ∈ ·, c < 128) (IsRange fun _ _ => True) x) :
    Faithful (chars asciiNext (rangeFixed : Nat → Nat → Option (NFA C)) (some anyFixed)) (fixed cf 128) x := faithful_ascii hsz cf h

/-- C93, Latin-1 (partial): words in ASCII, collections and ranges in Latin-1. -/
theorem C93_latin1_partial (hsz : CharSetLike.size C = 256) (cf : Text → List Nat) {x : E}
    (h : Texts (fixed cf 256) (∀ c ∈ ·, c < 128) (∀ c ∈ ·, c < 256) (IsRange fun _ _ => True) x) :
    Faithful (chars Enc.unit (rangeFixed : Nat → Nat → Option (NFA C)) (some anyFixed)) (fixed cf 256) x := faithful_latin1 hsz cf h

example : Texts (fixed (fun s => s) 256) (∀ c ∈ ·, c < 128) (∀ c ∈ ·, c < 256) (IsRange fun _ _ => True) (.cat (.range [48, 45, 57]) (.alt (.word [97, 98]) (.coll [120, 121, 122]))) :=
  texts_example (fun _ => rfl) (by decide) (by decide) ⟨48, 57, rfl, trivial⟩

/-- C93, UCS-2 (partial): words of characters of the BMP that are not dropped, collections and ranges in the BMP. -/
theorem C93_ucs2_partial (hsz : CharSetLike.size C = 65536) (cf : Text → List Nat) {x : E}
    (h : Texts (fixed cf 65536) (∀ c ∈ ·, ¬ Dropped c ∧ c < 65536) (∀ c ∈ ·, c < 65536) (IsRange fun _ _ => True) x) :
    Faithful (chars ucs2Next (rangeFixed : Nat → Nat → Option (NFA C)) (some anyFixed)) (fixed cf 65536) x := faithful_ucs2 hsz cf h

example : Texts (fixed (fun s => s) 65536) (∀ c ∈ ·, ¬ Dropped c ∧ c < 65536) (∀ c ∈ ·, c < 65536) (IsRange fun _ _ => True) (.cat (.range [48, 45, 57]) (.alt (.word [97, 98]) (.coll [120, 121, 122]))) :=
  texts_example (fun _ => rfl) (by simp [Dropped]) (by decide) ⟨48, 57, rfl, trivial⟩

/-- C93, UCS-4 (partial): words of characters that are not dropped. -/
theorem C93_ucs4_partial (hsz : CharSetLike.size C = 0x110000) (cf : Text → List Nat) {x : E}
    (h : Texts (fixed cf 0x110000) (∀ c ∈ ·, ¬ Dropped c) (fun _ => True) (IsRange fun _ _ => True) x) :
    Faithful (chars ucs4Next (rangeUcs4 : Nat → Nat → Option (NFA C)) (some anyFixed)) (fixed cf 0x110000) x := faithful_ucs4 hsz cf h

example : Texts (fixed (fun s => s) 0x110000) (∀ c ∈ ·, ¬ Dropped c) (fun _ => True) (IsRange fun _ _ => True) (.cat (.range [48, 45, 57]) (.alt (.word [97, 98]) (.coll [120, 121, 122]))) :=
  texts_example (fun _ => rfl) (by simp [Dropped]) trivial ⟨48, 57, rfl, trivial⟩

/-- C93, UTF-8 (partial): all words; collections without the last character of groups of four planes; ranges as in `C27_range_partial`. -/
theorem C93_utf8_partial (hsz : CharSetLike.size C = 256) (cf : Text → List Nat) {x : E}
    (h : Texts (readUtf8 cf) (fun _ => True) (∀ c ∈ ·, c < 0x10000 ∨ c % 0x40000 ≠ 0x3ffff)
      (IsRange fun b e => b ≤ e ∧ Utf8Ok b (e + 1) ∧ (e < 0xd800 ∨ 0xe000 ≤ b)) x) :
    Faithful (chars Enc.unit (rangeUtf8 : Nat → Nat → Option (NFA C)) anyUtf8) (readUtf8 cf) x := faithful_utf8 hsz cf h

example : Texts (readUtf8 fun s => s) (fun _ => True) (∀ c ∈ ·, c < 0x10000 ∨ c % 0x40000 ≠ 0x3ffff) (IsRange fun b e => b ≤ e ∧ Utf8Ok b (e + 1) ∧ (e < 0xd800 ∨ 0xe000 ≤ b)) (.cat (.range [48, 45, 57]) (.alt (.word [97, 98]) (.coll [120, 121, 122]))) :=
  texts_example (fun _ => rfl) trivial (by decide) ⟨48, 57, rfl, by omega, by simp [Utf8Ok], by omega⟩

/-- C93, UTF-16 (partial): words in the BMP; collections and ranges as in `C59_utf16_partial`, `C28_range_partial`; the dot stands for characters of the BMP only. -/
theorem C93_utf16_partial (hsz : CharSetLike.size C = 65536) (order : List Bits → List Bits) (ho : Enumerates order) :
    ∃ F, ∀ fuel, F ≤ fuel → ∀ (cf : Text → List Nat) {x : E},
      Texts (readUtf16 cf) (∀ c ∈ ·, ¬ Dropped c ∧ c < 65536) (∀ c ∈ ·, c < 0x10000 ∨ c % 1024 ≠ 0 ∧ c % 1024 ≠ 1023)
        (IsRange fun b e => Utf16Ok b (e + 1)) x →
      Faithful (chars ucs2Next (rangeUtf16 : Nat → Nat → Option (NFA C)) (anyUtf16 order fuel)) (readUtf16 cf) x := faithful_utf16 hsz order ho

example : Texts (readUtf16 fun s => s) (∀ c ∈ ·, ¬ Dropped c ∧ c < 65536) (∀ c ∈ ·, c < 0x10000 ∨ c % 1024 ≠ 0 ∧ c % 1024 ≠ 1023) (IsRange fun b e => Utf16Ok b (e + 1)) (.cat (.range [48, 45, 57]) (.alt (.word [97, 98]) (.coll [120, 121, 122]))) :=
  texts_example (fun _ => rfl) (by simp [Dropped]) (by decide) ⟨48, 57, rfl, by simp [Utf16Ok]⟩

/-- C93 fails for iterations that begin with one: `( a* b )*`, where `a` and `b` are any two characters, is built so that it matches the word `a`. -/
theorem C93_fails_star {A : Chars C} {K : Spec.Reading} {s t : Text} {a b : Nat} (hab : a ≠ b) (hs : (K.chars s).flatMap K.enc = [a]) (ht : (K.chars t).flatMap K.enc = [b])
    (hA : Faithful A K (.cat (.word s) (.word t))) (order : List Bits → List Bits) (fuel : Nat) (st : Store C) (N : Text → Lang) :
    ∃ x, D true false .alt [.lp, .unq s, .star, .unq t, .rp, .star] x ∧ (∃ n, build A order fuel x st = .ok (n, st) ∧ n.Lang [a]) ∧
      ¬ Spec.den K (CharSetLike.size C) N x [a] := by
  refine ⟨.star (.cat (.star (.word s)) (.word t)), ?_, ?_, ?_⟩
  · have h1 : D true false .sep [.unq s, .star] (.star (.word s)) := .sepOne (.star (ts := [.unq s]) (.repOne .word))
    have h2 : D true false .seq [.unq s, .star, .unq t] (.cat (.star (.word s)) (.word t)) :=
      .cat (ts := [.unq s, .star]) (.seqOne h1) (.sepOne (.repOne .word)) fun _ => ⟨rfl, rfl⟩
    have h3 : D true false .atom [.lp, .unq s, .star, .unq t, .rp] (.cat (.star (.word s)) (.word t)) :=
      .paren (ts := [.unq s, .star, .unq t]) (.altOne (.andOne (.butOne (.preOne h2))))
    exact .altOne (.andOne (.butOne (.preOne (.seqOne (.sepOne (.star (ts := [.lp, .unq s, .star, .unq t, .rp]) (.repOne h3)))))))
  · obtain ⟨⟨n, h1, h2, h3⟩, ⟨m, g1, g2, g3⟩⟩ := hA
    obtain ⟨n', h4, h5, h6⟩ := star_spec h2
    obtain ⟨c, h7, h8, h9⟩ := concat_spec h5 g2
    obtain ⟨r, i1, i2, i3⟩ := star_spec h8
    refine ⟨r, by simp [build, one, two, h1, g1, h4, h7, i1, lift, Out.bind], (i3 _).mpr (Star.one (Or.inr ?_))⟩
    rw [loop_concat h5 g2 h7, loop_star h2 h4, h6]
    exact Star.one (Or.inl ((h3 _).mpr hs.symm))
  · intro h
    have key : ∀ w, Star (Cat (Star fun w => w = (K.chars s).flatMap K.enc) fun w => w = (K.chars t).flatMap K.enc) w → w = [] ∨ b ∈ w := by
      intro w hw
      induction hw with
      | nil => exact Or.inl rfl
      | app hu _ _ =>
        obtain ⟨u, v, rfl, _, rfl⟩ := hu
        rw [ht]
        exact Or.inr (by simp)
    rcases key _ h with h' | h'
    · cases h'
    · simp at h'; exact hab h'.symm

/-- ASCII. -/
abbrev asciiChars : Chars (Table 128) := chars asciiNext rangeFixed (some anyFixed)

/-- `[0-9]`, `ab` and `[xyz]` in ASCII. -/
theorem ascii_example : Faithful asciiChars (fixed (fun s => s) 128) (.cat (.range [48, 45, 57]) (.alt (.word [97, 98]) (.coll [120, 121, 122]))) := by
  apply C93_ascii rfl
  exact texts_example (fun _ => rfl) (by decide) (by decide) ⟨48, 57, rfl, trivial⟩

example : ∃ x, D true false .alt [.lp, .unq [97], .star, .unq [98], .rp, .star] x ∧
    (∃ n, build asciiChars List.dedup 0 x (fun _ => none) = .ok (n, fun _ => none) ∧ n.Lang [97]) ∧ ¬ Spec.den (fixed (fun s => s) 128) 128 (fun _ _ => False) x [97] :=
  C93_fails_star (C := Table 128) (A := asciiChars) (K := fixed (fun s => s) 128) (s := [97]) (t := [98]) (a := 97) (b := 98) (by decide) rfl rfl
    (C93_ascii rfl _ ⟨⟨denotes_ascii _, by decide⟩, ⟨denotes_ascii _, by decide⟩⟩) List.dedup 0 _ _

/-- A section: `[0-9]+ -> num ; {num} NUM ; {num} . {num} FLOAT ;`. -/
def numSection : List Decl :=
  [.define [110] (.plus (.range [48, 45, 57])), .rule (.named [110]) .nothing [] (.terminal [78]), .rule (.cat (.named [110]) (.cat (.str [46]) (.named [110]))) .nothing [] (.terminal [70])]

theorem num_lang (w : List Nat) : Spec.den (fixed (fun s => s) 128) 128 (fun _ _ => False) (.plus (.range [48, 45, 57])) w ↔ w ≠ [] ∧ ∀ c ∈ w, 48 ≤ c ∧ c ≤ 57 := by
  have one : ∀ w, Spec.den (fixed (fun s => s) 128) 128 (fun _ _ => False) (.range [48, 45, 57]) w ↔ ∃ c, w = [c] ∧ 48 ≤ c ∧ c ≤ 57 := by
    intro w
    simp only [Spec.den, fixed]
    constructor
    · rintro ⟨b, e, c, h, h1, h2, h3, h4⟩
      simp only [List.cons.injEq] at h
      obtain ⟨rfl, _, rfl, _⟩ := h
      exact ⟨c, h4, h1, h2⟩
    · rintro ⟨c, rfl, h1, h2⟩
      exact ⟨48, 57, c, rfl, h1, h2, by omega, rfl⟩
  have all : ∀ w, Star (Spec.den (fixed (fun s => s) 128) 128 (fun _ _ => False) (.range [48, 45, 57])) w ↔ ∀ c ∈ w, 48 ≤ c ∧ c ≤ 57 := by
    intro w
    constructor
    · intro h
      induction h with
      | nil => simp
      | app hu _ ih =>
        obtain ⟨c, rfl, hc⟩ := (one _).1 hu
        simpa using ⟨hc, ih⟩
    · intro h
      induction w with
      | nil => exact .nil
      | cons c w ih => exact Star.app (u := [c]) ((one _).2 ⟨c, rfl, h c List.mem_cons_self⟩) (ih fun d hd => h d (List.mem_cons_of_mem _ hd))
  constructor
  · rintro ⟨u, v, rfl, hu, hv⟩
    obtain ⟨c, rfl, hc⟩ := (one _).1 hu
    refine ⟨by simp, ?_⟩
    simpa using ⟨hc, (all _).1 hv⟩
  · rintro ⟨h1, h2⟩
    cases w with
    | nil => exact absurd rfl h1
    | cons c w => exact ⟨[c], w, rfl, (one _).2 ⟨c, rfl, h2 c List.mem_cons_self⟩, (all _).2 fun d hd => h2 d (List.mem_cons_of_mem _ hd)⟩

/-- The conditions of `C93_file_partial` hold of the section, in ASCII, and its two rules are built. -/
example : ∃ F, ∀ fuel, F ≤ fuel → ∃ sys', execFile asciiChars List.dedup fuel (fun _ => .stuck) Sys.init [(some [115], numSection)] = .ok sys' ∧
    (sys'.envs [115]).rules.length = 2 ∧ ∃ n, (sys'.envs [115]).rules[0]? = some n ∧ ∀ w, n.Lang w ↔ w ≠ [] ∧ ∀ c ∈ w, 48 ≤ c ∧ c ≤ 57 := by
  obtain ⟨F, h⟩ := C93_file_partial (C := Table 128) (A := asciiChars) (K := fixed (fun s => s) 128) ⟨⟨1, by simp [fixed], by
      rintro w ⟨c, rfl, _⟩; simp⟩, ⟨[0], 0, rfl, by omega⟩⟩ List.dedup enumerates_dedup (fun _ => .stuck) (fun _ => none) (fun _ _ => False) (by simp)
    [(some [115], numSection)] (Or.inr ⟨by simp, rfl⟩) (by
      intro p hp
      simp only [List.mem_singleton] at hp
      subst hp
      have hr := ascii_example.1
      have hd : Faithful asciiChars (fixed (fun s => s) 128) (.str [46]) := C93_ascii rfl _ ⟨denotes_ascii _, by decide⟩
      intro d hd'
      simp only [numSection, List.mem_cons, List.not_mem_nil, or_false] at hd'
      rcases hd' with rfl | rfl | rfl
      · exact ⟨fun s x h => (by cases h; exact hr), fun x y c t h => (by cases h)⟩
      · exact ⟨fun s x h => (by cases h), fun x y c t h => (by cases h; trivial)⟩
      · exact ⟨fun s x h => (by cases h), fun x y c t h => (by cases h; exact ⟨trivial, hd, trivial⟩)⟩) (by
      intro p hp
      simp only [List.mem_singleton] at hp
      subst hp
      intro d hd x y c t h
      simp only [numSection, List.mem_cons, List.not_mem_nil, or_false] at hd
      rcases hd with rfl | rfl | rfl <;> cases h <;> rfl) (by
      refine ⟨⟨fun s x h => (by cases h; trivial), fun x y c t h => (by cases h), ⟨fun s x h => (by cases h), fun x y c t h => (by cases h; exact Or.inl rfl), ?_⟩⟩, trivial⟩
      exact ⟨fun s x h => (by cases h), fun x y c t h => (by cases h; exact ⟨Or.inl rfl, trivial, Or.inl rfl⟩), trivial⟩) (by
      have hn : ∃ w v, ¬ Spec.redefine (fun _ _ => False) [110] (Spec.den (fixed (fun s => s) 128) 128 (fun _ _ => False) (.plus (.range [48, 45, 57]))) [110] w ∧
          Spec.redefine (fun _ _ => False) [110] (Spec.den (fixed (fun s => s) 128) 128 (fun _ _ => False) (.plus (.range [48, 45, 57]))) [110] (w ++ v) := by
        simp only [Spec.redefine, if_true]
        exact ⟨[], [48], fun h => ((num_lang _).1 h).1 rfl, (num_lang _).2 (by simp)⟩
      exact ⟨⟨⟨trivial, Or.inl ⟨48, 57, 48, rfl, by omega, by omega, by simp [fixed]⟩⟩, hn, ⟨hn, trivial, hn⟩, trivial⟩, trivial⟩)
  refine ⟨F, fun fuel hf => ?_⟩
  obtain ⟨sys', e, g⟩ := h fuel hf
  refine ⟨sys', e, ?_⟩
  have := g [115]
  simp only [Spec.fileLangs, Spec.target, Option.getD_some, if_true, numSection, Spec.ruleLangs, List.append_nil] at this
  cases hr : (sys'.envs [115]).rules with
  | nil => rw [hr] at this; cases this
  | cons n rs =>
    rw [hr] at this
    obtain ⟨⟨h1, h2⟩, h3⟩ := List.forall₂_cons.1 this
    refine ⟨by simpa using h3.length_eq, n, rfl, fun w => (h2 w).trans ?_⟩
    exact num_lang w

end

/-! ## C94 -/

section
variable [CharSetLike C]

/-- C94: after all sections of a file have been read, the tables of each rule set hold the rules of all its sections in order, each with its code; the first action is the last `%fail` (by default
a message and `exit`), and the codes for entering and leaving are the last ones given.  A rule set without section has empty tables. -/
theorem C94_tables {A : Chars C} {order : List Bits → List Bits} {fuel : Nat} {uni : Store C → Out (Store C)} {ss : List (Option Text × List Decl)} {sys : Sys C}
    (h : execFile A order fuel uni Sys.init ss = .ok sys) (e : Text) :
    (∃ gs : List (List (NFA C × Text)), List.Forall₂ (fun d g => Spec.Gives d (g.map (·.2))) ((Spec.ofEnv e ss).filterMap Spec.ruleOf) gs ∧
      (sys.envs e).rules = gs.flatten.map (·.1) ∧
      (sys.envs e).actions = if (∃ p ∈ ss, Spec.target p.1 = e) then
        Spec.last (Spec.bytes "qDebug() << \"error\"; exit(-1);") Spec.failCode (Spec.ofEnv e ss) :: gs.flatten.map (·.2) else []) ∧
    (sys.envs e).enter = Spec.last [] Spec.enterCode (Spec.ofEnv e ss) ∧ (sys.envs e).leave = Spec.last [] Spec.leaveCode (Spec.ofEnv e ss) := by
  have h0 : Holds false [] ((Sys.init : Sys C).envs e) := ⟨⟨[], .nil, rfl, rfl⟩, rfl, rfl, fun _ => rfl⟩
  obtain ⟨⟨gs, h1, h2, h3⟩, h4, h5, _⟩ := file_holds h h0
  refine ⟨⟨gs, h1, h2, ?_⟩, h4, h5⟩
  rw [h3]
  simp only [Bool.false_or, List.any_eq_true, decide_eq_true_eq, List.nil_append]
  rfl

/-- C94: rule number `i` belongs to action number `i + 1`; so there is one action more than there are rules. -/
theorem C94_numbers {A : Chars C} {order : List Bits → List Bits} {fuel : Nat} {uni : Store C → Out (Store C)} {ss : List (Option Text × List Decl)} {sys : Sys C}
    (h : execFile A order fuel uni Sys.init ss = .ok sys) (e : Text) :
    ((∃ p ∈ ss, Spec.target p.1 = e) → (sys.envs e).actions.length = (sys.envs e).rules.length + 1) ∧
      ((¬ ∃ p ∈ ss, Spec.target p.1 = e) → (sys.envs e).actions = [] ∧ (sys.envs e).rules = []) := by
  obtain ⟨⟨gs, h1, h2, h3⟩, _⟩ := C94_tables h e
  constructor
  · intro hp; rw [h2, h3, if_pos hp]; simp only [List.length_cons, List.length_map]
  · intro hp
    refine ⟨by rw [h3, if_neg hp], ?_⟩
    have : Spec.ofEnv e ss = [] := by
      simp only [Spec.ofEnv, List.flatMap_eq_nil_iff, List.mem_filter, decide_eq_true_eq]
      rintro p ⟨hp1, hp2⟩
      exact absurd ⟨p, hp1, hp2⟩ hp
    rw [this] at h1
    cases h1
    rw [h2]; rfl

/-- A file with two sections for one rule set. -/
example : ∃ sys : Sys (Table 128), execFile asciiChars List.dedup 0 (fun _ => .stuck) Sys.init
      [(some [115], [.enter [1], .rule .eps .nothing [2] .skip]), (some [116], []), (some [115], [.fail [3], .rule .eps .nothing [4] .continue_])] = .ok sys ∧
    (sys.envs [115]).actions = [[3], [2] ++ Spec.ending .skip, [4] ++ Spec.ending .continue_] ∧ (sys.envs [115]).rules.length = 2 ∧ (sys.envs [115]).enter = [1] :=
  ⟨_, rfl, rfl, rfl, rfl⟩

end

end Verif.LexSyn
