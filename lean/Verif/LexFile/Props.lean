import Verif.LexFile.Files
import Verif.LexFile.Neat
import Verif.Read.Props
import Verif.LexSyn.Props
import Verif.Unidata.Props

set_option linter.unusedSectionVars false

/-!
# C96: the lexer made from a file cuts the input as the file says
-/

namespace Verif.LexFile

open Verif.Auto Verif.LexSyn Verif.Read

variable {C : Type}

section
variable [CharSetLike C] {A : Chars C} {order : List Bits → List Bits} {K : LexSyn.Spec.Reading} {N : Text → Lang} {tok num : Text → Nat}

local notation "size" => CharSetLike.size C

/-! ### Lemmas -/

theorem does_ahead {c : Text} {a : Act} {u : Rule} (h : Spec.Does tok num c a u) : u.ahead = 0 := by cases h <;> rfl

theorem entry_ahead {sz : Nat} {x : E} {y : Behind} {c : Text} {a : Act} {es : Spec.Rules} (h : Spec.Entry K sz tok num N x y c a es) : ∀ e ∈ es, ∀ w, e.1 w → e.2.ahead ≤ w.length := by
  cases h with
  | plain hd _ | noAhead hd _ _ | noBarrier hd _ _ =>
    intro e he w _
    simp only [List.mem_singleton] at he
    subst he
    simp [does_ahead hd]
  | ahead hd _ hm =>
    intro e he w hw
    simp only [List.mem_singleton] at he
    subst he
    obtain ⟨u, v, rfl, _, hv⟩ := hw
    simp [hm.2 v hv]
  | barrier hd _ hm =>
    intro e he w hw
    simp only [List.mem_cons, List.not_mem_nil, or_false] at he
    rcases he with rfl | rfl
    · simp [does_ahead hd]
    · obtain ⟨⟨u, v, rfl, _, hv⟩, _⟩ := hw
      simp [hm.2 v hv]

theorem section_ahead {sz : Nat} {ds : List Decl} {es : Spec.Rules} (h : Spec.Section K sz tok num N ds es) : ∀ e ∈ es, ∀ w, e.1 w → e.2.ahead ≤ w.length := by
  induction h with
  | nil => simp
  | define _ ih => exact ih
  | rule h _ ih => intro e he; rcases List.mem_append.1 he with he | he; exacts [entry_ahead h e he, ih e he]
  | fail _ ih | enter _ ih | leave _ ih => exact ih

theorem file_ahead {sz : Nat} {t : Text} {ss : List (Option Text × List Decl)} {es : Spec.Rules} (h : Spec.File K sz tok num t N ss es) : ∀ e ∈ es, ∀ w, e.1 w → e.2.ahead ≤ w.length := by
  induction h with
  | nil => simp
  | here _ h _ ih => intro e he; rcases List.mem_append.1 he with he | he; exacts [section_ahead h e he, ih e he]
  | other _ _ ih => exact ih

theorem file_target {sz : Nat} {t : Text} {ss : List (Option Text × List Decl)} {es : Spec.Rules} (h : Spec.File K sz tok num t N ss es) (hne : es ≠ []) : ∃ p ∈ ss, LexSyn.Spec.target p.1 = t := by
  induction h with
  | nil => exact absurd rfl hne
  | here ht _ _ _ => exact ⟨_, List.mem_cons_self, ht⟩
  | other _ _ ih => obtain ⟨p, hp, h⟩ := ih hne; exact ⟨p, List.mem_cons_of_mem _ hp, h⟩

theorem good_get {l : List (NFA C × Text)} {es : Spec.Rules} (h : List.Forall₂ (Good tok num) l es) (i : Nat) {e : Lang × Rule} (he : es[i]? = some e) :
    ∃ p, l[i]? = some p ∧ Good tok num p e := by
  induction h generalizing i with
  | nil => simp at he
  | cons h _ ih =>
    cases i with
    | zero => simp only [List.getElem?_cons_zero, Option.some.injEq] at he; subst he; exact ⟨_, rfl, h⟩
    | succ i => simpa using ih i (by simpa using he)

theorem good_matching {l : List (NFA C × Text)} {es : Spec.Rules} (h : List.Forall₂ (Good tok num) l es) : Matching (l.map (·.1)) es := by
  induction h with
  | nil => exact .nil
  | cons h _ ih => exact .cons ⟨h.1, h.2.1⟩ ih

/-! ### C96 -/

/-- The lexer made from a file is made from a description, as `Read.Made` says. -/
theorem C96_made (hsz : 0 < size) (hK : K.Bounded) (order : List Bits → List Bits) (ho : Enumerates order) (uni : Store C → Out (Store C)) (st0 : Store C) (N : Text → Lang)
    (hst : ∀ s d, st0 s = some d → d.ready = false ∧ d.nfa.Wf ∧ ∀ w, d.nfa.Lang w ↔ N s w) (ss : List (Option Text × List Decl))
    (hu : (∃ ds ss', ss = (none, ds) :: ss') ∧ uni (fun _ => none) = .ok st0 ∨ (∀ p ∈ ss, p.1 ≠ none) ∧ st0 = fun _ => none)
    (hf : ∀ p ∈ ss, FaithfulAll A K p.2) (hp : BehindFile A K N (fun s => st0 s ≠ none) ss) (hc : LexSyn.Spec.ClosedFile (fun s => st0 s ≠ none) ss)
    (hs : LexSyn.Spec.SafeFile K size N ss) {step : List (C × Nat) → Nat → Option Nat} (hstep : ∀ d : DFA C, d.Wf → OnePer d.rules → Lexer.StepOk step d)
    (I : Numbers) {es : Nat → Spec.Rules} (hes : ∀ r, Spec.File K size I.tok I.num (I.name r) N ss (es r)) (hus : ∀ r, Spec.Usable (es r))
    (hfail : ∀ r, Spec.Quiet (LexSyn.Spec.last (LexSyn.Spec.bytes "qDebug() << \"error\"; exit(-1);") LexSyn.Spec.failCode (LexSyn.Spec.ofEnv (I.name r) ss))) :
    ∃ F, ∀ fuel, F ≤ fuel → ∃ sys, execFile A order fuel uni Sys.init ss = .ok sys ∧
      ∃ d : Nat → DFA C, (∀ r, ∃ G, ∀ fuel', G ≤ fuel' → automaton order fuel' (sys.envs (I.name r)).rules (sys.envs (I.name r)).actions = some (d r)) ∧
        ∀ buf, (∀ x ∈ buf, x < size) → ∀ L, Generated I step d sys buf L → ∃ D, Spec.Describes es buf D ∧ Made D L ∧ ((∀ r, ∀ e ∈ es r, ∀ w, e.1 w → e.2.ahead < w.length) → D.Advances) := by
  obtain ⟨F, l, h1, h2⟩ := whole_right (tok := I.tok) (num := I.num) hsz ho hK uni st0 hst ss hu hf hp hc hs
  refine ⟨F, fun fuel hfu => ?_⟩
  obtain ⟨sys, h3, h4⟩ := h2 fuel hfu
  have hg : ∀ r, List.Forall₂ (Good I.tok I.num) (l (I.name r)) (es r) := fun r => h1 _ _ (hes r)
  have hlen : ∀ r, (sys.envs (I.name r)).actions.length = (sys.envs (I.name r)).rules.length + 1 := fun r => (C94_numbers h3 (I.name r)).1 (file_target (hes r) (hus r).ne)
  have hau : ∀ r, ∃ G m, (∀ fuel', G ≤ fuel' → automaton order fuel' (sys.envs (I.name r)).rules (sys.envs (I.name r)).actions = some m) ∧ Right (es r) m := fun r =>
    automaton_right order ho (by rw [(h4 (I.name r)).1]; exact good_matching (hg r)) (hus r) (hlen r)
  refine ⟨sys, h3, fun r => (hau r).choose_spec.choose, fun r => ⟨(hau r).choose, (hau r).choose_spec.choose_spec.1⟩, fun buf hw L hL => ?_⟩
  have hR : ∀ r, Right (es r) ((hau r).choose_spec.choose) := fun r => (hau r).choose_spec.choose_spec.2
  exact made (fun r => hstep _ (hR r).wf (hR r).one) hR hL hw (fun r => file_ahead (hes r)) (fun r => by
      obtain ⟨⟨gs, _, _, g⟩, _⟩ := C94_tables h3 (I.name r)
      rw [if_pos (file_target (hes r) (hus r).ne)] at g
      exact ⟨_, by rw [g]; rfl, by simpa using (means_quiet (hfail r) means_nil).meaning⟩) (fun r i e he => by
      obtain ⟨p, hp, hgp⟩ := good_get (hg r) i he
      refine ⟨p.2, ?_, hgp.2.2⟩
      rw [← List.getElem?_tail, (h4 (I.name r)).2, List.getElem?_map, hp]
      rfl)

/-- C96 (partial): the whole way from the sections of a file to tokens.  Under the conditions of `C93_file_partial`, with lookaheads and barriers of the expressions in `Measured`; with actions
that consist of a change of the rule set and a token, `%skip` or `%continue`; with rule sets that are usable (`Spec.Usable`) and do nothing on failure: the sections are read, an automaton is made
for each rule set, and a lexer with these automata and actions cuts each input into the tokens the file describes, however it is read and rewound: at each position the longest match of the rules
of the rule set, of equally long ones the first, with lookaheads and barriers taken off.  If no rule matches the empty word every call returns.
Missing: other user code in actions, the iterators that decode (C83 has automata on code units only), and what is missing in `C93_file_partial`. -/
theorem C96_lexer_partial (hsz : 0 < size) (hK : K.Bounded) (order : List Bits → List Bits) (ho : Enumerates order) (uni : Store C → Out (Store C)) (st0 : Store C) (N : Text → Lang)
    (hst : ∀ s d, st0 s = some d → d.ready = false ∧ d.nfa.Wf ∧ ∀ w, d.nfa.Lang w ↔ N s w) (ss : List (Option Text × List Decl))
    (hu : (∃ ds ss', ss = (none, ds) :: ss') ∧ uni (fun _ => none) = .ok st0 ∨ (∀ p ∈ ss, p.1 ≠ none) ∧ st0 = fun _ => none)
    (hf : ∀ p ∈ ss, FaithfulAll A K p.2) (hp : BehindFile A K N (fun s => st0 s ≠ none) ss) (hc : LexSyn.Spec.ClosedFile (fun s => st0 s ≠ none) ss)
    (hs : LexSyn.Spec.SafeFile K size N ss) {step : List (C × Nat) → Nat → Option Nat} (hstep : ∀ d : DFA C, d.Wf → OnePer d.rules → Lexer.StepOk step d)
    (I : Numbers) {es : Nat → Spec.Rules} (hes : ∀ r, Spec.File K size I.tok I.num (I.name r) N ss (es r)) (hus : ∀ r, Spec.Usable (es r))
    (hfail : ∀ r, Spec.Quiet (LexSyn.Spec.last (LexSyn.Spec.bytes "qDebug() << \"error\"; exit(-1);") LexSyn.Spec.failCode (LexSyn.Spec.ofEnv (I.name r) ss))) :
    ∃ F, ∀ fuel, F ≤ fuel → ∃ sys, execFile A order fuel uni Sys.init ss = .ok sys ∧
      ∃ d : Nat → DFA C, (∀ r, ∃ G, ∀ fuel', G ≤ fuel' → automaton order fuel' (sys.envs (I.name r)).rules (sys.envs (I.name r)).actions = some (d r)) ∧
        ∀ buf, (∀ x ∈ buf, x < size) → ∀ L, Generated I step d sys buf L → ∃ D, Spec.Describes es buf D ∧
          (∀ f os s out, run L f .init os = some (s, out) → ∃ ts, Tokens D 0 0 ts ∧ ∀ i t, (i, t) ∈ out → ts[i]? = some t) ∧
          ((∀ r, ∀ e ∈ es r, ∀ w, e.1 w → e.2.ahead < w.length) → ∀ os, Valid 0 0 os → ∃ r, run L (5 * buf.length + 5) .init os = some r) := by
  obtain ⟨F, h⟩ := C96_made hsz hK order ho uni st0 N hst ss hu hf hp hc hs hstep I hes hus hfail
  refine ⟨F, fun fuel hfu => ?_⟩
  obtain ⟨sys, h1, d, h2, h3⟩ := h fuel hfu
  refine ⟨sys, h1, d, h2, fun buf hw L hL => ?_⟩
  obtain ⟨D, d1, d2, d3⟩ := h3 buf hw L hL
  refine ⟨D, d1, fun f os s out h => C83_tokens d2 h, fun ha os hv => ?_⟩
  obtain ⟨r, hr⟩ := C87_returns_partial d2 (d3 ha) hv
  exact ⟨r, by rw [← d1.n]; exact hr⟩

/-- C96: what the file says is unique: the piece a rule takes at a position is the one that is found there. -/
theorem C96_picks {es : Nat → Spec.Rules} {buf : List Nat} {D : Read.Spec} (h : Spec.Describes es buf D) {r p : Nat} (hp : p < buf.length) {u : Rule} {k : Nat}
    (hk : Spec.Picks (es r) (buf.drop p) u k) : D.found r p = some (u, p + k) := by
  obtain ⟨k1, ⟨i, M, i1, i2, i3⟩, k3⟩ := hk
  cases hf : D.found r p with
  | none => exact absurd i2 (h.none r p hp hf k k1 _ (List.mem_of_getElem? i1))
  | some v =>
    obtain ⟨u', q⟩ := v
    obtain ⟨hq, q1, ⟨j, M', j1, j2, j3⟩, q3⟩ := h.found r p u' q hp hf
    have hkq : k = q - p := by
      rcases Nat.lt_trichotomy k (q - p) with hlt | heq | hgt
      · exact absurd j2 (k3 _ hlt q1 _ (List.mem_of_getElem? j1))
      · exact heq
      · exact absurd i2 (q3 _ hgt k1 _ (List.mem_of_getElem? i1))
    subst hkq
    have hij : i = j := by
      rcases Nat.lt_trichotomy i j with hlt | heq | hgt
      · exact absurd i2 (j3 i hlt _ i1)
      · exact heq
      · exact absurd j2 (i3 j hgt _ j1)
    subst hij
    rw [i1] at j1
    simp only [Option.some.injEq, Prod.mk.injEq] at j1
    rw [← j1.2, show p + (q - p) = q by omega]

/-- C96: so two lexers the same file describes find the same. -/
theorem C96_unique {es : Nat → Spec.Rules} {buf : List Nat} {D D' : Read.Spec} (h : Spec.Describes es buf D) (h' : Spec.Describes es buf D') {r p : Nat} (hp : p < buf.length) :
    D.found r p = D'.found r p := by
  cases hf : D'.found r p with
  | some v =>
    obtain ⟨u, q⟩ := v
    obtain ⟨hq, hpk⟩ := h'.found r p u q hp hf
    rw [C96_picks h hp hpk, show p + (q - p) = q by omega]
  | none =>
    cases hf' : D.found r p with
    | none => rfl
    | some v =>
      obtain ⟨u, q⟩ := v
      obtain ⟨hq, hpk⟩ := h.found r p u q hp hf'
      rw [C96_picks h' hp hpk] at hf
      cases hf

end

/-! ### The conditions on lookaheads and barriers -/

section
variable [Enc.RangeSet C] {cf : Text → List Nat} {N : Text → Lang} {kn : Text → Prop} {x : E}

/-- C96, ASCII: lookaheads and barriers of all texts in ASCII. -/
theorem C96_ascii (hsz : CharSetLike.size C = 128) (ht : Texts (fixed cf 128) (∀ c ∈ ·, c < 128) (∀ c ∈ ·, c < 128) (IsRange fun _ _ => True) x) (hc : LexSyn.Spec.Closed kn x)
    (hs : LexSyn.Spec.Safe (fixed cf 128) 128 N x) (hz : Sized (fixed cf 128) 128 N x) :
    BehindOk (chars Utf.asciiNext (Enc.rangeFixed : Nat → Nat → Option (NFA C)) (some Enc.anyFixed)) (fixed cf 128) N kn (.lookahead x) ∧
      BehindOk (chars Utf.asciiNext (Enc.rangeFixed : Nat → Nat → Option (NFA C)) (some Enc.anyFixed)) (fixed cf 128) N kn (.barrier x) := by
  have h1 := C93_ascii (C := C) hsz cf ht
  have h2 := measured_ascii hsz ht hz
  exact ⟨⟨h1, hc, by rw [hsz]; exact hs, h2⟩, h1, hc, by rw [hsz]; exact hs, h2, rfl⟩

/-- C96, Latin-1 (partial): texts as in `C93_latin1_partial`. -/
theorem C96_latin1_partial (hsz : CharSetLike.size C = 256) (ht : Texts (fixed cf 256) (∀ c ∈ ·, c < 128) (∀ c ∈ ·, c < 256) (IsRange fun _ _ => True) x) (hc : LexSyn.Spec.Closed kn x)
    (hs : LexSyn.Spec.Safe (fixed cf 256) 256 N x) (hz : Sized (fixed cf 256) 256 N x) :
    BehindOk (chars Enc.unit (Enc.rangeFixed : Nat → Nat → Option (NFA C)) (some Enc.anyFixed)) (fixed cf 256) N kn (.lookahead x) ∧
      BehindOk (chars Enc.unit (Enc.rangeFixed : Nat → Nat → Option (NFA C)) (some Enc.anyFixed)) (fixed cf 256) N kn (.barrier x) := by
  have h1 := C93_latin1_partial (C := C) hsz cf ht
  have h2 := measured_latin1 hsz ht hz
  exact ⟨⟨h1, hc, by rw [hsz]; exact hs, h2⟩, h1, hc, by rw [hsz]; exact hs, h2, rfl⟩

/-- C96, UCS-2 (partial): texts as in `C93_ucs2_partial`. -/
theorem C96_ucs2_partial (hsz : CharSetLike.size C = 65536) (ht : Texts (fixed cf 65536) (∀ c ∈ ·, ¬ Utf.Spec.Dropped c ∧ c < 65536) (∀ c ∈ ·, c < 65536) (IsRange fun _ _ => True) x)
    (hc : LexSyn.Spec.Closed kn x) (hs : LexSyn.Spec.Safe (fixed cf 65536) 65536 N x) (hz : Sized (fixed cf 65536) 65536 N x) :
    BehindOk (chars Utf.ucs2Next (Enc.rangeFixed : Nat → Nat → Option (NFA C)) (some Enc.anyFixed)) (fixed cf 65536) N kn (.lookahead x) ∧
      BehindOk (chars Utf.ucs2Next (Enc.rangeFixed : Nat → Nat → Option (NFA C)) (some Enc.anyFixed)) (fixed cf 65536) N kn (.barrier x) := by
  have h1 := C93_ucs2_partial (C := C) hsz cf ht
  have h2 := measured_ucs2 hsz ht hz
  exact ⟨⟨h1, hc, by rw [hsz]; exact hs, h2⟩, h1, hc, by rw [hsz]; exact hs, h2, rfl⟩

/-- C96, UCS-4 (partial): texts as in `C93_ucs4_partial`. -/
theorem C96_ucs4_partial (hsz : CharSetLike.size C = 0x110000) (ht : Texts (fixed cf 0x110000) (∀ c ∈ ·, ¬ Utf.Spec.Dropped c) (fun _ => True) (IsRange fun _ _ => True) x)
    (hc : LexSyn.Spec.Closed kn x) (hs : LexSyn.Spec.Safe (fixed cf 0x110000) 0x110000 N x) (hz : Sized (fixed cf 0x110000) 0x110000 N x) :
    BehindOk (chars Utf.ucs4Next (Enc.rangeUcs4 : Nat → Nat → Option (NFA C)) (some Enc.anyFixed)) (fixed cf 0x110000) N kn (.lookahead x) ∧
      BehindOk (chars Utf.ucs4Next (Enc.rangeUcs4 : Nat → Nat → Option (NFA C)) (some Enc.anyFixed)) (fixed cf 0x110000) N kn (.barrier x) := by
  have h1 := C93_ucs4_partial (C := C) hsz cf ht
  have h2 := measured_ucs4 hsz ht hz
  exact ⟨⟨h1, hc, by rw [hsz]; exact hs, h2⟩, h1, hc, by rw [hsz]; exact hs, h2, rfl⟩

end

/-! ### An example -/

/-- In ASCII: `%fail [: :] [0-9]+ N ; "a" %la([xy]) A ; [xy] ; "#" .* %ba("!") C ; ;`. -/
def exSection : List Decl :=
  [.fail [32], .rule (.plus (.range [48, 45, 57])) .nothing [] (.terminal [78]), .rule (.str [97]) (.lookahead (.coll [120, 121])) [] (.terminal [65]), .rule (.coll [120, 121]) .nothing [] .skip,
    .rule (.cat (.str [35]) (.star .dot)) (.barrier (.str [33])) [] (.terminal [67])]

abbrev exK : LexSyn.Spec.Reading := fixed (fun s => s) 128
abbrev exN : Text → Lang := fun _ _ => False
def exNumbers : Numbers := ⟨fun s => 1000 + s.headD 0, fun _ => 0, fun _ => txt "start", rfl⟩

abbrev exDen (x : E) : Lang := LexSyn.Spec.den exK 128 exN x

/-- What the file says. -/
def exRules : Spec.Rules :=
  [(exDen (.plus (.range [48, 45, 57])), { term := .tok 1078 }), (Cat (exDen (.str [97])) (exDen (.coll [120, 121])), { ahead := 1, term := .tok 1065 }),
    (exDen (.coll [120, 121]), { term := .skip }),
    (fun w => exDen (.cat (.str [35]) (.star .dot)) w ∧ ¬ Spec.Contains (exDen (.str [33])) w, { term := .tok 1067 }),
    (fun w => Cat (exDen (.cat (.str [35]) (.star .dot))) (exDen (.str [33])) w ∧ ¬ Spec.EndsEarly (exDen (.str [33])) w, { ahead := 1, term := .tok 1067 })]

theorem ex_chr (c : Nat) (w : List Nat) : exDen (.str [c]) w ↔ w = [c] := by simp [LexSyn.Spec.den, fixed]

theorem ex_coll (w : List Nat) : exDen (.coll [120, 121]) w ↔ w = [120] ∨ w = [121] := by simp [LexSyn.Spec.den, fixed]

theorem ex_ahead (w : List Nat) : Cat (exDen (.str [97])) (exDen (.coll [120, 121])) w ↔ w = [97, 120] ∨ w = [97, 121] := by
  constructor
  · rintro ⟨u, v, rfl, hu, hv⟩
    rw [(ex_chr _ _).1 hu]
    rcases (ex_coll _).1 hv with rfl | rfl <;> simp
  · rintro (rfl | rfl)
    · exact ⟨[97], [120], rfl, (ex_chr _ _).2 rfl, (ex_coll _).2 (Or.inl rfl)⟩
    · exact ⟨[97], [121], rfl, (ex_chr _ _).2 rfl, (ex_coll _).2 (Or.inr rfl)⟩

theorem ex_hash (w : List Nat) : exDen (.cat (.str [35]) (.star .dot)) w ↔ ∃ v, w = 35 :: v ∧ ∀ c ∈ v, c < 128 := by
  have all : ∀ v, Star (exDen .dot) v ↔ ∀ c ∈ v, c < 128 := by
    intro v
    constructor
    · intro h
      induction h with
      | nil => simp
      | app hu _ ih =>
        obtain ⟨c, rfl, hc⟩ := hu
        simpa using ⟨hc, ih⟩
    · intro h
      induction v with
      | nil => exact .nil
      | cons c v ih => exact Star.app (u := [c]) ⟨c, rfl, h c List.mem_cons_self⟩ (ih fun d hd => h d (List.mem_cons_of_mem _ hd))
  constructor
  · rintro ⟨u, v, rfl, hu, hv⟩
    rw [(ex_chr _ _).1 hu]
    exact ⟨v, rfl, (all v).1 hv⟩
  · rintro ⟨v, rfl, hv⟩
    exact ⟨[35], v, rfl, (ex_chr _ _).2 rfl, (all v).2 hv⟩

theorem ex_contains (w : List Nat) : Spec.Contains (exDen (.str [33])) w ↔ 33 ∈ w := by
  constructor
  · rintro ⟨x, y, z, rfl, hy⟩
    rw [(ex_chr _ _).1 hy]
    simp
  · intro h
    obtain ⟨x, z, rfl⟩ := List.append_of_mem h
    exact ⟨x, [33], z, by simp, (ex_chr _ _).2 rfl⟩

theorem ex_comment (w : List Nat) : Cat (exDen (.cat (.str [35]) (.star .dot))) (exDen (.str [33])) w ∧ ¬ Spec.EndsEarly (exDen (.str [33])) w ↔
    ∃ v, w = 35 :: v ++ [33] ∧ 33 ∉ v ∧ ∀ c ∈ v, c < 128 := by
  constructor
  · rintro ⟨⟨u, y, rfl, hu, hy⟩, hn⟩
    obtain ⟨v, rfl, hv⟩ := (ex_hash _).1 hu
    rw [(ex_chr _ _).1 hy] at hn ⊢
    refine ⟨v, rfl, fun h => hn ?_, hv⟩
    obtain ⟨a, b, rfl⟩ := List.append_of_mem h
    exact ⟨35 :: a, [33], b ++ [33], by simp, (ex_chr _ _).2 rfl, by simp⟩
  · rintro ⟨v, rfl, hv, hc⟩
    refine ⟨⟨35 :: v, [33], rfl, (ex_hash _).2 ⟨v, rfl, hc⟩, (ex_chr _ _).2 rfl⟩, ?_⟩
    rintro ⟨a, y, z, h, hy, hz⟩
    rw [(ex_chr _ _).1 hy] at h
    obtain ⟨z', t, rfl⟩ := (List.eq_nil_or_concat z).resolve_left hz
    have h2 := congrArg List.dropLast h
    simp only [List.dropLast_concat, List.concat_eq_append, ← List.append_assoc] at h2
    have : 33 ∈ 35 :: v := by rw [h2]; simp
    simp at this
    exact hv this

theorem ex_file : Spec.File exK 128 exNumbers.tok exNumbers.num (txt "start") exN [(some (txt "start"), exSection)] exRules := by
  have hq : Spec.Quiet ([] : Text) := by intro x h; cases h
  have stay : ∀ a, Spec.Does exNumbers.tok exNumbers.num [] a { term := Spec.term exNumbers.tok a } := fun a => .stay hq
  refine .here (es := exRules) (es' := []) rfl ?_ .nil
  refine .fail ?_
  refine .rule (es := [_]) (.plain (stay _) (by simp [Spec.Named])) ?_
  refine .rule (es := [_]) (.ahead (m := 1) (stay _) (by simp [Spec.Named]) ⟨by omega, fun v hv => ?_⟩) ?_
  · rcases (ex_coll v).1 hv with rfl | rfl <;> rfl
  refine .rule (es := [_]) (.plain (stay _) trivial) ?_
  refine .rule (es := [_, _]) (es' := []) (.barrier (m := 1) (stay _) (by simp [Spec.Named]) ⟨by omega, fun v hv => ?_⟩) .nil
  rw [(ex_chr _ _).1 hv]; rfl

theorem ex_digit (c : Nat) (w : List Nat) (hc : ¬ (48 ≤ c ∧ c ≤ 57)) : ¬ exDen (.plus (.range [48, 45, 57])) (c :: w) := fun h => hc (((num_lang _).1 h).2 c List.mem_cons_self)

theorem ex_usable : Spec.Usable exRules := by
  refine ⟨by simp [exRules], ?_, ?_⟩
  · intro i e he
    have hi : i < 5 := (List.getElem?_eq_some_iff.1 he).1
    match i, hi with
    | 0, _ => cases he; exact ⟨[48], (num_lang _).2 (by simp), by omega⟩
    | 1, _ =>
      cases he
      refine ⟨[97, 120], (ex_ahead _).2 (Or.inl rfl), fun j hj e' he' => ?_⟩
      obtain rfl : j = 0 := by omega
      cases he'; exact ex_digit _ _ (by omega)
    | 2, _ =>
      cases he
      refine ⟨[120], (ex_coll _).2 (Or.inl rfl), fun j hj e' he' => ?_⟩
      match j, hj with
      | 0, _ => cases he'; exact ex_digit _ _ (by omega)
      | 1, _ => cases he'; exact fun h => by simpa using (ex_ahead _).1 h
    | 3, _ =>
      cases he
      refine ⟨[35], ⟨(ex_hash _).2 ⟨[], rfl, by simp⟩, fun h => by simpa using (ex_contains _).1 h⟩, fun j hj e' he' => ?_⟩
      match j, hj with
      | 0, _ => cases he'; exact ex_digit _ _ (by omega)
      | 1, _ => cases he'; exact fun h => by simpa using (ex_ahead _).1 h
      | 2, _ => cases he'; exact fun h => by simpa using (ex_coll _).1 h
    | 4, _ =>
      cases he
      refine ⟨[35, 33], (ex_comment _).2 ⟨[], rfl, by simp, by simp⟩, fun j hj e' he' => ?_⟩
      match j, hj with
      | 0, _ => cases he'; exact ex_digit _ _ (by omega)
      | 1, _ => cases he'; exact fun h => by simpa using (ex_ahead _).1 h
      | 2, _ => cases he'; exact fun h => by simpa using (ex_coll _).1 h
      | 3, _ => cases he'; exact fun h => h.2 ((ex_contains _).2 (by simp))
  · refine ⟨[], [48], fun e he h => ?_, _, List.mem_cons_self, (num_lang _).2 (by simp)⟩
    simp only [exRules, List.mem_cons, List.not_mem_nil, or_false] at he
    rcases he with rfl | rfl | rfl | rfl | rfl
    · exact ((num_lang _).1 h).1 rfl
    · simpa using (ex_ahead _).1 h
    · simpa using (ex_coll _).1 h
    · simpa using (ex_hash _).1 h.1
    · simpa using (ex_comment _).1 h

abbrev exFile : List (Option Text × List Decl) := [(some (txt "start"), exSection)]

abbrev exStore : Store (CharSet.Table 128) := fun _ => none

theorem ex_tab : ∀ d : DFA (CharSet.Table 128), d.Wf → OnePer d.rules → Lexer.StepOk Lexer.tableStep d := fun _ h1 h2 => Lexer.tableStep_ok h1 h2

/-- The section meets the conditions of C96. -/
theorem ex_conditions : exK.Bounded ∧ (∀ p ∈ exFile, FaithfulAll (C := CharSet.Table 128) asciiChars exK p.2) ∧
    BehindFile (C := CharSet.Table 128) asciiChars exK exN (fun s => exStore s ≠ none) exFile ∧
    LexSyn.Spec.ClosedFile (fun s => exStore s ≠ none) exFile ∧ LexSyn.Spec.SafeFile exK 128 exN exFile ∧
    ∀ r, Spec.Quiet (LexSyn.Spec.last (LexSyn.Spec.bytes "qDebug() << \"error\"; exit(-1);") LexSyn.Spec.failCode (LexSyn.Spec.ofEnv (exNumbers.name r) exFile)) := by
  have hr : Faithful asciiChars exK (.range [48, 45, 57]) := C93_ascii rfl _ ⟨denotes_ascii _, 48, 57, rfl, trivial⟩
  have hstr : ∀ c, c < 128 → (Text.unescaped [c] = [c]) → Faithful asciiChars exK (.str [c]) := fun c hc hu => C93_ascii rfl _ ⟨denotes_ascii _ rfl hu (by simpa using hc), by simpa [fixed] using hc⟩
  have tc : Texts exK (∀ c ∈ ·, c < 128) (∀ c ∈ ·, c < 128) (IsRange fun _ _ => True) (.coll [120, 121]) := ⟨denotes_ascii _, by decide⟩
  have t33 : Texts exK (∀ c ∈ ·, c < 128) (∀ c ∈ ·, c < 128) (IsRange fun _ _ => True) (.str [33]) := ⟨denotes_ascii _, by decide⟩
  have hcoll : Faithful asciiChars exK (.coll [120, 121]) := C93_ascii rfl _ tc
  have hdot : Faithful asciiChars exK .dot := C93_ascii rfl _ (x := .dot) trivial
  exact ⟨⟨⟨1, by simp [fixed], by rintro w ⟨c, rfl, _⟩; simp⟩, ⟨[0], 0, rfl, by omega⟩⟩,
    (by
      intro p hp
      simp only [List.mem_singleton] at hp
      subst hp
      intro d hd'
      simp only [exSection, List.mem_cons, List.not_mem_nil, or_false] at hd'
      rcases hd' with rfl | rfl | rfl | rfl | rfl
      · exact ⟨fun s x h => (by cases h), fun x y c t h => (by cases h)⟩
      · exact ⟨fun s x h => (by cases h), fun x y c t h => (by cases h; exact hr)⟩
      · exact ⟨fun s x h => (by cases h), fun x y c t h => (by cases h; exact hstr 97 (by omega) (by decide +kernel))⟩
      · exact ⟨fun s x h => (by cases h), fun x y c t h => (by cases h; exact hcoll)⟩
      · exact ⟨fun s x h => (by cases h), fun x y c t h => (by cases h; exact ⟨hstr 35 (by omega) (by decide +kernel), hdot⟩)⟩),
    (by
      exact ⟨⟨trivial, (C96_ascii (C := CharSet.Table 128) rfl tc trivial trivial (by simp [Sized, fixed])).1, trivial, (C96_ascii (C := CharSet.Table 128) rfl t33 trivial trivial trivial).2, trivial⟩, trivial⟩),
    (by
      refine ⟨⟨fun s x h => (by cases h), fun x y c t h => (by cases h), fun s x h => (by cases h), fun x y c t h => (by cases h; trivial), fun s x h => (by cases h), fun x y c t h => (by cases h; trivial), fun s x h => (by cases h),
        fun x y c t h => (by cases h; trivial), fun s x h => (by cases h), fun x y c t h => (by cases h; exact ⟨trivial, trivial⟩), trivial⟩, trivial⟩),
    (by
      refine ⟨⟨⟨trivial, Or.inl ⟨48, 57, 48, rfl, by omega, by omega, by simp [fixed]⟩⟩, trivial, trivial, ⟨trivial, trivial, Or.inl trivial⟩, trivial⟩, trivial⟩),
    (fun r => by
      have : LexSyn.Spec.last (LexSyn.Spec.bytes "qDebug() << \"error\"; exit(-1);") LexSyn.Spec.failCode (LexSyn.Spec.ofEnv (exNumbers.name 0) [(some (txt "start"), exSection)]) = [32] := by
        decide +kernel
      show Spec.Quiet _
      intro x hx
      rw [show exNumbers.name r = exNumbers.name 0 from rfl, this] at hx
      simp at hx; omega)⟩

theorem ex_advances : ∀ e ∈ exRules, ∀ w, e.1 w → e.2.ahead < w.length := by
  intro e he w hw
  simp only [exRules, List.mem_cons, List.not_mem_nil, or_false] at he
  rcases he with rfl | rfl | rfl | rfl | rfl
  · exact List.length_pos_iff.2 ((num_lang _).1 hw).1
  · rcases (ex_ahead _).1 hw with rfl | rfl <;> decide
  · rcases (ex_coll _).1 hw with rfl | rfl <;> decide
  · obtain ⟨v, rfl, _⟩ := (ex_hash _).1 hw.1; simp
  · obtain ⟨v, rfl, _⟩ := (ex_comment _).1 hw; simp

/-- The conditions of `C96_lexer_partial` hold of this section.  On the input `1ax#b!` the rule with the lookahead is found at 1, takes `ax`, and gives `x` back; the rule with the barrier
takes `#b!` and gives `!` back. -/
example : ∃ F, ∀ fuel, F ≤ fuel → ∃ sys, execFile asciiChars List.dedup fuel (fun _ => .stuck) Sys.init [(some (txt "start"), exSection)] = .ok sys ∧
    ∃ d : Nat → DFA (CharSet.Table 128), (∀ r, ∃ G, ∀ fuel', G ≤ fuel' → automaton List.dedup fuel' (sys.envs (txt "start")).rules (sys.envs (txt "start")).actions = some (d r)) ∧
      ∀ L, Generated exNumbers Lexer.tableStep d sys [49, 97, 120, 35, 98, 33] L →
        ∃ D, D.n = 6 ∧ D.found 0 1 = some ({ ahead := 1, term := .tok 1065 }, 3) ∧ D.found 0 3 = some ({ ahead := 1, term := .tok 1067 }, 6) ∧
          (∀ f os s out, run L f .init os = some (s, out) → ∃ ts, Tokens D 0 0 ts ∧ ∀ i t, (i, t) ∈ out → ts[i]? = some t) ∧
          ∃ r, run L 35 .init [.read, .read, .rewind 1, .read] = some r := by
  obtain ⟨c1, c2, c3, c4, c5, c6⟩ := ex_conditions
  obtain ⟨F, h⟩ := C96_lexer_partial (C := CharSet.Table 128) (A := asciiChars) (K := exK) (by decide) c1 List.dedup enumerates_dedup (fun _ => .stuck) exStore exN (by simp) exFile
    (Or.inr ⟨by simp, rfl⟩) c2 c3 c4 c5 ex_tab exNumbers (es := fun _ => exRules) (fun _ => ex_file) (fun _ => ex_usable) c6
  refine ⟨F, fun fuel hf => ?_⟩
  obtain ⟨sys, h1, d, h2, h3⟩ := h fuel hf
  refine ⟨sys, h1, d, h2, fun L hL => ?_⟩
  obtain ⟨D, d1, d2, d3⟩ := h3 _ (by decide) L hL
  refine ⟨D, d1.n, ?_, ?_, d2, ?_⟩
  · refine C96_picks d1 (p := 1) (k := 2) (by decide) ⟨by decide, ⟨1, _, rfl, (ex_ahead _).2 (Or.inl rfl), fun j hj e he => ?_⟩, fun k' h1 h2 e he hk => ?_⟩
    · obtain rfl : j = 0 := by omega
      cases he; exact ex_digit _ _ (by omega)
    · simp only [exRules, List.mem_cons, List.not_mem_nil, or_false] at he
      have hk3 : k' = 3 ∨ k' = 4 ∨ k' = 5 := by simp at h2; omega
      rcases hk3 with rfl | rfl | rfl <;> rcases he with rfl | rfl | rfl | rfl | rfl
      all_goals first
        | exact ex_digit _ _ (by omega) hk
        | simpa using (ex_ahead _).1 hk
        | simpa using (ex_coll _).1 hk
        | simpa using (ex_hash _).1 hk.1
        | simpa using (ex_comment _).1 hk
  · refine C96_picks d1 (p := 3) (k := 3) (by decide) ⟨by decide, ⟨4, _, rfl, (ex_comment _).2 ⟨[98], rfl, by simp, by simp⟩, fun j hj e he => ?_⟩, fun k' h1 h2 => by simp at h2; omega⟩
    match j, hj with
    | 0, _ => cases he; exact ex_digit _ _ (by omega)
    | 1, _ => cases he; exact fun h => by simpa using (ex_ahead _).1 h
    | 2, _ => cases he; exact fun h => by simpa using (ex_coll _).1 h
    | 3, _ => cases he; exact fun h => h.2 ((ex_contains _).2 (by simp))
  · exact d3 (fun _ => ex_advances) _ (by simp [Valid])

end Verif.LexFile
