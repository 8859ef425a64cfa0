import Verif.Unidata.Load
import Verif.LexSyn.Props

set_option linter.unusedSectionVars false

/-!
# C95: the classes of characters of the Unicode tables
-/

namespace Verif.Unidata

open Verif.Auto Verif.LexSyn Verif.Enc Verif.Utf Verif.Utf.Spec Verif.CharSet Spec

/-! ### Lines -/

/-- C95: every line of a table is read as its format says: bounds and name.  (A blank line adds the null character to the class without a name, which no expression can refer to.) -/
theorem C95_line {l : List Nat} {e : Option (Nat × Nat × Text)} (h : Line l e) :
    scanLine l = .ok e ∨ (∀ c ∈ l, Blank c) ∧ scanLine l = .ok (some (0, 0, [])) := by
  cases h with
  | comment => exact Or.inl rfl
  | blank h => exact (scan_blank h).imp id fun g => ⟨h, g⟩
  | single h1 h2 h3 h4 h5 h6 h7 => exact Or.inl (scan_single h1 h2 h3 h4 h6 h7)
  | range h1 h2 h3 h4 h5 h6 h7 => exact Or.inl (scan_range h1 h2 h3 h4 h5 h7)

theorem number_of (ds : List (Nat × Nat)) (h0 : ds ≠ []) (h : ∀ d ∈ ds, Text.Spec.IsDigit .hex d.1 d.2) (hv : Text.Spec.value 16 (ds.map (·.2)) 0 < 2 ^ 28) :
    Number (ds.map (·.1)) (Text.Spec.value 16 (ds.map (·.2)) 0) := ⟨ds, h0, rfl, h, rfl, hv⟩

/-- `0600..06FF; Arabic` of Blocks.txt -/
theorem arabic_block : Line (str "0600..06FF; Arabic" ++ [10]) (some (0x600, 0x6ff, str "arabic")) :=
  .range (ds := str "0600") (es := str "06FF") (gap := []) (name := str " Arabic" ++ [10]) (rest := [])
    (number_of [(48, 0), (54, 6), (48, 0), (48, 0)] (by decide) (by simp [Text.Spec.IsDigit, Text.Spec.Sys.base]) (by decide))
    (number_of [(48, 0), (54, 6), (70, 15), (70, 15)] (by decide) (by simp [Text.Spec.IsDigit, Text.Spec.Sys.base]) (by decide)) (by simp) (by decide)
    ⟨[32], str "Arabic", [10], rfl, by simp [Blank], by simp [Blank], by simp [str, Blank], by simp [str, Blank], rfl⟩ (by decide) (Or.inl rfl)

/-- `060C          ; Common # Po       ARABIC COMMA` of Scripts.txt -/
theorem arabic_comma : Line (str "060C          ; Common # Po       ARABIC COMMA" ++ [10]) (some (0x60c, 0x60c, str "common")) :=
  .single (ds := str "060C") (gap := str "          ") (name := str " Common ") (rest := str "# Po       ARABIC COMMA" ++ [10])
    (number_of [(48, 0), (54, 6), (48, 0), (67, 12)] (by decide) (by simp [Text.Spec.IsDigit, Text.Spec.Sys.base]) (by decide)) (by decide) (by decide)
    ⟨[32], str "Common", [32], rfl, by simp [Blank], by simp [Blank], by simp [str, Blank], by simp [str, Blank], rfl⟩ (by decide) (Or.inr ⟨_, rfl⟩) (by
      rintro ⟨a, b, h⟩
      have : 46 ∈ str " Common " ++ (str "# Po       ARABIC COMMA" ++ [10]) := by rw [h]; simp [str]
      revert this
      decide)

example : scanLine (str "060C          ; Common # Po       ARABIC COMMA" ++ [10]) = .ok (some (0x60c, 0x60c, str "common")) :=
  (C95_line arabic_comma).elim id fun h => absurd (h.1 48 (by decide)) (by simp [Blank])

/-- C95 fails for a line about one character if there are two dots in its comment (or its name) and no semicolon behind them: an assertion fails. -/
theorem C95_fails_dots {ds : List Nat} {v : Nat} {gap name a b : List Nat} (h1 : Number ds v) (h2 : ∀ c ∈ gap, c = ' '.toNat) (h3 : 46 ∉ name ++ a) (h4 : 59 ∉ b) :
    scanLine (ds ++ gap ++ ';'.toNat :: name ++ (a ++ str ".." ++ b)) = .stuck := by
  obtain ⟨c, l, e, hc⟩ := not_comment (rest := gap ++ ';'.toNat :: name ++ (a ++ str ".." ++ b)) h1
  obtain ⟨n1, n2, n3⟩ := number_not h1
  have d : indexOfDots (ds ++ gap ++ ';'.toNat :: name ++ (a ++ str ".." ++ b)) = some (ds ++ gap ++ ';'.toNat :: name ++ a).length := by
    have e : ds ++ gap ++ ';'.toNat :: name ++ (a ++ str ".." ++ b) = (ds ++ gap ++ ';'.toNat :: name ++ a) ++ (46 :: 46 :: b) := by simp [str]
    rw [e, dots_app]
    · simp [indexOfDots]
    · simp only [List.mem_append, List.mem_cons, not_or] at h3 ⊢
      exact ⟨⟨⟨n1, fun hg => absurd (h2 46 hg) (by decide)⟩, by decide, h3.1⟩, h3.2⟩
  have s : setCharAt (ds ++ gap ++ ';'.toNat :: name ++ (a ++ str ".." ++ b)) 0 = (v, ds.length) := by
    have := setCharAt_eq (pre := []) (rest := gap ++ ';'.toNat :: name ++ (a ++ str ".." ++ b)) h1 (by
      intro c v hh
      cases gap with
      | nil => simp at hh; exact not_digit (Or.inr (Or.inl hh.symm)) v
      | cons g gap => simp at hh; exact not_digit (Or.inr (Or.inr (Or.inl (by rw [← hh]; exact h2 g List.mem_cons_self)))) v)
    simpa using this
  have i : indexOf 59 (ds ++ gap ++ ';'.toNat :: name ++ (a ++ str ".." ++ b)) ((ds ++ gap ++ ';'.toNat :: name ++ a).length + 2) = none := by
    have := indexOf_none (c := 59) (pre := ds ++ gap ++ ';'.toNat :: name ++ a ++ str "..") (l := b) h4
    simpa [str, Nat.add_assoc] using this
  have e' : ds ++ gap ++ ';'.toNat :: name ++ (a ++ str ".." ++ b) = c :: l := by rw [← e]; simp
  have hle : ds.length ≤ (ds ++ gap ++ ';'.toNat :: name ++ a).length := by simp
  rw [e'] at d s i ⊢
  simp only [scanLine, if_neg hc, d, s, i, if_pos hle]

/-- `2047 ; Sample # a..b` -/
example : scanLine (str "2047 ; Sample # a..b") = .stuck :=
  C95_fails_dots (ds := str "2047") (gap := [32]) (name := str " Sample ") (a := str "# a") (b := str "b")
    (number_of [(50, 2), (48, 0), (52, 4), (55, 7)] (by decide) (by simp [Text.Spec.IsDigit, Text.Spec.Sys.base]) (by decide)) (by decide) (by decide) (by decide)

/-! ### Classes -/

section
variable {C : Type} [CharSetLike C]

/-- The automaton of a range matches the encodings of its characters. -/
def Right (range : Nat → Nat → Option (NFA C)) (K : LexSyn.Spec.Reading) (b e : Nat) : Prop :=
  Made (range b (e + 1)) fun w => ∃ c, b ≤ c ∧ c ≤ e ∧ K.char c ∧ w = K.enc c

/-- Some automaton is built for every range of Unicode. -/
def Total (range : Nat → Nat → Option (NFA C)) : Prop := ∀ b e, b ≤ e → e < 0x110000 → ∃ n, range b (e + 1) = some n ∧ n.Wf

/-- What is built for the range. -/
def Got (range : Nat → Nat → Option (NFA C)) (b e : Nat) : Lang := fun w => ∃ n, range b (e + 1) = some n ∧ n.Lang w

theorem made_got {range : Nat → Nat → Option (NFA C)} (h : Total range) {b e : Nat} (h1 : b ≤ e) (h2 : e < 0x110000) : Made (range b (e + 1)) (Got range b e) := by
  obtain ⟨n, g1, g2⟩ := h b e h1 h2
  exact ⟨n, g1, g2, fun w => ⟨fun hw => ⟨n, g1, hw⟩, fun ⟨m, e, hw⟩ => by rw [g1] at e; cases e; exact hw⟩⟩

theorem got_right {range : Nat → Nat → Option (NFA C)} {K : LexSyn.Spec.Reading} {b e : Nat} (h : Right range K b e) (w : List Nat) :
    Got range b e w ↔ ∃ c, b ≤ c ∧ c ≤ e ∧ K.char c ∧ w = K.enc c := by
  obtain ⟨n, g1, g2, g3⟩ := h
  refine Iff.trans ?_ (g3 w)
  exact ⟨fun ⟨m, e, hw⟩ => by rw [g1] at e; cases e; exact hw, fun hw => ⟨n, g1, hw⟩⟩

/-- C95: loading well-formed tables succeeds, whatever has been defined before.  Afterwards exactly the names listed in some table (and three more) are known in addition to those known before;
each stands for the words of the ranges listed under it in any of the tables, besides what it stood for before (but `num` and the names of the two ranges lose earlier meanings). -/
theorem C95_load {range : Nat → Nat → Option (NFA C)} (ht : Total range) {fs : List (List Nat)} {ess : List (List (Nat × Nat × Text))} (h : List.Forall₂ Table fs ess)
    (hu : Unicode ess.flatten) (hn : Numeric ess.flatten) {st : Store C} (hs : ∀ n d, st n = some d → d.nfa.Wf) :
    ∃ st', loadUnicodeData range fs st = .ok st' ∧ (∀ n d, st' n = some d → d.nfa.Wf) ∧ ∀ n, n ≠ [] → (st' n ≠ none ↔ st n ≠ none ∨ Known ess.flatten n) ∧
      ∀ w, (∃ d, st' n = some d ∧ d.nfa.Lang w) ↔ (∃ b e, Part ess.flatten n b e ∧ Got range b e w) ∨
        ∃ m d, (m = n ∧ n ∉ [str "num", str "ascii-range", str "latin1-range"] ∨ n = str "num" ∧ m ∈ [str "numeric", str "digit", str "decimal"]) ∧ st m = some d ∧ d.nfa.Lang w := by
  obtain ⟨st', h1, h2, _, h3⟩ := load_spec (R := Got range) h (fun b e n hx => made_got ht (hu _ hx).1 (hu _ hx).2) (made_got ht (by omega) (by omega)) (made_got ht (by omega) (by omega))
    (made_got ht (by omega) (by omega)) hs fun n hm => Or.inr (hn n hm)
  refine ⟨st', h1, h2, fun n hne => ⟨(h3 n hne).1, fun w => ((h3 n hne).2 w).trans ?_⟩⟩
  have l : txt "num" = str "num" ∧ txt "ascii-range" = str "ascii-range" ∧ txt "latin1-range" = str "latin1-range" ∧ txt "numeric" = str "numeric" ∧ txt "digit" = str "digit" ∧
    txt "decimal" = str "decimal" := ⟨rfl, rfl, rfl, rfl, rfl, rfl⟩
  rw [l.1, l.2.1, l.2.2.1, l.2.2.2.1, l.2.2.2.2.1, l.2.2.2.2.2]
  simp only [Part, List.mem_cons, List.not_mem_nil, or_false, not_or, Before, words]
  have e1 : str "ascii-range" ≠ str "num" := by decide +kernel
  have e2 : str "latin1-range" ≠ str "num" := by decide +kernel
  have e3 : str "latin1-range" ≠ str "ascii-range" := by decide +kernel
  generalize str "num" = x1 at e1 e2 ⊢
  generalize str "ascii-range" = x2 at e1 e3 ⊢
  generalize str "latin1-range" = x3 at e2 e3 ⊢
  generalize str "numeric" = y1
  generalize str "digit" = y2
  generalize str "decimal" = y3
  by_cases c1 : n = x1
  · simp only [if_pos c1]
    constructor
    · rintro ((⟨d, g1, g2⟩ | ⟨b, e, g1, g2⟩) | (⟨d, g1, g2⟩ | ⟨b, e, g1, g2⟩) | (⟨d, g1, g2⟩ | ⟨b, e, g1, g2⟩))
      · exact Or.inr ⟨y1, d, Or.inr ⟨c1, Or.inl rfl⟩, g1, g2⟩
      · exact Or.inl ⟨b, e, Or.inl g1, g2⟩
      · exact Or.inr ⟨y2, d, Or.inr ⟨c1, Or.inr (Or.inl rfl)⟩, g1, g2⟩
      · exact Or.inl ⟨b, e, Or.inr (Or.inl g1), g2⟩
      · exact Or.inr ⟨y3, d, Or.inr ⟨c1, Or.inr (Or.inr rfl)⟩, g1, g2⟩
      · exact Or.inl ⟨b, e, Or.inr (Or.inr g1), g2⟩
    · rintro (⟨b, e, g1 | g1 | g1, g2⟩ | ⟨m, d, ⟨_, g, _⟩ | ⟨_, rfl | rfl | rfl⟩, g1, g2⟩)
      · exact Or.inl (Or.inr ⟨b, e, g1, g2⟩)
      · exact Or.inr (Or.inl (Or.inr ⟨b, e, g1, g2⟩))
      · exact Or.inr (Or.inr (Or.inr ⟨b, e, g1, g2⟩))
      · exact absurd c1 g
      · exact Or.inl (Or.inl ⟨d, g1, g2⟩)
      · exact Or.inr (Or.inl (Or.inl ⟨d, g1, g2⟩))
      · exact Or.inr (Or.inr (Or.inl ⟨d, g1, g2⟩))
  · simp only [if_neg c1]
    by_cases c2 : n = x2
    · simp only [if_pos c2]
      constructor
      · intro g; exact Or.inl ⟨0, 127, ⟨rfl, rfl⟩, g⟩
      · rintro (⟨b, e, ⟨rfl, rfl⟩, g⟩ | ⟨m, d, ⟨_, _, g, _⟩ | ⟨g, _⟩, _⟩)
        · exact g
        · exact absurd c2 g
        · exact absurd g c1
    · simp only [if_neg c2]
      by_cases c3 : n = x3
      · simp only [if_pos c3]
        constructor
        · intro g; exact Or.inl ⟨0, 255, ⟨rfl, rfl⟩, g⟩
        · rintro (⟨b, e, ⟨rfl, rfl⟩, g⟩ | ⟨m, d, ⟨_, _, _, g⟩ | ⟨g, _⟩, _⟩)
          · exact g
          · exact absurd c3 g
          · exact absurd g c1
      · simp only [if_neg c3]
        constructor
        · rintro (⟨d, g1, g2⟩ | g)
          · exact Or.inr ⟨n, d, Or.inl ⟨rfl, c1, c2, c3⟩, g1, g2⟩
          · exact Or.inl g
        · rintro (g | ⟨m, d, ⟨rfl, _⟩ | ⟨g, _⟩, g1, g2⟩)
          · exact Or.inr g
          · exact Or.inl ⟨d, g1, g2⟩
          · exact absurd g c1

/-- C95: if the classes are loaded first, a name stands for the encodings of the characters listed under it, provided that the automata of the ranges listed are right. -/
theorem C95_class {range : Nat → Nat → Option (NFA C)} {K : LexSyn.Spec.Reading} (ht : Total range) {fs : List (List Nat)} {ess : List (List (Nat × Nat × Text))}
    (h : List.Forall₂ Table fs ess) (hu : Unicode ess.flatten) (hn : Numeric ess.flatten) :
    ∃ st', loadUnicodeData range fs (fun _ => none) = .ok st' ∧ (∀ n d, st' n = some d → d.nfa.Wf ∧ d.ready = false) ∧ ∀ n, n ≠ [] → (st' n ≠ none ↔ Known ess.flatten n) ∧
      ((∀ b e, Part ess.flatten n b e → Right range K b e) → ∀ d, st' n = some d → ∀ w, d.nfa.Lang w ↔ classLang K ess.flatten n w) := by
  have hs : ∀ n d, (fun _ => none : Store C) n = some d → d.nfa.Wf := fun n d e => by cases e
  obtain ⟨st1, a1, _, a3, _⟩ := load_spec (R := Got range) h (fun b e n hx => made_got ht (hu _ hx).1 (hu _ hx).2) (made_got ht (by omega) (by omega)) (made_got ht (by omega) (by omega))
    (made_got ht (by omega) (by omega)) hs fun n hm => Or.inr (hn n hm)
  obtain ⟨st', h1, h2, h3⟩ := C95_load ht h hu hn hs
  obtain rfl : st1 = st' := by rw [h1] at a1; cases a1; rfl
  refine ⟨st1, h1, fun n d e => ⟨h2 n d e, a3 (fun _ _ e => by cases e) n d e⟩, fun n hne => ⟨by rw [(h3 n hne).1]; simp, fun hr d e w => ?_⟩⟩
  have := (h3 n hne).2 w
  simp only [e, Option.some.injEq, exists_eq_left'] at this
  rw [this]
  constructor
  · rintro (⟨b, e, g1, g2⟩ | ⟨m, d, _, g, _⟩)
    · obtain ⟨c, i1, i2, i3, i4⟩ := (got_right (hr b e g1) w).1 g2
      exact ⟨c, ⟨b, e, g1, i1, i2⟩, i3, i4⟩
    · cases g
  · rintro ⟨c, ⟨b, e, g1, i1, i2⟩, i3, i4⟩
    exact Or.inl ⟨b, e, g1, (got_right (hr b e g1) w).2 ⟨c, i1, i2, i3, i4⟩⟩

end

/-! ### Encodings -/

section
variable {C : Type} [RangeSet C]

theorem total_fixed : Total (rangeFixed : Nat → Nat → Option (NFA C)) := fun b e _ _ => (C26_range b (e + 1)).imp fun _ h => ⟨h.1, h.2.1⟩

theorem total_ucs4 (hsz : CharSetLike.size C = 0x110000) : Total (rangeUcs4 : Nat → Nat → Option (NFA C)) :=
  fun b e _ h => (C26_ucs4_partial (b := b) (e := e + 1) (by omega)).imp fun _ h => ⟨h.1, h.2.1⟩

theorem total_utf8 (hsz : CharSetLike.size C = 256) : Total (rangeUtf8 : Nat → Nat → Option (NFA C)) :=
  fun b e h1 h2 => (builds_utf8 hsz (b := b) (e := e + 1) (by omega) (by omega)).imp fun _ h => ⟨h.1, h.2.1⟩

theorem total_utf16 (hsz : CharSetLike.size C = 65536) : Total (rangeUtf16 : Nat → Nat → Option (NFA C)) :=
  fun b e _ _ => (C28_range_iff hsz b (e + 1)).imp fun _ h => ⟨h.1, h.2.1⟩

/-- C95, ASCII, Latin-1 and UCS-2: every class, as far as its characters are in the code space. -/
theorem C95_fixed (cf : Text → List Nat) (b e : Nat) : Right (rangeFixed : Nat → Nat → Option (NFA C)) (fixed cf (CharSetLike.size C)) b e := made_fixed (C26_range (C := C) b (e + 1))

/-- C95, UCS-4: every class. -/
theorem C95_ucs4 (hsz : CharSetLike.size C = 0x110000) (cf : Text → List Nat) {b e : Nat} (he : e < 0x110000) :
    Right (rangeUcs4 : Nat → Nat → Option (NFA C)) (fixed cf 0x110000) b e := by
  have := made_fixed (C26_ucs4_partial (C := C) (b := b) (e := e + 1) (by omega))
  rw [hsz] at this; exact this

/-- C95, UTF-8 (partial): ranges as in `C27_range_partial`.  13 of the classes in the tables have others. -/
theorem C95_utf8_partial (hsz : CharSetLike.size C = 256) (cf : Text → List Nat) {b e : Nat} (hbe : b ≤ e) (he : e < 0x110000) (hok : Utf8Ok b (e + 1)) (hs : e < 0xd800 ∨ 0xe000 ≤ b) :
    Right (rangeUtf8 : Nat → Nat → Option (NFA C)) (readUtf8 cf) b e := by
  obtain ⟨n, g1, g2, g3⟩ := C27_range_partial (C := C) hsz (b := b) (e := e + 1) (by omega) (by omega) hok (by omega)
  refine ⟨n, g1, g2, fun w => (g3 w).trans (exists_congr fun c => ?_)⟩
  constructor
  · rintro ⟨a1, a2, a3, a4⟩; exact ⟨a1, by omega, a3, a4⟩
  · rintro ⟨a1, a2, a3, a4⟩; exact ⟨a1, by omega, a3, a4⟩

/-- C95, UTF-16 (partial): ranges as in `C28_range_partial`.  50 of the classes in the tables have others. -/
theorem C95_utf16_partial (hsz : CharSetLike.size C = 65536) (cf : Text → List Nat) {b e : Nat} (hok : Utf16Ok b (e + 1)) :
    Right (rangeUtf16 : Nat → Nat → Option (NFA C)) (readUtf16 cf) b e := by
  obtain ⟨n, g1, g2, g3⟩ := C28_range_partial (C := C) hsz hok
  refine ⟨n, g1, g2, fun w => (g3 w).trans (exists_congr fun c => ?_)⟩
  constructor
  · rintro ⟨a1, a2, a3, a4⟩; exact ⟨a1, by omega, a3, a4⟩
  · rintro ⟨a1, a2, a3, a4⟩; exact ⟨a1, by omega, a3, a4⟩

end

/-! ### Where the classes are wrong -/

section
variable {C : Type} [RangeSet C]

/-- C95 fails in UTF-16: if all ranges of a class begin with the first character of a block of 1024 beyond the BMP, and end before the last character of a block, none of its characters is
matched. -/
theorem C95_fails_utf16 (hsz : CharSetLike.size C = 65536) {fs : List (List Nat)} {ess : List (List (Nat × Nat × Text))} (h : List.Forall₂ Table fs ess) (hu : Unicode ess.flatten)
    (hn : Numeric ess.flatten) {n : Text} (hne : n ≠ []) (hp : ∀ b e, Part ess.flatten n b e → 0x10000 ≤ b ∧ b ≤ e ∧ e < 0x10ffff ∧ b % 1024 = 0 ∧ (e + 1) % 1024 ≠ 0) :
    ∃ st', loadUnicodeData (rangeUtf16 : Nat → Nat → Option (NFA C)) fs (fun _ => none) = .ok st' ∧ ∀ d, st' n = some d → ∀ c, Scalar c → Class ess.flatten n c → ¬ d.nfa.Lang (utf16 c) := by
  obtain ⟨st', h1, _, h3⟩ := C95_load (total_utf16 (C := C) hsz) h hu hn (st := fun _ => none) fun n d e => by cases e
  refine ⟨st', h1, fun d hd c hc hcl hl => ?_⟩
  obtain ⟨b0, e0, k1, k2, k3⟩ := hcl
  have k4 := hp b0 e0 k1
  have := ((h3 n hne).2 (utf16 c)).1 ⟨d, hd, hl⟩
  rcases this with ⟨b, e, g1, m, g2, g3⟩ | ⟨_, _, _, g, _⟩
  · obtain ⟨i1, i2, i3, i4, i5⟩ := hp b e g1
    rw [rangeUtf16, if_neg (by omega), if_neg (by omega), if_pos (by omega)] at g2
    rw [((builds_high hsz i1 (by omega) (by omega)).lang g2).2] at g3
    rw [utf16, if_neg (by omega)] at g3
    simp only [SP, P16High, if_neg i5, if_pos i4, and_false, exists_false, or_false] at g3
    obtain ⟨x, g3, _⟩ := g3
    cases g3
  · cases g

/-- C95 fails in UTF-8: a class with the range `3400..4DB5` (as Alphabetic, ID_Start, Han and others have) matches bytes that are the encoding of no character. -/
theorem C95_fails_utf8 (hsz : CharSetLike.size C = 256) {fs : List (List Nat)} {ess : List (List (Nat × Nat × Text))} (h : List.Forall₂ Table fs ess) (hu : Unicode ess.flatten)
    (hn : Numeric ess.flatten) {n : Text} (hne : n ≠ []) (hp : Part ess.flatten n 0x3400 0x4db5) :
    ∃ st', loadUnicodeData (rangeUtf8 : Nat → Nat → Option (NFA C)) fs (fun _ => none) = .ok st' ∧ ∃ d, st' n = some d ∧ d.nfa.Lang [0xe3, 0xc0, 0x80] ∧
      ∀ c, Scalar c → [0xe3, 0xc0, 0x80] ≠ utf8 c := by
  obtain ⟨st', h1, _, h3⟩ := C95_load (total_utf8 (C := C) hsz) h hu hn (st := fun _ => none) fun n d e => by cases e
  obtain ⟨m, g1, g2, g3⟩ := builds_utf8 (C := C) hsz (b := 0x3400) (e := 0x4db6) (by omega) (by omega)
  obtain ⟨d, hd, hl⟩ := ((h3 n hne).2 [0xe3, 0xc0, 0x80]).2 (Or.inl ⟨_, _, hp, m, g1, (g3 _).2 (by simp [L1, L2, L3, TL])⟩)
  refine ⟨st', h1, d, hd, hl, fun c hc e => ?_⟩
  simp only [utf8] at e
  split at e
  · cases e
  · split at e
    · have := congrArg List.length e; simp at this
    · split at e
      · simp only [List.cons.injEq, and_true] at e; omega
      · have := congrArg List.length e; simp at this

/-- C95: characters listed under the same name in several tables make one class.  So the class `arabic`, a name of a block and of a script, contains U+060C for its block, whatever
the other tables say. -/
theorem C95_fails_script {range : Nat → Nat → Option (NFA C)} {K : LexSyn.Spec.Reading} (ht : Total range) (hr : Right range K 0x600 0x6ff) (hk : K.char 0x60c)
    {fs : List (List Nat)} {ess : List (List (Nat × Nat × Text))} (h : List.Forall₂ Table fs ess) (hu : Unicode ess.flatten) (hn : Numeric ess.flatten)
    (hb : ∃ es ∈ ess, (0x600, 0x6ff, str "arabic") ∈ es) :
    ∃ st', loadUnicodeData range fs (fun _ => none) = .ok st' ∧ ∃ d, st' (str "arabic") = some d ∧ d.nfa.Lang (K.enc 0x60c) := by
  obtain ⟨st', h1, _, h3⟩ := C95_load ht h hu hn (st := fun _ => none) fun n d e => by cases e
  obtain ⟨es, hes, hb⟩ := hb
  have hp : Part ess.flatten (str "arabic") 0x600 0x6ff := by
    rw [Part, if_neg (by decide +kernel), if_neg (by decide +kernel), if_neg (by decide +kernel)]
    exact List.mem_flatten.2 ⟨es, hes, hb⟩
  obtain ⟨d, hd, hl⟩ := ((h3 (str "arabic") (by decide)).2 (K.enc 0x60c)).2 (Or.inl ⟨_, _, hp, (got_right hr _).2 ⟨0x60c, by omega, by omega, hk, rfl⟩⟩)
  exact ⟨st', h1, d, hd, hl⟩

/-- C95 fails where the first lexer section has a name: then the tables have not been loaded, and using a class ends the program. -/
theorem C95_fails_named {A : Chars C} {order : List Bits → List Bits} {fuel : Nat} {uni : Store C → Out (Store C)} {s n c : Text} {a : Act} {ds : List Decl}
    {ss : List (Option Text × List Decl)} : execFile A order fuel uni Sys.init ((some s, .rule (.named n) .nothing c a :: ds) :: ss) = .exit := by
  have : (openEnv s (Sys.init : Sys C)).store = fun _ => none := by
    rw [openEnv]; split <;> rfl
  simp only [execFile, execSection, execAll, exec, build, useNamed, this, Out.bind]

/-! ### Files -/

theorem closed_mono {k k' : Text → Prop} (hk : ∀ s, k s → k' s) {x : E} (h : LexSyn.Spec.Closed k x) : LexSyn.Spec.Closed k' x := by
  induction x with
  | eps | dot | str | word | coll | range => trivial
  | named s => exact hk s h
  | alt _ _ i j | and _ _ i j | but _ _ i j | cat _ _ i j | sepBy _ _ i j => exact ⟨i h.1, j h.2⟩
  | neg _ i | opt _ i | star _ i | plus _ i => exact i h

theorem learn_mono {k k' : Text → Prop} (hk : ∀ s, k s → k' s) (d : Decl) (s : Text) (h : LexSyn.Spec.learn k d s) : LexSyn.Spec.learn k' d s := by
  cases d with
  | define t x => exact h.imp id (hk s)
  | rule | fail | enter | leave => exact hk s h

theorem closedAll_mono {ds : List Decl} : ∀ {k k' : Text → Prop}, (∀ s, k s → k' s) → LexSyn.Spec.ClosedAll k ds → LexSyn.Spec.ClosedAll k' ds := by
  induction ds with
  | nil => intro _ _ _ _; trivial
  | cons d ds ih =>
    intro k k' hk h
    exact ⟨fun s x e => closed_mono hk (h.1 s x e), fun x y c t e => closed_mono hk (h.2.1 x y c t e), ih (learn_mono hk d) h.2.2⟩

theorem foldl_learn_mono {ds : List Decl} : ∀ {k k' : Text → Prop}, (∀ s, k s → k' s) → ∀ s, ds.foldl LexSyn.Spec.learn k s → ds.foldl LexSyn.Spec.learn k' s := by
  induction ds with
  | nil => intro _ _ hk; exact hk
  | cons d ds ih => intro k k' hk; exact ih (learn_mono hk d)

theorem closedFile_mono {ss : List (Option Text × List Decl)} : ∀ {k k' : Text → Prop}, (∀ s, k s → k' s) → LexSyn.Spec.ClosedFile k ss → LexSyn.Spec.ClosedFile k' ss := by
  induction ss with
  | nil => intro _ _ _ _; trivial
  | cons p ss ih => intro k k' hk h; exact ⟨closedAll_mono hk h.1, ih (foldl_learn_mono hk) h.2⟩

/-- C95 (partial, as `C93_file_partial`): in a file that begins with a lexer section without a name, `{name}` stands for the characters listed under the name, unless defined otherwise.  `N` gives the words of all
names known in the beginning. -/
theorem C95_file_partial {A : Chars C} {K : LexSyn.Spec.Reading} (hK : K.Bounded) (order : List Bits → List Bits) (ho : Enumerates order) {range : Nat → Nat → Option (NFA C)} (ht : Total range)
    {fs : List (List Nat)} {ess : List (List (Nat × Nat × Text))} (h : List.Forall₂ Table fs ess) (hu : Unicode ess.flatten) (hn : Numeric ess.flatten) :
    ∃ N : Text → Lang, (∀ n, n ≠ [] → Known ess.flatten n → (∀ b e, Part ess.flatten n b e → Right range K b e) → ∀ w, N n w ↔ classLang K ess.flatten n w) ∧
      ∀ ds ss, (∀ p ∈ (none, ds) :: ss, FaithfulAll A K p.2) → (∀ p ∈ (none, ds) :: ss, LexSyn.Spec.PlainAll p.2) →
        LexSyn.Spec.ClosedFile (fun s => s ≠ [] ∧ Known ess.flatten s) ((none, ds) :: ss) → LexSyn.Spec.SafeFile K (CharSetLike.size C) N ((none, ds) :: ss) →
        ∃ F, ∀ fuel, F ≤ fuel → ∃ sys', execFile A order fuel (loadUnicodeData range fs) Sys.init ((none, ds) :: ss) = .ok sys' ∧
          ∀ e, List.Forall₂ (fun n L => n.Wf ∧ ∀ w, n.Lang w ↔ L w) (sys'.envs e).rules (LexSyn.Spec.fileLangs K (CharSetLike.size C) e N ((none, ds) :: ss)) := by
  obtain ⟨st', h1, h2, h3⟩ := C95_class (K := K) ht h hu hn
  refine ⟨words st', fun n hne hk hr w => ?_, fun ds ss hf hp hc hs => ?_⟩
  · obtain ⟨d, hd⟩ := Option.ne_none_iff_exists'.1 ((h3 n hne).1.2 hk)
    rw [← (h3 n hne).2 hr d hd]
    simp [words, hd]
  · exact C93_file_partial hK order ho (loadUnicodeData range fs) st' (words st')
      (fun s d hd => ⟨(h2 s d hd).2, (h2 s d hd).1, fun w => by simp [words, hd]⟩) _ (Or.inl ⟨⟨ds, ss, rfl⟩, h1⟩) hf hp
      (closedFile_mono (fun s hs => (h3 s hs.1).1.2 hs.2) hc) hs

end

/-! ### Examples -/

/-- A line of a table without comment. -/
theorem plain_line {ds : List (Nat × Nat)} {es : List (Nat × Nat)} {t : List Nat} (h1 : ds ≠ []) (h2 : ∀ d ∈ ds, Text.Spec.IsDigit .hex d.1 d.2)
    (h3 : Text.Spec.value 16 (ds.map (·.2)) 0 < 2 ^ 28) (g1 : es ≠ []) (g2 : ∀ d ∈ es, Text.Spec.IsDigit .hex d.1 d.2) (g3 : Text.Spec.value 16 (es.map (·.2)) 0 < 2 ^ 28)
    (h : 35 ∉ t) (i1 : t ≠ []) (i2 : ∀ c ∈ t.head?, ¬ Blank c) (i3 : ∀ c ∈ t.getLast?, ¬ Blank c) :
    Line (ds.map (·.1) ++ str ".." ++ es.map (·.1) ++ [] ++ ';'.toNat :: (32 :: t ++ [10]) ++ [])
      (some (Text.Spec.value 16 (ds.map (·.2)) 0, Text.Spec.value 16 (es.map (·.2)) 0, t.map fold)) := by
  refine .range (number_of ds h1 h2 h3) (number_of es g1 g2 g3) (by simp) ?_ ⟨[32], t, [10], rfl, by simp [Blank], by simp [Blank], i2, i3, rfl⟩ (by simpa using i1) (Or.inl rfl)
  simpa [show '#'.toNat = 35 from rfl] using h

theorem numeric_table : Table (str "0030..0039; Decimal\n00B2..00B3; Digit\n00BC..00BE; Numeric\n")
    [(0x30, 0x39, str "decimal"), (0xb2, 0xb3, str "digit"), (0xbc, 0xbe, str "numeric")] := by
  refine .line (l := str "0030..0039; Decimal") (e := some (0x30, 0x39, str "decimal")) (t := str "00B2..00B3; Digit\n00BC..00BE; Numeric\n") (by decide) ?_ ?_
  · exact plain_line (ds := [(48, 0), (48, 0), (51, 3), (48, 0)]) (es := [(48, 0), (48, 0), (51, 3), (57, 9)]) (t := str "Decimal") (by decide)
      (by simp [Text.Spec.IsDigit, Text.Spec.Sys.base]) (by decide) (by decide) (by simp [Text.Spec.IsDigit, Text.Spec.Sys.base]) (by decide) (by decide) (by decide) (by simp [str, Blank])
      (by simp [str, Blank])
  refine .line (l := str "00B2..00B3; Digit") (e := some (0xb2, 0xb3, str "digit")) (t := str "00BC..00BE; Numeric\n") (by decide) ?_ ?_
  · exact plain_line (ds := [(48, 0), (48, 0), (66, 11), (50, 2)]) (es := [(48, 0), (48, 0), (66, 11), (51, 3)]) (t := str "Digit") (by decide)
      (by simp [Text.Spec.IsDigit, Text.Spec.Sys.base]) (by decide) (by decide) (by simp [Text.Spec.IsDigit, Text.Spec.Sys.base]) (by decide) (by decide) (by decide) (by simp [str, Blank])
      (by simp [str, Blank])
  refine .line (l := str "00BC..00BE; Numeric") (e := some (0xbc, 0xbe, str "numeric")) (t := []) (by decide) ?_ .nil
  exact plain_line (ds := [(48, 0), (48, 0), (66, 11), (67, 12)]) (es := [(48, 0), (48, 0), (66, 11), (69, 14)]) (t := str "Numeric") (by decide)
    (by simp [Text.Spec.IsDigit, Text.Spec.Sys.base]) (by decide) (by decide) (by simp [Text.Spec.IsDigit, Text.Spec.Sys.base]) (by decide) (by decide) (by decide) (by simp [str, Blank])
    (by simp [str, Blank])

theorem arabic_table : Table (str "0600..06FF; Arabic\n") [(0x600, 0x6ff, str "arabic")] :=
  .line (l := str "0600..06FF; Arabic") (t := []) (by decide) arabic_block .nil

theorem comma_table : Table (str "060C          ; Common # Po       ARABIC COMMA\n") [(0x60c, 0x60c, str "common")] :=
  .line (l := str "060C          ; Common # Po       ARABIC COMMA") (t := []) (by decide) arabic_comma .nil

/-- Three tables: a block, a script, and numbers. -/
theorem three_tables : List.Forall₂ Table [str "0600..06FF; Arabic\n", str "060C          ; Common # Po       ARABIC COMMA\n", str "0030..0039; Decimal\n00B2..00B3; Digit\n00BC..00BE; Numeric\n"]
    [[(0x600, 0x6ff, str "arabic")], [(0x60c, 0x60c, str "common")], [(0x30, 0x39, str "decimal"), (0xb2, 0xb3, str "digit"), (0xbc, 0xbe, str "numeric")]] :=
  .cons arabic_table (.cons comma_table (.cons numeric_table .nil))

theorem three_unicode : Spec.Unicode (List.flatten [[(0x600, 0x6ff, str "arabic")], [(0x60c, 0x60c, str "common")],
    [(0x30, 0x39, str "decimal"), (0xb2, 0xb3, str "digit"), (0xbc, 0xbe, str "numeric")]]) := by simp [Spec.Unicode]

theorem three_numeric : Spec.Numeric (List.flatten [[(0x600, 0x6ff, str "arabic")], [(0x60c, 0x60c, str "common")],
    [(0x30, 0x39, str "decimal"), (0xb2, 0xb3, str "digit"), (0xbc, 0xbe, str "numeric")]]) := by
  intro n hn
  simp only [List.mem_cons, List.not_mem_nil, or_false] at hn
  rcases hn with rfl | rfl | rfl
  · exact ⟨_, _, by simp; exact Or.inr (Or.inr (Or.inr (Or.inr ⟨rfl, rfl⟩)))⟩
  · exact ⟨_, _, by simp; exact Or.inr (Or.inr (Or.inr (Or.inl ⟨rfl, rfl⟩)))⟩
  · exact ⟨_, _, by simp; exact Or.inr (Or.inr (Or.inl ⟨rfl, rfl⟩))⟩

/-- In UCS-2, with these tables `{num}` matches the 15 characters listed as numbers. -/
theorem three_num (w : List Nat) : classLang (fixed (fun s => s) 65536) (List.flatten [[(0x600, 0x6ff, str "arabic")], [(0x60c, 0x60c, str "common")],
    [(0x30, 0x39, str "decimal"), (0xb2, 0xb3, str "digit"), (0xbc, 0xbe, str "numeric")]]) (str "num") w ↔
    ∃ c, (0x30 ≤ c ∧ c ≤ 0x39 ∨ 0xb2 ≤ c ∧ c ≤ 0xb3 ∨ 0xbc ≤ c ∧ c ≤ 0xbe) ∧ w = [c] := by
  have e : ∀ b e, Part (List.flatten [[(0x600, 0x6ff, str "arabic")], [(0x60c, 0x60c, str "common")],
      [(0x30, 0x39, str "decimal"), (0xb2, 0xb3, str "digit"), (0xbc, 0xbe, str "numeric")]]) (str "num") b e ↔ (b, e) ∈ [(0x30, 0x39), (0xb2, 0xb3), (0xbc, 0xbe)] := by
    intro b e
    rw [Part, if_pos rfl]
    simp [show str "numeric" ≠ str "arabic" by decide +kernel, show str "numeric" ≠ str "common" by decide +kernel, show str "numeric" ≠ str "decimal" by decide +kernel,
      show str "numeric" ≠ str "digit" by decide +kernel, show str "digit" ≠ str "arabic" by decide +kernel, show str "digit" ≠ str "common" by decide +kernel,
      show str "digit" ≠ str "decimal" by decide +kernel, show str "digit" ≠ str "numeric" by decide +kernel, show str "decimal" ≠ str "arabic" by decide +kernel,
      show str "decimal" ≠ str "common" by decide +kernel, show str "decimal" ≠ str "numeric" by decide +kernel, show str "decimal" ≠ str "digit" by decide +kernel]
    omega
  constructor
  · rintro ⟨c, ⟨b, f, h1, h2, h3⟩, _, rfl⟩
    have := (e b f).1 h1
    simp only [List.mem_cons, Prod.mk.injEq, List.not_mem_nil, or_false] at this
    exact ⟨c, by omega, rfl⟩
  · rintro ⟨c, h, rfl⟩
    rcases h with h | h | h
    · exact ⟨c, ⟨0x30, 0x39, (e _ _).2 (by simp), h⟩, by simp [fixed]; omega, rfl⟩
    · exact ⟨c, ⟨0xb2, 0xb3, (e _ _).2 (by simp), h⟩, by simp [fixed]; omega, rfl⟩
    · exact ⟨c, ⟨0xbc, 0xbe, (e _ _).2 (by simp), h⟩, by simp [fixed]; omega, rfl⟩

example : ∃ st', loadUnicodeData (rangeFixed : Nat → Nat → Option (NFA (SeqCS 65536)))
      [str "0600..06FF; Arabic\n", str "060C          ; Common # Po       ARABIC COMMA\n", str "0030..0039; Decimal\n00B2..00B3; Digit\n00BC..00BE; Numeric\n"] (fun _ => none) = .ok st' ∧
    ∃ d, st' (str "num") = some d ∧ ∀ w, d.nfa.Lang w ↔ ∃ c, (0x30 ≤ c ∧ c ≤ 0x39 ∨ 0xb2 ≤ c ∧ c ≤ 0xb3 ∨ 0xbc ≤ c ∧ c ≤ 0xbe) ∧ w = [c] := by
  obtain ⟨st', h1, _, h3⟩ := C95_class (K := fixed (fun s => s) 65536) (total_fixed (C := SeqCS 65536)) three_tables three_unicode three_numeric
  obtain ⟨d, hd⟩ := Option.ne_none_iff_exists'.1 ((h3 (str "num") (by decide)).1.2 (Or.inl rfl))
  exact ⟨st', h1, d, hd, fun w => ((h3 (str "num") (by decide)).2 (fun b e _ => C95_fixed (C := SeqCS 65536) _ b e) d hd w).trans (three_num w)⟩

/-- Loading after `num` had been defined, and `common` as a newline: the first definition is lost, the second one is extended. -/
example (nl : NFA (SeqCS 65536)) (hw : nl.Wf) (hl : ∀ w, nl.Lang w ↔ w = [10]) : ∃ st', loadUnicodeData (rangeFixed : Nat → Nat → Option (NFA (SeqCS 65536)))
      [str "0600..06FF; Arabic\n", str "060C          ; Common # Po       ARABIC COMMA\n", str "0030..0039; Decimal\n00B2..00B3; Digit\n00BC..00BE; Numeric\n"]
      (fun s => if s = str "num" ∨ s = str "common" then some ⟨nl, false⟩ else none) = .ok st' ∧
    (∃ d, st' (str "common") = some d ∧ d.nfa.Lang [10]) ∧ ¬ ∃ d, st' (str "num") = some d ∧ d.nfa.Lang [10] := by
  obtain ⟨st', h1, _, h3⟩ := C95_load (total_fixed (C := SeqCS 65536)) three_tables three_unicode three_numeric
    (st := fun s => if s = str "num" ∨ s = str "common" then some ⟨nl, false⟩ else none) (by
      intro n d e
      split at e
      · cases e; exact hw
      · cases e)
  refine ⟨st', h1, ((h3 (str "common") (by decide)).2 [10]).2 (Or.inr ⟨str "common", ⟨nl, false⟩, Or.inl ⟨rfl, by decide +kernel⟩, if_pos (Or.inr rfl), (hl _).2 rfl⟩), fun h => ?_⟩
  rcases ((h3 (str "num") (by decide)).2 [10]).1 h with ⟨b, e, g1, g2⟩ | ⟨m, d, g1, g2, g3⟩
  · rw [got_right (C95_fixed (C := SeqCS 65536) (fun s => s) b e)] at g2
    obtain ⟨c, i1, i2, i3, i4⟩ := g2
    obtain ⟨c', i5, i6⟩ := (three_num [10]).1 ⟨c, ⟨b, e, g1, i1, i2⟩, i3, i4⟩
    cases i6
    omega
  · rcases g1 with ⟨_, g⟩ | ⟨_, g⟩
    · simp at g
    · have : ∀ m ∈ [str "numeric", str "digit", str "decimal"], ¬ (m = str "num" ∨ m = str "common") := by decide +kernel
      simp only [if_neg (this m g)] at g2
      cases g2

/-- In UCS-2, with these tables U+060C is in `{arabic}` though no script says so. -/
example : ∃ st', loadUnicodeData (rangeFixed : Nat → Nat → Option (NFA (SeqCS 65536)))
      [str "0600..06FF; Arabic\n", str "060C          ; Common # Po       ARABIC COMMA\n", str "0030..0039; Decimal\n00B2..00B3; Digit\n00BC..00BE; Numeric\n"] (fun _ => none) = .ok st' ∧
    ∃ d, st' (str "arabic") = some d ∧ d.nfa.Lang [0x60c] :=
  C95_fails_script (K := fixed (fun s => s) 65536) total_fixed (C95_fixed (C := SeqCS 65536) _ _ _) (by simp [fixed]) three_tables three_unicode three_numeric
    ⟨_, List.mem_cons_self, List.mem_cons_self⟩

/-- The line of the script Deseret, whose name is also that of a block with the same characters; in UTF-16 no character of it is matched. -/
theorem deseret_tables : List.Forall₂ Table [str "10400..1044F; Deseret\n", str "0030..0039; Decimal\n00B2..00B3; Digit\n00BC..00BE; Numeric\n"]
    [[(0x10400, 0x1044f, str "deseret")], [(0x30, 0x39, str "decimal"), (0xb2, 0xb3, str "digit"), (0xbc, 0xbe, str "numeric")]] := by
  refine .cons (.line (l := str "10400..1044F; Deseret") (e := some (0x10400, 0x1044f, str "deseret")) (t := []) (by decide) ?_ .nil) (.cons numeric_table .nil)
  exact plain_line (ds := [(49, 1), (48, 0), (52, 4), (48, 0), (48, 0)]) (es := [(49, 1), (48, 0), (52, 4), (52, 4), (70, 15)]) (t := str "Deseret") (by decide)
    (by simp [Text.Spec.IsDigit, Text.Spec.Sys.base]) (by decide) (by decide) (by simp [Text.Spec.IsDigit, Text.Spec.Sys.base]) (by decide) (by decide) (by decide) (by simp [str, Blank])
    (by simp [str, Blank])

theorem numeric_of {es : List (Nat × Nat × Text)} (h : ∀ x ∈ [(0x30, 0x39, str "decimal"), (0xb2, 0xb3, str "digit"), (0xbc, 0xbe, str "numeric")], x ∈ es) : Spec.Numeric es := by
  intro n hn
  simp only [List.mem_cons, List.not_mem_nil, or_false] at hn
  rcases hn with rfl | rfl | rfl
  · exact ⟨0xbc, 0xbe, h _ (by simp)⟩
  · exact ⟨0xb2, 0xb3, h _ (by simp)⟩
  · exact ⟨0x30, 0x39, h _ (by simp)⟩

example : ∃ st', loadUnicodeData (rangeUtf16 : Nat → Nat → Option (NFA (SeqCS 65536)))
      [str "10400..1044F; Deseret\n", str "0030..0039; Decimal\n00B2..00B3; Digit\n00BC..00BE; Numeric\n"] (fun _ => none) = .ok st' ∧
    ∀ d, st' (str "deseret") = some d → ¬ d.nfa.Lang (utf16 0x10428) := by
  obtain ⟨st', h1, h2⟩ := C95_fails_utf16 (C := SeqCS 65536) rfl deseret_tables (by simp [Spec.Unicode]) (numeric_of (by simp)) (n := str "deseret") (by decide) (by
    intro b e h
    rw [Part, if_neg (by decide +kernel), if_neg (by decide +kernel), if_neg (by decide +kernel)] at h
    simp [show str "deseret" ≠ str "decimal" by decide +kernel, show str "deseret" ≠ str "digit" by decide +kernel, show str "deseret" ≠ str "numeric" by decide +kernel] at h
    omega)
  refine ⟨st', h1, fun d hd => h2 d hd 0x10428 (by simp [Scalar]) ⟨0x10400, 0x1044f, ?_, by omega, by omega⟩⟩
  rw [Part, if_neg (by decide +kernel), if_neg (by decide +kernel), if_neg (by decide +kernel)]
  simp

/-- A line of the script Han. -/
example : ∃ st', loadUnicodeData (rangeUtf8 : Nat → Nat → Option (NFA (Verif.CharSet.Table 256)))
      [str "3400..4DB5; Han\n", str "0030..0039; Decimal\n00B2..00B3; Digit\n00BC..00BE; Numeric\n"] (fun _ => none) = .ok st' ∧
    ∃ d, st' (str "han") = some d ∧ d.nfa.Lang [0xe3, 0xc0, 0x80] := by
  have ht : List.Forall₂ Table [str "3400..4DB5; Han\n", str "0030..0039; Decimal\n00B2..00B3; Digit\n00BC..00BE; Numeric\n"]
      [[(0x3400, 0x4db5, str "han")], [(0x30, 0x39, str "decimal"), (0xb2, 0xb3, str "digit"), (0xbc, 0xbe, str "numeric")]] := by
    refine .cons (.line (l := str "3400..4DB5; Han") (e := some (0x3400, 0x4db5, str "han")) (t := []) (by decide) ?_ .nil) (.cons numeric_table .nil)
    exact plain_line (ds := [(51, 3), (52, 4), (48, 0), (48, 0)]) (es := [(52, 4), (68, 13), (66, 11), (53, 5)]) (t := str "Han") (by decide)
      (by simp [Text.Spec.IsDigit, Text.Spec.Sys.base]) (by decide) (by decide) (by simp [Text.Spec.IsDigit, Text.Spec.Sys.base]) (by decide) (by decide) (by decide) (by simp [str, Blank])
      (by simp [str, Blank])
  obtain ⟨st', h1, d, h2, h3, _⟩ := C95_fails_utf8 (C := Verif.CharSet.Table 256) rfl ht (by simp [Spec.Unicode]) (numeric_of (by simp)) (n := str "han") (by decide) (by
    rw [Part, if_neg (by decide +kernel), if_neg (by decide +kernel), if_neg (by decide +kernel)]
    simp)
  exact ⟨st', h1, d, h2, h3⟩

/-- `%lexer "s" -> {num} X ; ;` -/
example {C : Type} [RangeSet C] {A : Chars C} : execFile A List.dedup 100 (loadUnicodeData rangeFixed []) Sys.init [(some (str "s"), [.rule (.named (str "num")) .nothing [] (.terminal (str "X"))])] = .exit :=
  C95_fails_named

/-- `%lexer -> {num} X ; ;`, in UCS-2, with the three tables. -/
example {A : Chars (SeqCS 65536)} : ∃ F, ∀ fuel, F ≤ fuel → ∃ sys', execFile A List.dedup fuel (loadUnicodeData rangeFixed
      [str "0600..06FF; Arabic\n", str "060C          ; Common # Po       ARABIC COMMA\n", str "0030..0039; Decimal\n00B2..00B3; Digit\n00BC..00BE; Numeric\n"]) Sys.init
      [(none, [.rule (.named (str "num")) .nothing [] (.terminal (str "X"))])] = .ok sys' ∧
    ∃ n, (sys'.envs (txt "start")).rules[0]? = some n ∧ ∀ w, n.Lang w ↔ ∃ c, (0x30 ≤ c ∧ c ≤ 0x39 ∨ 0xb2 ≤ c ∧ c ≤ 0xb3 ∨ 0xbc ≤ c ∧ c ≤ 0xbe) ∧ w = [c] := by
  obtain ⟨N, h1, h2⟩ := C95_file_partial (A := A) (K := fixed (fun s => s) 65536) ⟨⟨1, by simp [fixed], by
      rintro w ⟨c, rfl, _⟩; simp⟩, ⟨[0], 0, rfl, by omega⟩⟩ List.dedup enumerates_dedup (total_fixed (C := SeqCS 65536)) three_tables three_unicode three_numeric
  have hN : ∀ w, N (str "num") w ↔ _ := fun w => (h1 (str "num") (by decide) (Or.inl rfl) (fun b e _ => C95_fixed (C := SeqCS 65536) _ b e) w).trans (three_num w)
  obtain ⟨F, h3⟩ := h2 [.rule (.named (str "num")) .nothing [] (.terminal (str "X"))] [] (by
      simp only [List.mem_singleton, forall_eq]
      intro d hd
      simp only [List.mem_singleton] at hd
      subst hd
      exact ⟨fun s x h => (by cases h), fun x y c t h => (by cases h; trivial)⟩) (by
      simp only [List.mem_singleton, forall_eq]
      intro d hd x y c t h
      simp only [List.mem_singleton] at hd
      subst hd
      cases h
      rfl)
    ⟨⟨fun s x h => (by cases h), fun x y c t h => (by cases h; exact ⟨by decide, Or.inl rfl⟩), trivial⟩, trivial⟩ (by
      refine ⟨⟨⟨[], [48], fun h => ?_, (hN _).2 ⟨48, by omega, rfl⟩⟩, trivial⟩, trivial⟩
      obtain ⟨c, _, h⟩ := (hN _).1 h
      cases h)
  refine ⟨F, fun fuel hf => ?_⟩
  obtain ⟨sys', e, g⟩ := h3 fuel hf
  refine ⟨sys', e, ?_⟩
  have := g (txt "start")
  simp only [LexSyn.Spec.fileLangs, LexSyn.Spec.target, Option.getD_none, LexSyn.Spec.ruleLangs, List.append_nil] at this
  cases hr : (sys'.envs (txt "start")).rules with
  | nil => rw [hr] at this; cases this
  | cons n rs =>
    rw [hr] at this
    obtain ⟨⟨g1, g2⟩, g3⟩ := List.forall₂_cons.1 this
    exact ⟨n, rfl, fun w => (g2 w).trans (hN w)⟩

end Verif.Unidata
