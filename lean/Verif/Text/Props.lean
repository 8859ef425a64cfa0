import Verif.Text.Model
import Verif.Text.Spec
import Verif.Enc.WordProps

set_option linter.unusedSectionVars false

/-!
# C30 (directives), C31 (escapes), C60 (bounds of a range), C61 (numbers in the Unicode tables)
-/

namespace Verif.Text

open Verif.Text.Spec Verif.Utf.Spec

/-! ### Digits -/

def Sys.digit : Sys → Nat → Option Nat
  | .hex => hexDigit | .dec => decDigit | .oct => octDigit | .bin => binDigit

theorem digit_iff (y : Sys) (c v : Nat) : Sys.digit y c = some v ↔ IsDigit y c v := by
  have e0 : '0'.toNat = 48 := rfl
  have ea : 'a'.toNat = 97 := rfl
  have eA : 'A'.toNat = 65 := rfl
  simp only [IsDigit, e0, ea, eA]
  cases y
  · simp only [Sys.digit, hexDigit, Sys.base]
    split
    · simp only [Option.some.injEq]; omega
    · split
      · simp only [Option.some.injEq]; omega
      · split
        · simp only [Option.some.injEq]; omega
        · simp only [reduceCtorEq, false_iff]; omega
  all_goals
    simp only [Sys.digit, decDigit, octDigit, binDigit, Sys.base]
    split
    · simp only [Option.some.injEq]; omega
    · simp only [reduceCtorEq, false_iff]; omega

theorem value_mono {base : Nat} (hb : 1 ≤ base) (vs : List Nat) (acc : Nat) : acc ≤ value base vs acc := by
  induction vs generalizing acc with
  | nil => exact Nat.le_refl _
  | cons v vs ih =>
    have := ih (acc * base + v)
    have h2 : acc * 1 ≤ acc * base := Nat.mul_le_mul_left _ hb
    simp only [value]; omega

theorem digitLoop_value (y : Sys) (ds : List (Nat × Nat)) (rest : List Nat) (acc : Nat) (h : ∀ d ∈ ds, IsDigit y d.1 d.2)
    (hv : value y.base (ds.map (·.2)) acc * y.base < 2 ^ 32) (hr : ∀ c v, rest.head? = some c → ¬ IsDigit y c v) :
    digitLoop y.base (Sys.digit y) acc (ds.map (·.1) ++ rest) = (value y.base (ds.map (·.2)) acc * y.base, rest) := by
  induction ds generalizing acc with
  | nil =>
    simp only [value, List.map_nil] at hv ⊢
    cases rest with
    | nil => simp [digitLoop, Nat.mod_eq_of_lt hv]
    | cons c s =>
      simp only [List.nil_append, digitLoop]
      cases hd : Sys.digit y c with
      | some d => exact absurd ((digit_iff y c d).mp hd) (hr c d rfl)
      | none => simp [Nat.mod_eq_of_lt hv]
  | cons d ds ih =>
    obtain ⟨c, v⟩ := d
    simp only [List.map_cons, List.cons_append, digitLoop, (digit_iff y c v).mpr (h _ List.mem_cons_self)]
    have hb : 1 ≤ y.base := by cases y <;> simp [Sys.base]
    simp only [value, List.map_cons] at hv ⊢
    have m := value_mono hb (ds.map (·.2)) (acc * y.base + v)
    have h2 : (acc * y.base + v) * 1 ≤ (acc * y.base + v) * y.base := Nat.mul_le_mul_left _ hb
    have h3 : (acc * y.base + v) * y.base ≤ value y.base (ds.map (·.2)) (acc * y.base + v) * y.base := Nat.mul_le_mul_right _ m
    rw [Nat.mod_eq_of_lt (show acc * y.base < 2 ^ 32 by omega), Nat.mod_eq_of_lt (show acc * y.base + v < 2 ^ 32 by omega)]
    exact ih _ (fun d hd => h d (List.mem_cons_of_mem _ hd)) hv

theorem fromUcs4_eq {x : Nat} (h : x < 0x110000) : fromUcs4 x = utf16 x := by
  simp only [fromUcs4, utf16, Nat.shiftRight_eq_div_pow]
  by_cases hx : x < 0x10000
  · rw [if_neg (by omega), if_pos hx]
  · rw [if_pos (by omega), if_neg hx]
    simp only [List.cons.injEq, and_true]
    exact ⟨by omega, by omega⟩

/-! ### C31 -/

theorem named_table (l : Char) (v : Nat) (h : (l, v) ∈ namedTable) : named l.toNat = some v := by
  simp only [namedTable, List.mem_cons, Prod.mk.injEq, List.not_mem_nil, or_false] at h
  rcases h with ⟨rfl, rfl⟩ | ⟨rfl, rfl⟩ | ⟨rfl, rfl⟩ | ⟨rfl, rfl⟩ | ⟨rfl, rfl⟩ | ⟨rfl, rfl⟩ | ⟨rfl, rfl⟩ | ⟨rfl, rfl⟩ <;> rfl

theorem num_letters (y : Sys) (l : Char) (h : l ∈ y.letters) :
    named l.toNat = none ∧ numBase l.toNat = some (y.base, Sys.digit y) := by
  cases y <;> simp only [Sys.letters, List.mem_cons, List.not_mem_nil, or_false] at h
  · rcases h with rfl | rfl | rfl | rfl <;> exact ⟨rfl, rfl⟩
  all_goals (rcases h with rfl | rfl <;> exact ⟨rfl, rfl⟩)

theorem quoted_none (c : Nat) (h : Piece.Shape (.quoted c)) : named c = none ∧ numBase c = none := by
  obtain ⟨h1, h2⟩ := h
  simp only [namedTable, List.mem_cons, List.not_mem_nil, or_false, forall_eq_or_imp, forall_eq] at h1
  have hx := h2 .hex; have hd := h2 .dec; have ho := h2 .oct; have hy := h2 .bin
  simp only [Sys.letters, List.mem_cons, List.not_mem_nil, or_false, forall_eq_or_imp, forall_eq] at hx hd ho hy
  have cv : 'n'.toNat = 110 ∧ 't'.toNat = 116 ∧ 'f'.toNat = 102 ∧ 'v'.toNat = 118 ∧ 'r'.toNat = 114 ∧ '0'.toNat = 48 ∧ 'b'.toNat = 98 ∧
    'a'.toNat = 97 ∧ 'x'.toNat = 120 ∧ 'X'.toNat = 88 ∧ 'u'.toNat = 117 ∧ 'U'.toNat = 85 ∧ 'd'.toNat = 100 ∧ 'D'.toNat = 68 ∧
    'o'.toNat = 111 ∧ 'O'.toNat = 79 ∧ 'y'.toNat = 121 ∧ 'Y'.toNat = 89 := by decide
  simp only [cv] at h1 hx hd ho hy
  constructor
  · simp only [named]
    obtain ⟨a1, a2, a3, a4, a5, a6, a7, a8⟩ := h1
    rw [if_neg a1, if_neg a2, if_neg a3, if_neg a4, if_neg a5, if_neg a6, if_neg a7, if_neg a8]
  · simp only [numBase]
    obtain ⟨x1, x2, x3, x4⟩ := hx
    rw [if_neg (fun h => h.elim x1 fun h => h.elim x2 fun h => h.elim x3 x4), if_neg (fun h => h.elim hd.1 hd.2),
      if_neg (fun h => h.elim ho.1 ho.2), if_neg (fun h => h.elim hy.1 hy.2)]

theorem unescaped_pieces (ps : List Piece) (t : List Nat) (ht : t = [] ∨ t = ['\\'.toNat]) (hok : ∀ p ∈ ps, p.Ok) (hsep : Separated ps) :
    unescaped (ps.flatMap Piece.text ++ t) = ps.flatMap Piece.units ++ unescaped t := by
  induction ps with
  | nil => simp
  | cons p ps ih =>
    have hp := (hok p List.mem_cons_self).1
    have hrest : ∀ q ∈ ps, q.Ok := fun q hq => hok q (List.mem_cons_of_mem _ hq)
    simp only [List.flatMap_cons, List.append_assoc]
    cases p with
    | plain c =>
      have hs : Separated ps := hsep
      simp only [Piece.text, Piece.units, List.cons_append, List.nil_append]
      rw [unescaped, ih hrest hs]
      · intro h _; exact hp h
      · intro _ _ h; exact absurd h hp
    | named l v =>
      have hs : Separated ps := hsep
      simp only [Piece.text, Piece.units, List.cons_append, List.nil_append]
      rw [show '\\'.toNat = 92 from rfl, unescaped, named_table l v hp]
      simp only [ih hrest hs]
    | num y l ds =>
      obtain ⟨hs1, hs⟩ := hsep
      obtain ⟨hl, hds⟩ := hp
      have hv := (hok _ List.mem_cons_self).2 y l ds rfl
      obtain ⟨n1, n2⟩ := num_letters y l hl
      simp only [Piece.text, Piece.units, List.cons_append]
      have hb : 1 ≤ y.base ∧ y.base ≤ 16 := by cases y <;> simp [Sys.base]
      have hlt : value y.base (ds.map (·.2)) 0 * y.base < 2 ^ 32 := by
        have : value y.base (ds.map (·.2)) 0 * y.base ≤ value y.base (ds.map (·.2)) 0 * 16 := Nat.mul_le_mul_left _ hb.2
        omega
      have hsep' : ∀ c v, (ps.flatMap Piece.text ++ t).head? = some c → ¬ IsDigit y c v := by
        intro c v hc
        cases hps : ps.flatMap Piece.text with
        | cons a as =>
          rw [hps] at hc
          exact hs1 c v (by rw [hps]; exact hc)
        | nil =>
          rw [hps] at hc
          rcases ht with rfl | rfl
          · simp at hc
          · simp only [List.nil_append, List.head?_cons, Option.some.injEq] at hc
            subst hc
            have e1 : '\\'.toNat = 92 ∧ '0'.toNat = 48 ∧ 'a'.toNat = 97 ∧ 'A'.toNat = 65 := by decide
            cases y <;> simp only [IsDigit, Sys.base, e1] <;> omega
      have hd := digitLoop_value y ds (ps.flatMap Piece.text ++ t) 0 hds hlt hsep'
      rw [show '\\'.toNat = 92 from rfl, unescaped, n1, n2]
      simp only [numeric, hd, ih hrest hs, Nat.mul_div_cancel _ hb.1, fromUcs4_eq hv]
    | quoted c =>
      have hs : Separated ps := hsep
      obtain ⟨n1, n2⟩ := quoted_none c hp
      simp only [Piece.text, Piece.units, List.cons_append, List.nil_append]
      rw [show '\\'.toNat = 92 from rfl, unescaped, n1, n2]
      simp only [ih hrest hs]

/-- **C31.** A text made of characters and escapes is turned into the characters they denote: named, hexadecimal, decimal,
octal and binary escapes, quoted characters; a plain byte `c` becomes the character `c` (its Latin-1 meaning).  Missing from
the full claim: UTF-8 text (`C31_utf8_wrong`). -/
theorem C31_unescaped_partial (ps : List Piece) (hok : ∀ p ∈ ps, p.Ok) (hsep : Separated ps) :
    unescaped (ps.flatMap Piece.text) = ps.flatMap Piece.units := by
  have := unescaped_pieces ps [] (Or.inl rfl) hok hsep
  simpa [unescaped] using this

/-- A single backslash at the end becomes a NUL character. -/
theorem C31_trailing (ps : List Piece) (hok : ∀ p ∈ ps, p.Ok) (hsep : Separated ps) :
    unescaped (ps.flatMap Piece.text ++ ['\\'.toNat]) = ps.flatMap Piece.units ++ [0] := by
  have := unescaped_pieces ps ['\\'.toNat] (Or.inr rfl) hok hsep
  simpa [unescaped] using this

/-- The digits at the beginning of a text. -/
theorem split_digits (y : Sys) (s : List Nat) : ∃ (ds : List (Nat × Nat)) (rest : List Nat), s = ds.map (·.1) ++ rest ∧ (∀ d ∈ ds, IsDigit y d.1 d.2) ∧
    ∀ c v, rest.head? = some c → ¬ IsDigit y c v := by
  induction s with
  | nil => exact ⟨[], [], rfl, by simp, by simp⟩
  | cons c s ih =>
    by_cases h : ∃ v, IsDigit y c v
    · obtain ⟨v, hv⟩ := h
      obtain ⟨ds, rest, h1, h2, h3⟩ := ih
      refine ⟨(c, v) :: ds, rest, by rw [h1]; rfl, ?_, h3⟩
      intro d hd
      rcases List.mem_cons.mp hd with rfl | hd
      · exact hv
      · exact h2 d hd
    · refine ⟨[], c :: s, rfl, by simp, fun d v hd hv => ?_⟩
      simp only [List.head?_cons, Option.some.injEq] at hd
      subst hd
      exact h ⟨v, hv⟩

/-- **C31.** The pieces cover every text: each byte string is a sequence of pieces, possibly followed by a single backslash. -/
theorem C31_every_text (s : List Nat) :
    ∃ ps : List Piece, (∀ p ∈ ps, p.Shape) ∧ Separated ps ∧ (s = ps.flatMap Piece.text ∨ s = ps.flatMap Piece.text ++ ['\\'.toNat]) := by
  match s with
  | [] => exact ⟨[], by simp, trivial, Or.inl rfl⟩
  | [c] =>
    by_cases hc : c = '\\'.toNat
    · exact ⟨[], by simp, trivial, Or.inr (by rw [hc]; rfl)⟩
    · exact ⟨[.plain c], by simpa [Piece.Shape] using hc, trivial, Or.inl rfl⟩
  | c :: d :: s =>
    have cons : ∀ (p : Piece) (rest : List Nat), c :: d :: s = p.text ++ rest → p.Shape → rest.length < (c :: d :: s).length →
        (∀ y l ds, p = .num y l ds → ∀ c v, rest.head? = some c → ¬ IsDigit y c v) →
        ∃ ps : List Piece, (∀ p ∈ ps, p.Shape) ∧ Separated ps ∧
          (c :: d :: s = ps.flatMap Piece.text ∨ c :: d :: s = ps.flatMap Piece.text ++ ['\\'.toNat]) := by
      intro p rest h1 h2 hlen h3
      obtain ⟨ps, g1, g2, g3⟩ := C31_every_text rest
      refine ⟨p :: ps, ?_, ?_, ?_⟩
      · intro q hq
        rcases List.mem_cons.mp hq with rfl | hq
        · exact h2
        · exact g1 q hq
      · cases p with
        | num y l ds =>
          refine ⟨fun c v hc => ?_, g2⟩
          refine h3 y l ds rfl c v ?_
          rcases g3 with g3 | g3
          · rw [g3]; exact hc
          · rw [g3]
            cases hps : ps.flatMap Piece.text with
            | nil => rw [hps] at hc; simp at hc
            | cons a as => rw [hps] at hc; exact hc
        | plain c => exact g2
        | named l v => exact g2
        | quoted c => exact g2
      · rw [h1, List.flatMap_cons]
        rcases g3 with g3 | g3
        · exact Or.inl (by rw [← g3])
        · exact Or.inr (by rw [List.append_assoc, ← g3])
    by_cases hc : c = '\\'.toNat
    · subst hc
      by_cases hn : ∃ p ∈ namedTable, d = p.1.toNat
      · obtain ⟨⟨l, v⟩, hm, rfl⟩ := hn
        exact cons (.named l v) s rfl hm (by simp only [List.length_cons]; omega) (fun y l ds h => by cases h)
      · by_cases hl : ∃ y : Sys, ∃ l ∈ y.letters, d = l.toNat
        · obtain ⟨y, l, hl, rfl⟩ := hl
          obtain ⟨ds, rest, h1, h2, h3⟩ := split_digits y s
          refine cons (.num y l ds) rest (by rw [h1]; rfl) ⟨hl, h2⟩ ?_ ?_
          · have := congrArg List.length h1
            simp only [List.length_append] at this
            simp only [List.length_cons]; omega
          · intro y' l' ds' he
            cases he
            exact h3
        · refine cons (.quoted d) s rfl ⟨fun p hp e => hn ⟨p, hp, e⟩, fun y l h e => hl ⟨y, l, h, e⟩⟩ (by simp only [List.length_cons]; omega)
            (fun y l ds h => by cases h)
    · exact cons (.plain c) (d :: s) rfl hc (by simp) (fun y l ds h => by cases h)
termination_by s.length

/-- Text without backslashes is unchanged. -/
theorem C31_plain (s : List Nat) (h : ∀ c ∈ s, c ≠ '\\'.toNat) : unescaped s = s := by
  have := C31_unescaped_partial (s.map .plain) (by simpa [Piece.Ok, Piece.Shape] using h) (by
    clear h
    induction s with
    | nil => trivial
    | cons c s ih => exact ih)
  simpa [List.flatMap_map, Piece.text, Piece.units] using this

/-- A text with all kinds of pieces. -/
def sample : List Piece := [.plain 97, .named 'n' 10, .num .hex 'x' [(52, 4), (49, 1)], .plain 59, .num .dec 'd' [(56, 8), (51, 3), (54, 6), (52, 4)],
  .plain 32, .num .oct 'o' [(49, 1), (48, 0), (49, 1)], .quoted 46]
example : sample.flatMap Piece.text = "a\\n\\x41;\\d8364 \\o101\\.".toList.map Char.toNat := by decide
example : sample.flatMap Piece.units = [97, 10, 65, 59, 8364, 32, 65, 46] := by decide
example : (∀ p ∈ sample, p.Ok) ∧ Separated sample := by
  constructor
  · intro p hp
    simp only [sample, List.mem_cons, List.not_mem_nil, or_false] at hp
    rcases hp with rfl | rfl | rfl | rfl | rfl | rfl | rfl | rfl
    · simp [Piece.Ok, Piece.Shape]
    · simp [Piece.Ok, Piece.Shape, namedTable]
    · simp [Piece.Ok, Piece.Shape, Sys.letters, IsDigit, Sys.base, value]
    · simp [Piece.Ok, Piece.Shape]
    · simp [Piece.Ok, Piece.Shape, Sys.letters, IsDigit, Sys.base, value]
    · simp [Piece.Ok, Piece.Shape]
    · simp [Piece.Ok, Piece.Shape, Sys.letters, IsDigit, Sys.base, value]
    · refine ⟨⟨by decide, fun y => ?_⟩, by simp⟩
      cases y <;> decide
  · simp only [sample, Separated]
    refine ⟨fun c v h => ?_, fun c v h => ?_, fun c v h => ?_, trivial⟩ <;>
      simp [Piece.text] at h <;> subst h <;> simp [IsDigit, Sys.base] <;> omega

/-- The full C31 fails for non-ASCII text, which is UTF-8 in the source: the bytes of "ä" become the two characters "Ã¤"
(each byte is taken as Latin-1), and the word built from them in a UTF-8 lexer matches the encoding of "Ã¤", not of "ä". -/
theorem C31_utf8_wrong {C : Type} [Enc.RangeSet C] (hsz : Auto.CharSetLike.size C = 256) :
    unescaped (utf8 0xe4) = [0xc3, 0xa4] ∧ utf16 0xe4 = [0xe4] ∧
    ∃ n : Auto.NFA C, Enc.word Enc.unit (encode8 (unescaped (utf8 0xe4))) = some n ∧ ¬ n.Lang (utf8 0xe4) ∧
      n.Lang [0xc3, 0x83, 0xc2, 0xa4] := by
  have h : unescaped (utf8 0xe4) = [0xc3, 0xa4] := C31_plain _ (by decide)
  refine ⟨h, by decide, ?_⟩
  obtain ⟨n, h1, h2, h3⟩ := Enc.C25_utf8 (C := C) hsz [0xc3, 0xa4] (by decide)
  rw [h]
  exact ⟨n, h1, fun hh => absurd ((h3 _).mp hh) (by decide), (h3 _).mpr (by decide)⟩

/-- Numbers beyond 32 bits wrap around: `\x100000041` is "A". -/
theorem C31_wraps : unescaped ("\\x100000041".toList.map Char.toNat) = [65] := by
  have e : "\\x100000041".toList.map Char.toNat = [92, 120, 49, 48, 48, 48, 48, 48, 48, 52, 49] := by decide
  rw [e, unescaped]
  simp [named, numBase, numeric, digitLoop, hexDigit, fromUcs4, unescaped]

/-! ### C60 -/

/-- **C60.** The text `b-e` of a range, given as UTF-16, yields exactly the scalar values `b` and `e`. -/
theorem C60_bounds {b e : Nat} (hb : Scalar b) (he : Scalar e) : rangeBounds (utf16 b ++ ['-'.toNat] ++ utf16 e) = some (b, e) := by
  have hd : '-'.toNat = 45 := by decide
  have sur : ∀ c, Scalar c → 0x10000 ≤ c → surrogateToUcs4 (0xd800 + (c - 0x10000) / 0x400) (0xdc00 + (c - 0x10000) % 0x400) = c := by
    intro c hc h
    simp only [Scalar] at hc
    simp only [surrogateToUcs4, Nat.shiftLeft_eq]
    omega
  rw [hd]
  by_cases h1 : b < 0x10000
  · by_cases h2 : e < 0x10000
    · simp [utf16, h1, h2, rangeBounds]
    · simp only [utf16, if_pos h1, if_neg h2, List.cons_append, List.nil_append, rangeBounds, if_true, sur e he (by omega)]
  · have hne : ¬ 0xdc00 + (b - 0x10000) % 0x400 = 45 := by omega
    by_cases h2 : e < 0x10000
    · simp only [utf16, if_neg h1, if_pos h2, List.cons_append, List.nil_append, rangeBounds, if_true, if_neg hne, sur b hb (by omega)]
    · simp only [utf16, if_neg h1, if_neg h2, List.cons_append, List.nil_append, rangeBounds, if_true, if_neg hne, sur b hb (by omega),
        sur e he (by omega)]

example : rangeBounds [0x61, 45, 0xd83d, 0xde00] = some (0x61, 0x1f600) := by decide

/-! ### C61 -/

/-- **C61.** A number of the Unicode tables followed by a character that is no digit is read exactly, up to 28 bits. -/
theorem C61_number (ds : List (Nat × Nat)) (rest : List Nat) (hd : ∀ d ∈ ds, IsDigit .hex d.1 d.2) (hv : value 16 (ds.map (·.2)) 0 < 2 ^ 28)
    (hr : ∀ c v, rest.head? = some c → ¬ IsDigit .hex c v) : setChar (ds.map (·.1) ++ rest) = (value 16 (ds.map (·.2)) 0, rest) := by
  have := digitLoop_value .hex ds rest 0 hd (by simp only [Sys.base]; omega) hr
  simp only [Sys.base, Sys.digit] at this
  simp only [setChar, this]
  rw [Nat.mul_div_cancel _ (by omega)]

/-- The line `1F600..1F64F    ; Emoticons`: both numbers. -/
example : setChar ("1F600..1F64F    ; Emoticons".toList.map Char.toNat) = (0x1f600, "..1F64F    ; Emoticons".toList.map Char.toNat) := by decide

/-! ### C30 -/

/-- The enumeration value of an encoding name. -/
def codecOf : Nat → Codec
  | 0 => .ascii | 1 => .latin1 | 2 => .utf8 | 3 => .ucs2 | 4 => .utf16 | _ => .ucs4

/-- What the directives mean. -/
def meaning (names : List Char → Option Codec) (c : Choice) : Directive → Option Choice
  | .table => some { c with table := true }
  | .sequence => some { c with table := false }
  | .encoding n => (names n).map fun k => { c with codec := k }

/-- **C30.** Names of encodings do not depend on case and hyphens. -/
theorem C30_names : codec "UTF-8".toList = some 2 ∧ codec "utf8".toList = some 2 ∧ codec "Latin-1".toList = some 1 ∧ codec "ASCII".toList = some 0 ∧
    codec "UCS-2".toList = some 3 ∧ codec "UTF-16".toList = some 4 ∧ codec "UCS-4".toList = some 5 ∧ codec "utf-32".toList = some 5 ∧
    codec "koi8".toList = none := by decide

/-- **C30.** A name selects an encoding exactly if its normal form is in the list of names. -/
theorem C30_name_iff (n : List Char) (c : Codec) :
    (codec n).map codecOf = some c ↔ ∃ s, (s, c) ∈ codecNames ∧ normal n = s.toList := by
  simp only [codec, codecNames, List.mem_cons, Prod.mk.injEq, List.not_mem_nil, or_false]
  constructor
  · intro h
    split at h
    · cases h; exact ⟨_, Or.inl ⟨rfl, rfl⟩, ‹_›⟩
    split at h
    · cases h; exact ⟨_, Or.inr (Or.inl ⟨rfl, rfl⟩), ‹_›⟩
    split at h
    · cases h; exact ⟨_, Or.inr (Or.inr (Or.inl ⟨rfl, rfl⟩)), ‹_›⟩
    split at h
    · cases h; exact ⟨_, Or.inr (Or.inr (Or.inr (Or.inl ⟨rfl, rfl⟩))), ‹_›⟩
    split at h
    · cases h; exact ⟨_, Or.inr (Or.inr (Or.inr (Or.inr (Or.inl ⟨rfl, rfl⟩)))), ‹_›⟩
    split at h
    · rename_i h5
      cases h
      rcases h5 with h5 | h5
      · exact ⟨_, Or.inr (Or.inr (Or.inr (Or.inr (Or.inr (Or.inl ⟨rfl, rfl⟩))))), h5⟩
      · exact ⟨_, Or.inr (Or.inr (Or.inr (Or.inr (Or.inr (Or.inr ⟨rfl, rfl⟩))))), h5⟩
    · cases h
  · rintro ⟨s, h, e⟩
    rw [e]
    rcases h with ⟨rfl, rfl⟩ | ⟨rfl, rfl⟩ | ⟨rfl, rfl⟩ | ⟨rfl, rfl⟩ | ⟨rfl, rfl⟩ | ⟨rfl, rfl⟩ | ⟨rfl, rfl⟩ <;> decide

theorem codec_lt {n : List Char} {k : Nat} (h : codec n = some k) : k < 6 := by
  simp only [codec] at h
  repeat' split at h
  all_goals first | (cases h; omega) | cases h

/-- **C30.** One directive in a state corresponding to a choice `c`: `%table_lexer` and `%sequence_lexer` are right;
`%input_encoding` is right if and only if the current type is one of `SAscii`, `SLatin1`, `SUtf8`, `SUcs2`. -/
theorem C30_step (c : Choice) (hc : c.codec = .ucs4 → c.table = false) :
    step c.number .table = some (Choice.number { c with table := true }) ∧
    step c.number .sequence = some (Choice.number { c with table := false }) ∧
    ∀ n k, codec n = some k →
      (step c.number (.encoding n) = some (Choice.number { c with codec := codecOf k }) ↔ c.number < 4) := by
  obtain ⟨k, t⟩ := c
  refine ⟨?_, ?_, fun n j hj => ?_⟩
  · cases k <;> cases t <;> rfl
  · cases k <;> cases t <;> simp_all [step, Choice.number]
  · have := codec_lt hj
    simp only [step, hj, Option.map_some, Option.some.injEq]
    have hj6 : j = 0 ∨ j = 1 ∨ j = 2 ∨ j = 3 ∨ j = 4 ∨ j = 5 := by omega
    rcases hj6 with rfl | rfl | rfl | rfl | rfl | rfl <;> cases k <;> cases t <;> simp_all [Choice.number, codecOf]

/-- The choice made by a sequence of directives. -/
def chosen (ds : List Directive) : Option Choice := ds.foldlM (meaning fun n => (codec n).map codecOf) ⟨.ucs2, false⟩

def isMode : Directive → Bool
  | .encoding _ => false
  | _ => true

theorem modes_run (ds : List Directive) (h : ∀ d ∈ ds, isMode d = true) (c : Choice) :
    ds.foldlM step c.number = (ds.foldlM (meaning fun n => (codec n).map codecOf) c).map Choice.number := by
  induction ds generalizing c with
  | nil => rfl
  | cons d ds ih =>
    have hd := h d List.mem_cons_self
    have ih := ih (fun d hd => h d (List.mem_cons_of_mem _ hd))
    simp only [List.foldlM_cons, Option.bind_eq_bind]
    cases d with
    | encoding n => simp [isMode] at hd
    | table =>
      have : step c.number .table = some (Choice.number { c with table := true }) := by
        obtain ⟨k, t⟩ := c; cases k <;> cases t <;> rfl
      simp only [this, Option.bind_some, meaning, ih]
    | sequence =>
      have : step c.number .sequence = some (Choice.number { c with table := false }) := by
        obtain ⟨k, t⟩ := c; cases k <;> cases t <;> rfl
      simp only [this, Option.bind_some, meaning, ih]

/-- C30 for one `%input_encoding` that comes before any `%table_lexer`: the type is the one chosen.  Missing: a second
`%input_encoding`, and one after `%table_lexer` (`C30_wrong`). -/
theorem C30_directives_partial (ss ms : List Directive) (n : List Char) (hs : ∀ d ∈ ss, d = .sequence) (hm : ∀ d ∈ ms, isMode d = true) :
    runDirectives (ss ++ .encoding n :: ms) = (chosen (ss ++ .encoding n :: ms)).map Choice.number := by
  have h3 : (3 : Nat) = Choice.number ⟨.ucs2, false⟩ := rfl
  have h0 : ∀ ss : List Directive, (∀ d ∈ ss, d = .sequence) →
      ss.foldlM step 3 = some 3 ∧ ss.foldlM (meaning fun n => (codec n).map codecOf) ⟨.ucs2, false⟩ = some ⟨.ucs2, false⟩ := by
    intro ss
    induction ss with
    | nil => intro _; exact ⟨rfl, rfl⟩
    | cons d ds ih =>
      intro h
      have hd := h d List.mem_cons_self
      subst hd
      have ih := ih fun d hd => h d (List.mem_cons_of_mem _ hd)
      simp only [List.foldlM_cons, Option.bind_eq_bind]
      exact ⟨ih.1, ih.2⟩
  obtain ⟨r1, r2⟩ := h0 ss hs
  simp only [runDirectives, chosen, List.foldlM_append, r1, r2, List.foldlM_cons, Option.bind_eq_bind, Option.bind_some]
  cases hc : codec n with
  | none => simp [step, meaning, hc]
  | some k =>
    have hs := ((C30_step ⟨.ucs2, false⟩ (by simp)).2.2 n k hc).mpr (by decide)
    rw [show Choice.number ⟨.ucs2, false⟩ = 3 from rfl] at hs
    simp only [hs, meaning, hc, Option.map_some, Option.bind_some]
    exact modes_run ms hm _

/-- The modes alone are always right. -/
theorem C30_modes (ms : List Directive) (hm : ∀ d ∈ ms, isMode d = true) : runDirectives ms = (chosen ms).map Choice.number :=
  modes_run ms hm ⟨.ucs2, false⟩

/-- The full C30 fails: `%table_lexer` followed by `%input_encoding "utf-8"` gives the UTF-16 table lexer, followed by "ascii" the
UTF-8 one, followed by "ucs-2" a number outside the enumeration; after "utf-16", `%input_encoding "utf-8"` gives the table lexer for
ASCII. -/
theorem C30_wrong :
    runDirectives [.table, .encoding "utf-8".toList] = some (Choice.number ⟨.utf16, true⟩) ∧
    runDirectives [.table, .encoding "ascii".toList] = some (Choice.number ⟨.utf8, true⟩) ∧
    runDirectives [.table, .encoding "ucs-2".toList] = some 11 ∧
    runDirectives [.encoding "utf-16".toList, .encoding "utf-8".toList] = some (Choice.number ⟨.ascii, true⟩) := by decide

example : runDirectives [.sequence, .encoding "utf-8".toList, .table] = some (Choice.number ⟨.utf8, true⟩) := by decide

end Verif.Text
