import Verif.LexSyn.Sections
import Verif.Enc.WordProps
import Verif.Text.Props

set_option linter.unusedSectionVars false

/-!
# The automata of texts in the several encodings
-/

namespace Verif.LexSyn

open Verif.Auto Verif.Utf Verif.Utf.Spec Verif.Enc

variable {C : Type} [RangeSet C]

theorem toUtf8_encode16 {cs : List Nat} (h : ∀ c ∈ cs, Scalar c) : toUtf8 (encode16 cs) = encode8 cs := by
  induction cs with
  | nil => rfl
  | cons c cs ih =>
    have hc := h c List.mem_cons_self
    have ih := ih fun d hd => h d (List.mem_cons_of_mem _ hd)
    simp only [Scalar] at hc
    simp only [encode16, encode8, List.flatMap_cons] at ih ⊢
    by_cases h1 : c < 0x10000
    · have e : utf16 c = [c] := by simp [utf16, h1]
      rw [e, ← ih, List.cons_append, List.nil_append]
      cases cs.flatMap utf16 with
      | nil => simp only [toUtf8, List.append_nil]; rw [if_neg (by omega)]
      | cons l s => simp only [toUtf8]; rw [if_neg (by omega), if_neg (by omega)]
    · have e : utf16 c = [0xd800 + (c - 0x10000) / 0x400, 0xdc00 + (c - 0x10000) % 0x400] := by simp [utf16, h1]
      rw [e, ← ih]
      simp only [List.cons_append, List.nil_append, toUtf8]
      rw [if_pos (by omega), show 0x10000 + (0xd800 + (c - 0x10000) / 0x400 - 0xd800) * 1024 + (0xdc00 + (c - 0x10000) % 0x400 - 0xdc00) = c by omega]

/-- The text stands for these characters. -/
def Denotes (K : Spec.Reading) (s : Text) : Prop := Text.unescaped s = encode16 (K.chars s) ∧ ∀ c ∈ K.chars s, Scalar c

/-- Conditions on the texts of an expression: on words, collections, and ranges. -/
def Texts (K : Spec.Reading) (W L R : List Nat → Prop) : E → Prop
  | .eps | .named _ | .dot => True
  | .str s | .word s => Denotes K s ∧ W (K.chars s)
  | .coll s => Denotes K s ∧ L (K.chars s)
  | .range s => Denotes K s ∧ R (K.chars s)
  | .alt a b | .and a b | .but a b | .cat a b | .sepBy a b => Texts K W L R a ∧ Texts K W L R b
  | .neg a | .opt a | .star a | .plus a => Texts K W L R a

theorem faithful_chars {next : List Nat → Option (Nat × List Nat)} {range : Nat → Nat → Option (NFA C)} {dot : Option (NFA C)} {K : Spec.Reading}
    {W L R : List Nat → Prop} (hd : Made dot K.dot)
    (hw : ∀ cs, (∀ c ∈ cs, Scalar c) → W cs → Made (Enc.word next (encode8 cs) : Option (NFA C)) fun w => w = cs.flatMap K.enc)
    (hl : ∀ cs, (∀ c ∈ cs, Scalar c) → L cs → Made (Enc.collection range (encode16 cs)) fun w => ∃ c ∈ cs, w = K.enc c)
    (hr : ∀ b e, Scalar b → Scalar e → R [b, '-'.toNat, e] → Made (range b (e + 1)) fun w => ∃ c, b ≤ c ∧ c ≤ e ∧ K.char c ∧ w = K.enc c)
    (hR : ∀ cs, R cs → ∃ b e, cs = [b, '-'.toNat, e]) {x : E} (h : Texts K W L R x) : Faithful (chars next range dot) K x := by
  have word : ∀ s, Denotes K s → W (K.chars s) → Made ((chars next range dot).word s) fun w => w = (K.chars s).flatMap K.enc := by
    intro s h1 h2
    simp only [chars, h1.1, toUtf8_encode16 h1.2]
    exact hw _ h1.2 h2
  induction x with
  | eps | named => trivial
  | dot => exact hd
  | str s | word s => exact word s h.1 h.2
  | coll s =>
    simp only [Faithful, chars, h.1.1]
    exact hl _ h.1.2 h.2
  | range s =>
    obtain ⟨b, e, hbe⟩ := hR _ h.2
    have h1 := h.1.2
    rw [hbe] at h1
    have hb := h1 b (by simp)
    have he := h1 e (by simp)
    have h2 := hr b e hb he (hbe ▸ h.2)
    have h3 : Text.rangeBounds (Text.unescaped s) = some (b, e) := by
      rw [h.1.1, hbe]
      have := Text.C60_bounds hb he
      simpa [encode16, utf16] using this
    simp only [Faithful, chars, h3, Option.bind_eq_bind, Option.bind_some]
    rw [Nat.mod_eq_of_lt (by simp only [Scalar] at he; omega)]
    obtain ⟨n, g1, g2, g3⟩ := h2
    refine ⟨n, g1, g2, fun w => (g3 w).trans ?_⟩
    constructor
    · rintro ⟨c, hc⟩; exact ⟨b, e, c, hbe, hc⟩
    · rintro ⟨b', e', c, hbe', hc⟩
      rw [hbe] at hbe'; cases hbe'
      exact ⟨c, hc⟩
  | alt _ _ ih1 ih2 | and _ _ ih1 ih2 | but _ _ ih1 ih2 | cat _ _ ih1 ih2 | sepBy _ _ ih1 ih2 => exact ⟨ih1 h.1, ih2 h.2⟩
  | neg _ ih | opt _ ih | star _ ih | plus _ ih => exact ih h

/-! ### Encodings -/

/-- One unit per character, the characters below `size`. -/
def fixed (chars : Text → List Nat) (size : Nat) : Spec.Reading := ⟨chars, (· < size), fun c => [c], fun w => ∃ c, w = [c] ∧ c < size⟩

/-- UTF-8; the dot as in `C29_utf8_lang`. -/
def readUtf8 (chars : Text → List Nat) : Spec.Reading := ⟨chars, Scalar, utf8, DotUtf8⟩

/-- UTF-16; the dot as in `C29_utf16_partial`: the characters of the BMP. -/
def readUtf16 (chars : Text → List Nat) : Spec.Reading := ⟨chars, Scalar, utf16, fun w => ∃ c, Scalar c ∧ c < 0x10000 ∧ w = utf16 c⟩

def IsRange (P : Nat → Nat → Prop) (cs : List Nat) : Prop := ∃ b e, cs = [b, '-'.toNat, e] ∧ P b e

theorem isRange {P : Nat → Nat → Prop} (cs : List Nat) (h : IsRange P cs) : ∃ b e, cs = [b, '-'.toNat, e] := by
  obtain ⟨b, e, h, _⟩ := h; exact ⟨b, e, h⟩

theorem isRange_pair {P : Nat → Nat → Prop} {b e : Nat} (h : IsRange P [b, '-'.toNat, e]) : P b e := by
  obtain ⟨b', e', h, hp⟩ := h; cases h; exact hp

theorem made_one {o : Option (NFA C)} {cs : List Nat} (h : ∃ n, o = some n ∧ n.Wf ∧ ∀ w, n.Lang w ↔ w = cs) : Made o fun w => w = cs.flatMap fun c => [c] := by
  simpa [Made] using h

theorem made_fixed {b e : Nat} {o : Option (NFA C)} (h : ∃ n, o = some n ∧ n.Wf ∧ ∀ w, n.Lang w ↔ ∃ c, w = [c] ∧ b ≤ c ∧ c < e + 1 ∧ c < CharSetLike.size C) :
    Made o fun w => ∃ c, b ≤ c ∧ c ≤ e ∧ c < CharSetLike.size C ∧ w = [c] := by
  obtain ⟨n, h1, h2, h3⟩ := h
  refine ⟨n, h1, h2, fun w => (h3 w).trans (exists_congr fun c => ?_)⟩
  constructor
  · rintro ⟨h1, h2, h3, h4⟩; exact ⟨h2, by omega, h4, h1⟩
  · rintro ⟨h1, h2, h3, h4⟩; exact ⟨h4, h1, by omega, h3⟩

theorem faithful_ascii (hsz : CharSetLike.size C = 128) (cf : Text → List Nat) {x : E}
    (h : Texts (fixed cf 128) (∀ c ∈ ·, c < 128) (∀ c ∈ ·, c < 128) (IsRange fun _ _ => True) x) :
    Faithful (chars asciiNext (rangeFixed : Nat → Nat → Option (NFA C)) (some anyFixed)) (fixed cf 128) x := by
  refine faithful_chars ?_ ?_ ?_ ?_ isRange h
  · refine ⟨_, rfl, C29_fixed.1, fun w => ?_⟩
    rw [C29_fixed.2, hsz]; rfl
  · intro cs _ h; exact made_one (C25_ascii hsz cs h)
  · intro cs h1 h2; exact C59_fixed (by omega) cs fun c hc => ⟨h1 c hc, by rw [hsz]; exact h2 c hc⟩
  · intro b e _ _ _; have := made_fixed (C26_range (C := C) b (e + 1)); rw [hsz] at this; exact this

theorem faithful_latin1 (hsz : CharSetLike.size C = 256) (cf : Text → List Nat) {x : E}
    (h : Texts (fixed cf 256) (∀ c ∈ ·, c < 128) (∀ c ∈ ·, c < 256) (IsRange fun _ _ => True) x) :
    Faithful (chars Enc.unit (rangeFixed : Nat → Nat → Option (NFA C)) (some anyFixed)) (fixed cf 256) x := by
  refine faithful_chars ?_ ?_ ?_ ?_ isRange h
  · refine ⟨_, rfl, C29_fixed.1, fun w => ?_⟩
    rw [C29_fixed.2, hsz]; rfl
  · intro cs h1 h2
    obtain ⟨n, g1, g2, g3⟩ := C25_utf8 (C := C) hsz cs h1
    refine made_one ⟨n, g1, g2, fun w => ?_⟩
    rw [g3, encode8_self.mpr h2]
  · intro cs h1 h2; exact C59_fixed (by omega) cs fun c hc => ⟨h1 c hc, by rw [hsz]; exact h2 c hc⟩
  · intro b e _ _ _; have := made_fixed (C26_range (C := C) b (e + 1)); rw [hsz] at this; exact this

theorem faithful_ucs2 (hsz : CharSetLike.size C = 65536) (cf : Text → List Nat) {x : E}
    (h : Texts (fixed cf 65536) (∀ c ∈ ·, ¬ Dropped c ∧ c < 65536) (∀ c ∈ ·, c < 65536) (IsRange fun _ _ => True) x) :
    Faithful (chars ucs2Next (rangeFixed : Nat → Nat → Option (NFA C)) (some anyFixed)) (fixed cf 65536) x := by
  refine faithful_chars ?_ ?_ ?_ ?_ isRange h
  · refine ⟨_, rfl, C29_fixed.1, fun w => ?_⟩
    rw [C29_fixed.2, hsz]; rfl
  · intro cs h1 h2; exact made_one (C25_ucs2_partial hsz cs fun c hc => ⟨h1 c hc, h2 c hc⟩)
  · intro cs h1 h2; exact C59_fixed (by omega) cs fun c hc => ⟨h1 c hc, by rw [hsz]; exact h2 c hc⟩
  · intro b e _ _ _; have := made_fixed (C26_range (C := C) b (e + 1)); rw [hsz] at this; exact this

theorem faithful_ucs4 (hsz : CharSetLike.size C = 0x110000) (cf : Text → List Nat) {x : E}
    (h : Texts (fixed cf 0x110000) (∀ c ∈ ·, ¬ Dropped c) (fun _ => True) (IsRange fun _ _ => True) x) :
    Faithful (chars ucs4Next (rangeUcs4 : Nat → Nat → Option (NFA C)) (some anyFixed)) (fixed cf 0x110000) x := by
  refine faithful_chars ?_ ?_ ?_ ?_ isRange h
  · refine ⟨_, rfl, C29_fixed.1, fun w => ?_⟩
    rw [C29_fixed.2, hsz]; rfl
  · intro cs h1 h2; exact made_one (C25_ucs4_partial hsz cs fun c hc => ⟨h1 c hc, h2 c hc⟩)
  · intro cs h1 _; exact C59_ucs4 hsz cs h1
  · intro b e _ he _
    have := made_fixed (C26_ucs4_partial (C := C) (b := b) (e := e + 1) (by simp only [Scalar] at he; omega))
    rw [hsz] at this; exact this

theorem faithful_utf8 (hsz : CharSetLike.size C = 256) (cf : Text → List Nat) {x : E}
    (h : Texts (readUtf8 cf) (fun _ => True) (∀ c ∈ ·, c < 0x10000 ∨ c % 0x40000 ≠ 0x3ffff)
      (IsRange fun b e => b ≤ e ∧ Utf8Ok b (e + 1) ∧ (e < 0xd800 ∨ 0xe000 ≤ b)) x) :
    Faithful (chars Enc.unit (rangeUtf8 : Nat → Nat → Option (NFA C)) anyUtf8) (readUtf8 cf) x := by
  refine faithful_chars ?_ ?_ ?_ ?_ isRange h
  · exact C29_utf8_lang hsz
  · intro cs h1 _; exact C25_utf8 hsz cs h1
  · intro cs h1 h2; exact C59_utf8_partial hsz cs fun c hc => ⟨h1 c hc, h2 c hc⟩
  · intro b e _ he h
    obtain ⟨h1, h2, h3⟩ := isRange_pair h
    obtain ⟨n, g1, g2, g3⟩ := C27_range_partial (C := C) hsz (b := b) (e := e + 1) (by omega) (by simp only [Scalar] at he; omega) h2 (by omega)
    refine ⟨n, g1, g2, fun w => (g3 w).trans (exists_congr fun c => ?_)⟩
    constructor
    · rintro ⟨a1, a2, a3, a4⟩; exact ⟨a1, by omega, a3, a4⟩
    · rintro ⟨a1, a2, a3, a4⟩; exact ⟨a1, by omega, a3, a4⟩

theorem encode16_self (cs : List Nat) (h : ∀ c ∈ cs, c < 65536) : cs.flatMap utf16 = cs := by
  induction cs with
  | nil => rfl
  | cons c cs ih =>
    rw [List.flatMap_cons, ih fun d hd => h d (List.mem_cons_of_mem _ hd), utf16, if_pos (h c List.mem_cons_self)]
    rfl

theorem faithful_utf16 (hsz : CharSetLike.size C = 65536) (order : List Bits → List Bits) (ho : Enumerates order) :
    ∃ F, ∀ fuel, F ≤ fuel → ∀ (cf : Text → List Nat) {x : E},
      Texts (readUtf16 cf) (∀ c ∈ ·, ¬ Dropped c ∧ c < 65536) (∀ c ∈ ·, c < 0x10000 ∨ c % 1024 ≠ 0 ∧ c % 1024 ≠ 1023)
        (IsRange fun b e => Utf16Ok b (e + 1)) x →
      Faithful (chars ucs2Next (rangeUtf16 : Nat → Nat → Option (NFA C)) (anyUtf16 order fuel)) (readUtf16 cf) x := by
  obtain ⟨F, n, h1, h2, h3⟩ := C29_utf16_partial (C := C) hsz order ho
  refine ⟨F, fun fuel hf cf x h => faithful_chars ?_ ?_ ?_ ?_ isRange h⟩
  · exact ⟨n, h1 fuel hf, h2, h3⟩
  · intro cs h1 h2
    obtain ⟨n, g1, g2, g3⟩ := C25_ucs2_partial (C := C) hsz cs fun c hc => ⟨h1 c hc, h2 c hc⟩
    refine ⟨n, g1, g2, fun w => ?_⟩
    rw [g3, show (readUtf16 cf).enc = utf16 from rfl, show cs.flatMap utf16 = cs from
      encode16_self cs fun c hc => (h2 c hc).2]
  · intro cs h1 h2; exact C59_utf16_partial hsz cs fun c hc => ⟨h1 c hc, h2 c hc⟩
  · intro b e _ he h
    obtain ⟨n, g1, g2, g3⟩ := C28_range_partial (C := C) hsz (isRange_pair (P := fun b e => Utf16Ok b (e + 1)) h)
    refine ⟨n, g1, g2, fun w => (g3 w).trans (exists_congr fun c => ?_)⟩
    constructor
    · rintro ⟨a1, a2, a3, a4⟩; exact ⟨a1, by omega, a3, a4⟩
    · rintro ⟨a1, a2, a3, a4⟩; exact ⟨a1, by omega, a3, a4⟩

end Verif.LexSyn
