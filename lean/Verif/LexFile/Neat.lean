import Verif.LexFile.Items
import Verif.LexSyn.Faithful

set_option linter.unusedSectionVars false

/-!
# Automata on which the length functions are right: the encodings with one unit per character
-/

namespace Verif.LexFile

open Verif.Auto Verif.LexSyn Verif.Enc Verif.Utf Verif.Utf.Spec

variable {C : Type} [RangeSet C]

local notation "size" => CharSetLike.size C

/-- As `Fine`, but the accepting state need not be reached. -/
structure Half (n : NFA C) : Prop where
  wf : n.Wf
  tidy : Tidy n.rules
  noEmpty : NoEmpty n.rules
  ranked : Ranked n.rules
  cyc : ∀ u c v, HasEdge n.rules u c v → Path (fun _ => true) n.rules v u → Path (fun _ => true) n.rules 0 u ∧ Path (fun _ => true) n.rules u n.accept

structure Fine (n : NFA C) : Prop extends Half n where
  live : Path (fun _ => true) n.rules 0 n.accept

theorem Fine.trim {n : NFA C} (h : Fine n) : Trim n := ⟨h.live, h.cyc⟩

theorem Fine.neat {o : Option (NFA C)} (h : ∀ n, o = some n → Fine n) : Neat o := fun n e => ⟨(h n e).tidy, (h n e).noEmpty, (h n e).trim, (h n e).ranked⟩

theorem half_empty : Half (NFA.empty : NFA C) :=
  ⟨wf_empty, tidy_empty, by intro i c j h; simp [NFA.empty, hasEdge_cons, hasEdge_nil] at h, ranked_empty, by
    intro i c j h; simp [NFA.empty, hasEdge_cons, hasEdge_nil] at h⟩

theorem fine_emptyWord : Fine (NFA.emptyWord : NFA C) :=
  ⟨⟨wf_emptyWord, tidy_emptyWord, by intro i c j h; simp [NFA.emptyWord, hasEdge_cons, hasEdge_nil] at h, ranked_emptyWord, trim_emptyWord.cyc⟩, trim_emptyWord.live⟩

theorem fine_ofSet {s : C} (h : ∃ w, (NFA.ofSet s).Lang w) : Fine (NFA.ofSet s) := by
  refine ⟨⟨wf_ofSet s, tidy_ofSet s, ?_, ranked_ofSet s, (trim_ofSet s).cyc⟩, (trim_ofSet s).live⟩
  intro i c j e he
  obtain ⟨_, _, rfl⟩ := edge_ofSet.mp e
  obtain ⟨w, hw⟩ := h
  rw [lang_ofSet _ he] at hw
  obtain ⟨x, _, hx⟩ := hw
  refine Bool.eq_false_iff.mpr fun hf => ?_
  rw [(CharSetLike.empty_iff _).mp hf x] at hx
  exact absurd hx (by simp)

theorem fine_concat {n o r : NFA C} (h1 : Fine n) (h2 : Fine o) (h : n.concat o = some r) : Fine r := by
  obtain ⟨r', e, hw, _⟩ := concat_spec h1.wf h2.wf
  rw [h] at e; cases e
  have := trim_concat h1.wf h2.wf h h1.trim h2.trim
  exact ⟨⟨hw, tidy_concat h1.wf h2.wf h h1.tidy h2.tidy, noEmpty_concat h1.wf h2.wf h h1.noEmpty h2.noEmpty, ranked_concat h1.wf h2.wf h h1.ranked h2.ranked, this.cyc⟩, this.live⟩

theorem fine_alt {n o r : NFA C} (h1 : Half n) (h2 : Fine o) (h : n.alt o = some r) : Fine r := by
  obtain ⟨r', e, hw, _⟩ := alt_spec h1.wf h2.wf
  rw [h] at e; cases e
  have := trim_alt_of h1.wf h2.wf h h1.cyc h2.trim
  exact ⟨⟨hw, tidy_alt h1.wf h2.wf h h1.tidy h2.tidy, noEmpty_alt h1.wf h2.wf h h1.noEmpty h2.noEmpty, ranked_alt h1.wf h2.wf h h1.ranked h2.ranked, this.cyc⟩, this.live⟩

/-! ### Words -/

theorem wordLoop_part {next : List Nat → Option (Nat × List Nat)} {fuel : Nat} {res n : NFA C} {s : List Nat} (hr : res.Wf) (h : wordLoop next fuel res s = some n) (hn : ∃ w, n.Lang w) :
    ∃ w, res.Lang w := by
  induction fuel generalizing res s with
  | zero =>
    cases s with
    | nil => simp only [wordLoop, Option.some.injEq] at h; subst h; exact hn
    | cons _ _ => simp [wordLoop] at h
  | succ fuel ih =>
    cases s with
    | nil => simp only [wordLoop, Option.some.injEq] at h; subst h; exact hn
    | cons a s =>
      simp only [wordLoop, Option.bind_eq_bind, Option.bind_eq_some_iff, chrNfa, Option.map_eq_some_iff] at h
      obtain ⟨⟨c, s'⟩, _, o, ⟨cs, _, rfl⟩, r, h3, h4⟩ := h
      obtain ⟨r', e, hw, hl⟩ := concat_spec hr (wf_ofSet cs)
      rw [h3] at e; cases e
      obtain ⟨w, hw'⟩ := ih hw h4
      obtain ⟨u, v, _, hu, _⟩ := (hl w).mp hw'
      exact ⟨u, hu⟩

theorem wordLoop_fine {next : List Nat → Option (Nat × List Nat)} {fuel : Nat} {res n : NFA C} {s : List Nat} (hr : Fine res) (h : wordLoop next fuel res s = some n) (hn : ∃ w, n.Lang w) :
    Fine n := by
  induction fuel generalizing res s with
  | zero =>
    cases s with
    | nil => simp only [wordLoop, Option.some.injEq] at h; subst h; exact hr
    | cons _ _ => simp [wordLoop] at h
  | succ fuel ih =>
    cases s with
    | nil => simp only [wordLoop, Option.some.injEq] at h; subst h; exact hr
    | cons a s =>
      simp only [wordLoop, Option.bind_eq_bind, Option.bind_eq_some_iff, chrNfa, Option.map_eq_some_iff] at h
      obtain ⟨⟨c, s'⟩, _, o, ⟨cs, _, rfl⟩, r, h3, h4⟩ := h
      obtain ⟨r', e, hw, hl⟩ := concat_spec hr.wf (wf_ofSet cs)
      rw [h3] at e; cases e
      obtain ⟨w, hw'⟩ := wordLoop_part hw h4 hn
      obtain ⟨u, v, _, _, hv⟩ := (hl w).mp hw'
      exact ih (fine_concat hr (fine_ofSet ⟨v, hv⟩) h3) h4

theorem word_fine {next : List Nat → Option (Nat × List Nat)} {s w : List Nat} (h : LexSyn.Made (Enc.word next s : Option (NFA C)) fun v => v = w) : Neat (Enc.word next s : Option (NFA C)) :=
  Fine.neat fun n e => wordLoop_fine fine_emptyWord e ⟨w, (h.lang e w).mpr rfl⟩

/-! ### Collections -/

theorem collectLoop_fine {range : Nat → Nat → Option (NFA C)} {fuel : Nat} {s cs : List Nat} (h : readAll utf16ToUcs4Next fuel s = some cs)
    (hc : ∀ c ∈ cs, ∀ n, range c ((c + 1) % 2 ^ 32) = some n → Fine n) {res n : NFA C} (hr : Half res) (hne : cs ≠ [] ∨ Fine res) (he : collectLoop range fuel res s = some n) : Fine n := by
  induction fuel generalizing s cs res with
  | zero =>
    cases s with
    | nil =>
      simp only [readAll, Option.some.injEq] at h; subst h
      simp only [collectLoop, Option.some.injEq] at he; subst he
      exact hne.resolve_left (by simp)
    | cons _ _ => simp [collectLoop] at he
  | succ fuel ih =>
    cases s with
    | nil =>
      simp only [readAll, Option.some.injEq] at h; subst h
      simp only [collectLoop, Option.some.injEq] at he; subst he
      exact hne.resolve_left (by simp)
    | cons a s =>
      simp only [collectLoop, Option.bind_eq_bind, Option.bind_eq_some_iff] at he
      obtain ⟨⟨c, s'⟩, h1, o, h2, r, h3, h4⟩ := he
      simp only [readAll, h1, Option.bind_some, Option.map_eq_some_iff] at h
      obtain ⟨cs', h5, rfl⟩ := h
      have := fine_alt hr (hc c List.mem_cons_self o h2) h3
      exact ih h5 (fun d hd => hc d (List.mem_cons_of_mem _ hd)) this.toHalf (Or.inr this) h4

theorem collection_fine {range : Nat → Nat → Option (NFA C)} {cs : List Nat} (hs : ∀ c ∈ cs, Scalar c) (hne : cs ≠ [])
    (hc : ∀ c ∈ cs, ∀ n, range c ((c + 1) % 2 ^ 32) = some n → Fine n) : Neat (Enc.collection range (encode16 cs)) :=
  Fine.neat fun _ e => collectLoop_fine (C07_utf16_to_ucs4 cs hs _ (length_encode16 cs)) hc half_empty (Or.inl hne) e

/-! ### Ranges -/

/-- The functions for ranges that make one transition. -/
def OneSet (range : Nat → Nat → Option (NFA C)) : Prop := ∀ b e n, range b e = some n → ∃ s, n = .ofSet s

theorem oneSet_fixed : OneSet (rangeFixed : Nat → Nat → Option (NFA C)) := by
  intro b e n h
  unfold rangeFixed rangeNfa at h
  split at h
  · simp only [Option.some.injEq] at h; exact ⟨_, h.symm⟩
  · simp only [Option.map_eq_some_iff] at h
    obtain ⟨s, _, h⟩ := h
    exact ⟨s, h.symm⟩

theorem oneSet_ucs4 : OneSet (rangeUcs4 : Nat → Nat → Option (NFA C)) := by
  intro b e n h
  simp only [rangeUcs4, rangeNfa, Option.map_eq_some_iff] at h
  obtain ⟨s, _, h⟩ := h
  exact ⟨s, h.symm⟩

theorem OneSet.fine {range : Nat → Nat → Option (NFA C)} (h : OneSet range) {b e : Nat} {n : NFA C} (hn : range b e = some n) (hw : ∃ w, n.Lang w) : Fine n := by
  obtain ⟨s, rfl⟩ := h b e n hn
  exact fine_ofSet hw

/-! ### Expressions -/

/-- No names; collections and ranges match something; nothing matching the empty word is iterated; intersections, differences and complements match something. -/
def Sized (K : LexSyn.Spec.Reading) (sz : Nat) (N : Text → Lang) : E → Prop
  | .eps | .dot | .str _ | .word _ => True
  | .coll s => K.chars s ≠ []
  | .range s => ∃ b e, K.chars s = [b, '-'.toNat, e] ∧ b ≤ e ∧ K.char b
  | .named _ => False
  | .alt a b | .cat a b => Sized K sz N a ∧ Sized K sz N b
  | .and a b => Sized K sz N a ∧ Sized K sz N b ∧ ∃ w, LexSyn.Spec.den K sz N a w ∧ LexSyn.Spec.den K sz N b w
  | .but a b => Sized K sz N a ∧ Sized K sz N b ∧ ∃ w, LexSyn.Spec.den K sz N a w ∧ ¬ LexSyn.Spec.den K sz N b w
  | .neg a => Sized K sz N a ∧ ∃ w, (∀ x ∈ w, x < sz) ∧ ¬ LexSyn.Spec.den K sz N a w
  | .opt a => Sized K sz N a
  | .star a | .plus a => Sized K sz N a ∧ ¬ LexSyn.Spec.den K sz N a []
  | .sepBy a b => Sized K sz N a ∧ Sized K sz N b ∧ ¬ (LexSyn.Spec.den K sz N a [] ∧ LexSyn.Spec.den K sz N b [])

/-- In the encodings with one unit per character such expressions can be measured. -/
theorem sized_measured (hsz : 0 < size) {next : List Nat → Option (Nat × List Nat)} {range : Nat → Nat → Option (NFA C)} (ho : OneSet range) {cf : Text → List Nat} {W L R : List Nat → Prop}
    (hl : ∀ cs, (∀ c ∈ cs, Scalar c) → L cs → ∀ c ∈ cs, ∀ n, range c ((c + 1) % 2 ^ 32) = some n → n.Lang [c]) {N : Text → Lang} {x : E}
    (hf : Faithful (chars next range (some anyFixed)) (fixed cf size) x) (ht : Texts (fixed cf size) W L R x) (hs : Sized (fixed cf size) size N x) :
    Measured (chars next range (some anyFixed)) (fixed cf size) N x := by
  induction x with
  | eps => trivial
  | dot => exact Fine.neat fun n e => by cases e; exact fine_ofSet ⟨[0], (C29_fixed.2 _).mpr ⟨0, rfl, hsz⟩⟩
  | str s | word s => exact word_fine hf
  | coll s =>
    simp only [Measured, chars, ht.1.1]
    exact collection_fine ht.1.2 hs fun c hc n hn => ho.fine hn ⟨_, hl _ ht.1.2 ht.2 c hc n hn⟩
  | range s =>
    obtain ⟨b, e, h1, h2, h3⟩ := hs
    refine Fine.neat fun n hn => ?_
    have hw : n.Lang [b] := (LexSyn.Made.lang hf hn _).mpr ⟨b, e, b, h1, Nat.le_refl _, h2, h3, rfl⟩
    simp only [chars, Option.bind_eq_bind, Option.bind_eq_some_iff] at hn
    obtain ⟨⟨b', e'⟩, _, hn⟩ := hn
    exact ho.fine hn ⟨_, hw⟩
  | named _ => exact hs
  | alt _ _ ih1 ih2 | cat _ _ ih1 ih2 => exact ⟨ih1 hf.1 ht.1 hs.1, ih2 hf.2 ht.2 hs.2⟩
  | and _ _ ih1 ih2 | but _ _ ih1 ih2 | sepBy _ _ ih1 ih2 => exact ⟨ih1 hf.1 ht.1 hs.1, ih2 hf.2 ht.2 hs.2.1, hs.2.2⟩
  | neg _ ih | star _ ih | plus _ ih => exact ⟨ih hf ht hs.1, hs.2⟩
  | opt _ ih => exact ih hf ht hs

theorem character_fixed (hsz : size < 2 ^ 32) {c : Nat} (hc : c < size) {n : NFA C} (hn : rangeFixed c ((c + 1) % 2 ^ 32) = some n) : n.Lang [c] := by
  obtain ⟨m, h1, _, h3⟩ := C26_character (C := C) (c := c) (by omega) hsz
  rw [character, hn] at h1; cases h1
  exact (h3 _).mpr ⟨rfl, hc⟩

theorem character_ucs4 (hsz : size < 2 ^ 32) {c : Nat} (hc : c < size) {n : NFA C} (hn : rangeUcs4 c ((c + 1) % 2 ^ 32) = some n) : n.Lang [c] := by
  obtain ⟨m, h1, _, h3⟩ := C26_ucs4_character (C := C) hc hsz
  rw [character, hn] at h1; cases h1
  exact (h3 _).mpr rfl

variable {cf : Text → List Nat} {N : Text → Lang} {x : E}

theorem measured_ascii (hsz : size = 128) (ht : Texts (fixed cf 128) (∀ c ∈ ·, c < 128) (∀ c ∈ ·, c < 128) (IsRange fun _ _ => True) x) (hs : Sized (fixed cf 128) 128 N x) :
    Measured (chars asciiNext (rangeFixed : Nat → Nat → Option (NFA C)) (some anyFixed)) (fixed cf 128) N x := by
  have hf := faithful_ascii (C := C) hsz cf ht
  rw [← hsz] at hf hs ⊢
  rw [← hsz] at ht
  refine sized_measured (by omega) oneSet_fixed (fun cs _ hl c hc n hn => character_fixed (by omega) ?_ hn) hf ht hs
  exact hl c hc

theorem measured_latin1 (hsz : size = 256) (ht : Texts (fixed cf 256) (∀ c ∈ ·, c < 128) (∀ c ∈ ·, c < 256) (IsRange fun _ _ => True) x) (hs : Sized (fixed cf 256) 256 N x) :
    Measured (chars Enc.unit (rangeFixed : Nat → Nat → Option (NFA C)) (some anyFixed)) (fixed cf 256) N x := by
  have hf := faithful_latin1 (C := C) hsz cf ht
  rw [← hsz] at hf hs ⊢
  rw [← hsz] at ht
  refine sized_measured (by omega) oneSet_fixed (fun cs _ hl c hc n hn => character_fixed (by omega) ?_ hn) hf ht hs
  exact hl c hc

theorem measured_ucs2 (hsz : size = 65536) (ht : Texts (fixed cf 65536) (∀ c ∈ ·, ¬ Dropped c ∧ c < 65536) (∀ c ∈ ·, c < 65536) (IsRange fun _ _ => True) x) (hs : Sized (fixed cf 65536) 65536 N x) :
    Measured (chars ucs2Next (rangeFixed : Nat → Nat → Option (NFA C)) (some anyFixed)) (fixed cf 65536) N x := by
  have hf := faithful_ucs2 (C := C) hsz cf ht
  rw [← hsz] at hf hs ⊢
  rw [← hsz] at ht
  refine sized_measured (by omega) oneSet_fixed (fun cs _ hl c hc n hn => character_fixed (by omega) ?_ hn) hf ht hs
  exact hl c hc

theorem measured_ucs4 (hsz : size = 0x110000) (ht : Texts (fixed cf 0x110000) (∀ c ∈ ·, ¬ Dropped c) (fun _ => True) (IsRange fun _ _ => True) x) (hs : Sized (fixed cf 0x110000) 0x110000 N x) :
    Measured (chars ucs4Next (rangeUcs4 : Nat → Nat → Option (NFA C)) (some anyFixed)) (fixed cf 0x110000) N x := by
  have hf := faithful_ucs4 (C := C) hsz cf ht
  rw [← hsz] at hf hs ⊢
  rw [← hsz] at ht
  refine sized_measured (by omega) oneSet_ucs4 (fun cs hcs _ c hc n hn => character_ucs4 (by omega) ?_ hn) hf ht hs
  have := hcs c hc
  simp only [Scalar] at this
  omega

end Verif.LexFile
