import Verif.Enc.FixedProps
import Verif.Enc.Utf8Props
import Verif.Enc.Utf16Props
import Verif.Utf.Props

set_option linter.unusedSectionVars false

/-!
# C25: quoted words, and C59: collections

`word(str)` works on `str.toUtf8()` and `collection(str)` on the UTF-16 units of `str`; Qt's conversion is taken as the
encoding of the Unicode Standard, so the arguments are `encode8 cs` and `encode16 cs` for the scalar values `cs` of the string.
-/

namespace Verif.Enc

open Verif.Auto Verif.Utf Verif.Utf.Spec

variable {C : Type} [RangeSet C]

theorem wordLoop_some {next : List Nat → Option (Nat × List Nat)} {fuel : Nat} {s cs : List Nat} (h : readAll next fuel s = some cs)
    (hc : ∀ c ∈ cs, c < CharSetLike.size C) {res : NFA C} {v : List Nat} (hr : Builds (some res) fun w => w = v) :
    Builds (wordLoop next fuel res s) fun w => w = v ++ cs := by
  induction fuel generalizing s cs res v with
  | zero =>
    cases s with
    | nil => simp only [readAll, Option.some.injEq] at h; subst h; simpa [wordLoop] using hr
    | cons a s => simp [readAll] at h
  | succ fuel ih =>
    cases s with
    | nil => simp only [readAll, Option.some.injEq] at h; subst h; simpa [wordLoop] using hr
    | cons a s =>
      simp only [readAll, Option.bind_eq_some_iff, Option.map_eq_some_iff] at h
      obtain ⟨⟨c, s'⟩, h1, ds, h2, rfl⟩ := h
      obtain ⟨k, k1, k2, k3⟩ := builds_chr (C := C) (a := c) (hc c List.mem_cons_self)
      obtain ⟨m, m1, m2, m3⟩ := hr.concat ⟨k, k1, k2, k3⟩
      simp only [k1, Option.bind_eq_bind, Option.bind_some] at m1
      simp only [wordLoop, h1, k1, Option.bind_eq_bind, Option.bind_some, m1]
      refine (ih h2 (fun c hc' => hc c (List.mem_cons_of_mem _ hc')) (res := m) (v := v ++ [c]) ⟨m, rfl, m2, fun w => ?_⟩).congr fun w => by simp
      rw [m3]
      constructor
      · rintro ⟨x, y, rfl, rfl, rfl⟩; rfl
      · rintro rfl; exact ⟨v, [c], rfl, rfl, rfl⟩

theorem wordLoop_none {next : List Nat → Option (Nat × List Nat)} {fuel : Nat} {s : List Nat} (h : readAll next fuel s = none) (res : NFA C) :
    wordLoop next fuel res s = none := by
  induction fuel generalizing s res with
  | zero =>
    cases s with
    | nil => simp [readAll] at h
    | cons a s => rfl
  | succ fuel ih =>
    cases s with
    | nil => simp [readAll] at h
    | cons a s =>
      simp only [readAll, Option.bind_eq_none_iff, Option.map_eq_none_iff] at h
      simp only [wordLoop, Option.bind_eq_bind]
      cases hn : next (a :: s) with
      | none => rfl
      | some p =>
        obtain ⟨c, s'⟩ := p
        simp only [Option.bind_some, Option.bind_eq_none_iff]
        intro k _ m _
        exact ih (h _ hn) m

theorem word_some {next : List Nat → Option (Nat × List Nat)} {s cs : List Nat} (h : readAll next s.length s = some cs)
    (hc : ∀ c ∈ cs, c < CharSetLike.size C) : Builds (word next s : Option (NFA C)) fun w => w = cs :=
  (wordLoop_some h hc builds_emptyWord).congr fun w => by simp

theorem readAll_unit (s : List Nat) : readAll unit s.length s = some s := by
  induction s with
  | nil => rfl
  | cons a s ih => simp [readAll, unit, ih]

theorem length_encode8 (cs : List Nat) : cs.length ≤ (encode8 cs).length := by
  induction cs with
  | nil => simp [encode8]
  | cons c cs ih =>
    have : 1 ≤ (utf8 c).length := by unfold utf8; split <;> (try split) <;> (try split) <;> simp
    simp only [encode8, List.flatMap_cons, List.length_append, List.length_cons] at ih ⊢
    omega

theorem utf8_bytes {c : Nat} (h : Scalar c) : ∀ x ∈ utf8 c, x < 256 := by
  simp only [Scalar] at h
  unfold utf8
  split
  · simp; omega
  · split
    · simp; omega
    · split <;> (simp; omega)

theorem encode8_bytes {cs : List Nat} (h : ∀ c ∈ cs, Scalar c) : ∀ x ∈ encode8 cs, x < 256 := by
  intro x hx
  simp only [encode8, List.mem_flatMap] at hx
  obtain ⟨c, hc, hx⟩ := hx
  exact utf8_bytes (h c hc) x hx

/-- **C25** for UTF-8: `word(s)` matches exactly the UTF-8 encoding of `s`, for every string. -/
theorem C25_utf8 (hsz : CharSetLike.size C = 256) (cs : List Nat) (hs : ∀ c ∈ cs, Scalar c) :
    ∃ n : NFA C, word unit (encode8 cs) = some n ∧ n.Wf ∧ ∀ w, n.Lang w ↔ w = encode8 cs :=
  word_some (readAll_unit _) (by rw [hsz]; exact encode8_bytes hs)

/-- C25 for UCS-4.  Missing: strings with the code points the iterator drops. -/
theorem C25_ucs4_partial (hsz : CharSetLike.size C = 0x110000) (cs : List Nat) (hs : ∀ c ∈ cs, Scalar c ∧ ¬ Dropped c) :
    ∃ n : NFA C, word ucs4Next (encode8 cs) = some n ∧ n.Wf ∧ ∀ w, n.Lang w ↔ w = cs := by
  refine word_some ?_ (fun c hc => ?_)
  · rw [C06_utf8_to_ucs4 cs (fun c hc => (hs c hc).1) _ (length_encode8 cs), ← C06_utf8_to_ucs4 cs (fun c hc => (hs c hc).1) _ (Nat.le_refl _)]
    exact C06_decodes_partial cs hs
  · have := (hs c hc).1; simp only [Scalar] at this; omega

/-- What a decoding iterator yields, if it drops the characters in `drop`. -/
theorem last_any {cs : List Nat} {p : Nat → Bool} (h : ∀ c ∈ cs, p c = false) : cs.getLast?.any p = false := by
  cases hl : cs.getLast? with
  | none => rfl
  | some z => simp [h z (List.mem_of_getLast? hl)]

/-- C25 for UCS-2, for strings of representable characters that are not dropped. -/
theorem C25_ucs2_partial (hsz : CharSetLike.size C = 65536) (cs : List Nat) (hs : ∀ c ∈ cs, Scalar c ∧ ¬ Dropped c ∧ c < 0x10000) :
    ∃ n : NFA C, word ucs2Next (encode8 cs) = some n ∧ n.Wf ∧ ∀ w, n.Lang w ↔ w = cs := by
  refine word_some ?_ (fun c hc => by have := (hs c hc).2.2; omega)
  rw [C56_utf8_to_ucs2 cs (fun c hc => (hs c hc).1) _ (length_encode8 cs)]
  have hd : ∀ c ∈ cs, ¬ (0xffff < c ∨ Dropped c) := fun c hc => by
    have := hs c hc; rintro (h | h)
    · omega
    · exact this.2.1 h
  rw [if_neg (by rw [last_any (fun c hc => by simpa using hd c hc)]; simp)]
  congr 1
  rw [List.filter_eq_self]
  exact fun c hc => by simpa using hd c hc

/-- C25 for ASCII, for strings of ASCII characters (others are not representable). -/
theorem C25_ascii (hsz : CharSetLike.size C = 128) (cs : List Nat) (hs : ∀ c ∈ cs, c < 128) :
    ∃ n : NFA C, word asciiNext (encode8 cs) = some n ∧ n.Wf ∧ ∀ w, n.Lang w ↔ w = cs := by
  refine word_some ?_ (fun c hc => by have := hs c hc; omega)
  rw [C56_utf8_to_ascii cs (fun c hc => by have := hs c hc; simp only [Scalar]; omega) _ (length_encode8 cs)]
  rw [if_neg (by rw [last_any (fun c hc => by have := hs c hc; simp; omega)]; simp)]
  congr 1
  rw [List.filter_eq_self]
  exact fun c hc => by have := hs c hc; simp; omega

theorem encode8_self {cs : List Nat} : encode8 cs = cs ↔ ∀ c ∈ cs, c < 0x80 := by
  constructor
  · intro h
    induction cs with
    | nil => simp
    | cons c cs ih =>
      have he : encode8 (c :: cs) = utf8 c ++ encode8 cs := by simp [encode8]
      rw [he] at h
      by_cases hc : c < 0x80
      · rw [utf8, if_pos hc] at h
        simp only [List.cons_append, List.nil_append, List.cons.injEq, true_and] at h
        intro d hd
        rcases List.mem_cons.mp hd with rfl | hd
        · exact hc
        · exact ih h d hd
      · exfalso
        have l1 := congrArg List.length h
        have l2 := length_encode8 cs
        have l3 : 2 ≤ (utf8 c).length := by unfold utf8; rw [if_neg hc]; split <;> (try split) <;> simp
        simp only [List.length_append, List.length_cons] at l1
        omega
  · intro h
    induction cs with
    | nil => rfl
    | cons c cs ih =>
      have he : encode8 (c :: cs) = utf8 c ++ encode8 cs := by simp [encode8]
      rw [he, ih (fun d hd => h d (List.mem_cons_of_mem _ hd)), utf8, if_pos (h c List.mem_cons_self)]
      rfl

/-- C25 for Latin-1: the bytes of the UTF-8 form are used unconverted, so `word(s)` is right exactly for ASCII strings. -/
theorem C25_latin1_iff (hsz : CharSetLike.size C = 256) (cs : List Nat) (hs : ∀ c ∈ cs, Scalar c) :
    ∃ n : NFA C, word unit (encode8 cs) = some n ∧ n.Wf ∧ ((∀ w, n.Lang w ↔ w = cs) ↔ ∀ c ∈ cs, c < 0x80) := by
  obtain ⟨n, h1, h2, h3⟩ := C25_utf8 (C := C) hsz cs hs
  refine ⟨n, h1, h2, ?_⟩
  simp only [h3]
  rw [← encode8_self]
  constructor
  · intro h; exact (h _).mp rfl
  · intro h w; rw [h]

theorem encode16_filter {cs : List Nat} : encode16 cs = cs.filter (fun c => decide (c < 0x10000)) ↔ ∀ c ∈ cs, c < 0x10000 := by
  have len : ∀ cs : List Nat, (cs.filter (fun c => decide (c < 0x10000))).length ≤ (encode16 cs).length := by
    intro cs
    induction cs with
    | nil => simp
    | cons c cs ih =>
      have he : encode16 (c :: cs) = utf16 c ++ encode16 cs := by simp [encode16]
      rw [he, List.filter_cons, utf16]
      split <;> simp_all <;> split <;> simp <;> omega
  constructor
  · intro h
    induction cs with
    | nil => simp
    | cons c cs ih =>
      have he : encode16 (c :: cs) = utf16 c ++ encode16 cs := by simp [encode16]
      rw [he] at h
      by_cases hc : c < 0x10000
      · rw [utf16, if_pos hc, List.filter_cons_of_pos (by simpa using hc)] at h
        simp only [List.cons_append, List.nil_append, List.cons.injEq, true_and] at h
        intro d hd
        rcases List.mem_cons.mp hd with rfl | hd
        · exact hc
        · exact ih h d hd
      · exfalso
        rw [utf16, if_neg hc, List.filter_cons_of_neg (by simpa using hc)] at h
        have l1 := congrArg List.length h
        have l2 := len cs
        simp only [List.length_append, List.length_cons, List.length_nil] at l1
        omega
  · intro h
    induction cs with
    | nil => rfl
    | cons c cs ih =>
      have he : encode16 (c :: cs) = utf16 c ++ encode16 cs := by simp [encode16]
      rw [he, ih (fun d hd => h d (List.mem_cons_of_mem _ hd)), utf16, if_pos (h c List.mem_cons_self),
        List.filter_cons_of_pos (by simpa using h c List.mem_cons_self)]
      rfl

/-- C25 for UTF-16, where the code uses the UCS-2 iterator: for strings that do not end outside the BMP and have no dropped
characters, `word(s)` is right exactly if all characters are in the BMP. -/
theorem C25_utf16_iff (hsz : CharSetLike.size C = 65536) (cs : List Nat) (hs : ∀ c ∈ cs, Scalar c ∧ ¬ Dropped c)
    (hl : ∀ c, cs.getLast? = some c → c < 0x10000) :
    ∃ n : NFA C, word ucs2Next (encode8 cs) = some n ∧ n.Wf ∧
      ((∀ w, n.Lang w ↔ w = encode16 cs) ↔ ∀ c ∈ cs, c < 0x10000) := by
  have hr : readAll ucs2Next (encode8 cs).length (encode8 cs) = some (cs.filter fun c => decide (c < 0x10000)) := by
    rw [C56_utf8_to_ucs2 cs (fun c hc => (hs c hc).1) _ (length_encode8 cs)]
    have h1 : cs.getLast?.any (fun c => decide (0xffff < c ∨ Dropped c)) = false := by
      cases h : cs.getLast? with
      | none => rfl
      | some z =>
        have := hl z h
        have h2 := (hs z (List.mem_of_getLast? h)).2
        simp only [Option.any_some, decide_eq_false_iff_not, not_or]
        exact ⟨by omega, h2⟩
    rw [h1]
    simp only [Bool.false_eq_true, if_false]
    congr 1
    refine List.filter_congr fun c hc => ?_
    have h2 := (hs c hc).2
    have : (0xffff < c ∨ Dropped c) ↔ ¬ c < 0x10000 := ⟨fun h => h.elim (fun h => by omega) (fun h => absurd h h2), fun h => Or.inl (by omega)⟩
    rw [decide_eq_decide.mpr this, decide_not, Bool.not_not]
  obtain ⟨n, h1, h2, h3⟩ := word_some (C := C) hr (fun c hc => by simp only [List.mem_filter, decide_eq_true_eq] at hc; omega)
  refine ⟨n, h1, h2, ?_⟩
  simp only [h3]
  rw [← encode16_filter]
  constructor
  · intro h; exact ((h _).mp rfl).symm
  · intro h w; rw [h]

/-- A word ending with a character the iterator drops makes it read past the end of the string (no automaton in the model):
`"a😀"` in UTF-16 and UCS-2, `"aä"` in ASCII. -/
theorem C25_past_end :
    (word ucs2Next (encode8 [0x61, 0x1f600]) : Option (NFA C)) = none ∧
    (word asciiNext (encode8 [0x61, 0xe4]) : Option (NFA C)) = none := by
  constructor
  · refine wordLoop_none ?_ _
    rw [C56_utf8_to_ucs2 _ (by decide) _ (by decide)]; decide
  · refine wordLoop_none ?_ _
    rw [C56_utf8_to_ascii _ (by decide) _ (by decide)]; decide

example : (∀ c ∈ [0x61, 0xe4, 0x20ac], Scalar c ∧ ¬ Dropped c ∧ c < 0x10000) := by decide
example : ∃ n : NFA (SeqCS 256), word unit (encode8 [0xe4]) = some n ∧ n.Lang [0xc3, 0xa4] ∧ ¬ n.Lang [0xe4] := by
  obtain ⟨n, h1, h2, h3⟩ := C25_utf8 (C := SeqCS 256) rfl [0xe4] (by decide)
  exact ⟨n, h1, (h3 _).mpr rfl, fun h => absurd ((h3 _).mp h) (by decide)⟩

/-! ### Collections -/

theorem collectLoop_spec {range : Nat → Nat → Option (NFA C)} {enc : Nat → List Nat} (fuel : Nat) (s cs : List Nat)
    (h : readAll utf16ToUcs4Next fuel s = some cs) (hc : ∀ c ∈ cs, Builds (character range c) fun w => w = enc c) {res : NFA C} {L : Lang}
    (hr : Builds (some res) L) : Builds (collectLoop range fuel res s) fun w => L w ∨ ∃ c ∈ cs, w = enc c := by
  induction fuel generalizing s cs res L with
  | zero =>
    cases s with
    | nil => simp only [readAll, Option.some.injEq] at h; subst h; simpa [collectLoop] using hr
    | cons a s => simp [readAll] at h
  | succ fuel ih =>
    cases s with
    | nil => simp only [readAll, Option.some.injEq] at h; subst h; simpa [collectLoop] using hr
    | cons a s =>
      simp only [readAll, Option.bind_eq_some_iff, Option.map_eq_some_iff] at h
      obtain ⟨⟨c, s'⟩, h1, ds, h2, rfl⟩ := h
      obtain ⟨k, k1, k2, k3⟩ := hc c List.mem_cons_self
      obtain ⟨m, m1, m2, m3⟩ := hr.alt ⟨k, k1, k2, k3⟩
      simp only [character] at k1 m1
      simp only [k1, Option.bind_eq_bind, Option.bind_some] at m1
      simp only [collectLoop, h1, Option.bind_eq_bind, Option.bind_some, k1, m1]
      refine (ih s' ds h2 (fun c hc' => hc c (List.mem_cons_of_mem _ hc')) (res := m) ⟨m, rfl, m2, m3⟩).congr fun w => ?_
      simp only [List.mem_cons, exists_eq_or_imp, or_assoc]

theorem length_encode16 (cs : List Nat) : cs.length ≤ (encode16 cs).length := by
  induction cs with
  | nil => simp [encode16]
  | cons c cs ih =>
    have : 1 ≤ (utf16 c).length := by unfold utf16; split <;> simp
    simp only [encode16, List.flatMap_cons, List.length_append, List.length_cons] at ih ⊢
    omega

theorem collection_spec {range : Nat → Nat → Option (NFA C)} {enc : Nat → List Nat} (cs : List Nat) (hs : ∀ c ∈ cs, Scalar c)
    (hc : ∀ c ∈ cs, Builds (character range c) fun w => w = enc c) :
    Builds (collection range (encode16 cs)) fun w => ∃ c ∈ cs, w = enc c :=
  (collectLoop_spec _ _ cs (C07_utf16_to_ucs4 cs hs _ (length_encode16 cs)) hc builds_empty).congr fun w => by simp

/-- **C59.** ASCII, Latin-1, UCS-2: a collection of representable characters matches exactly each of them. -/
theorem C59_fixed (hsz : CharSetLike.size C ≤ 65536) (cs : List Nat) (hs : ∀ c ∈ cs, Scalar c ∧ c < CharSetLike.size C) :
    ∃ n : NFA C, collection rangeFixed (encode16 cs) = some n ∧ n.Wf ∧ ∀ w, n.Lang w ↔ ∃ c ∈ cs, w = [c] := by
  refine collection_spec cs (fun c hc => (hs c hc).1) fun c hc => ?_
  have := hs c hc
  exact Builds.congr (C26_character (C := C) (c := c) (by omega) (by omega)) fun w => by simp [this.2]

/-- **C59.** UCS-4: for every string. -/
theorem C59_ucs4 (hsz : CharSetLike.size C = 0x110000) (cs : List Nat) (hs : ∀ c ∈ cs, Scalar c) :
    ∃ n : NFA C, collection rangeUcs4 (encode16 cs) = some n ∧ n.Wf ∧ ∀ w, n.Lang w ↔ ∃ c ∈ cs, w = [c] := by
  refine collection_spec cs hs fun c hc => ?_
  have := hs c hc
  simp only [Scalar] at this
  exact C26_ucs4_character (C := C) (c := c) (by omega) (by omega)

/-- C59 for UTF-8.  Missing: U+3FFFF, U+7FFFF, U+BFFFF, U+FFFFF (`C27_wrong`). -/
theorem C59_utf8_partial (hsz : CharSetLike.size C = 256) (cs : List Nat) (hs : ∀ c ∈ cs, Scalar c ∧ (c < 0x10000 ∨ c % 0x40000 ≠ 0x3ffff)) :
    ∃ n : NFA C, collection rangeUtf8 (encode16 cs) = some n ∧ n.Wf ∧ ∀ w, n.Lang w ↔ ∃ c ∈ cs, w = utf8 c := by
  refine collection_spec cs (fun c hc => (hs c hc).1) fun c hc => ?_
  have := hs c hc
  exact C27_character (C := C) hsz (c := c) (by have := this.1; simp only [Scalar] at this; omega) this.2

/-- C59 for UTF-16.  Missing: the first and last character of each block of 1024 outside the BMP (`C28_character`). -/
theorem C59_utf16_partial (hsz : CharSetLike.size C = 65536) (cs : List Nat)
    (hs : ∀ c ∈ cs, Scalar c ∧ (c < 0x10000 ∨ c % 1024 ≠ 0 ∧ c % 1024 ≠ 1023)) :
    ∃ n : NFA C, collection rangeUtf16 (encode16 cs) = some n ∧ n.Wf ∧ ∀ w, n.Lang w ↔ ∃ c ∈ cs, w = utf16 c := by
  refine collection_spec cs (fun c hc => (hs c hc).1) fun c hc => ?_
  have := hs c hc
  obtain ⟨n, h1, h2, h3⟩ := C28_character (C := C) hsz this.1
  exact ⟨n, h1, h2, h3.mpr this.2⟩

example : ∀ c ∈ [0x61, 0xe4, 0x20ac, 0x1f600], Scalar c ∧ (c < 0x10000 ∨ c % 0x40000 ≠ 0x3ffff) ∧
    (c < 0x10000 ∨ c % 1024 ≠ 0 ∧ c % 1024 ≠ 1023) := by decide

end Verif.Enc
