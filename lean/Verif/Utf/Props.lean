import Verif.Utf.Lemmas

/-!
# C06, C07, C08: Unicode input iterators

`readAll next fuel s` is `while(hasNext()) out << next();`; `none` means that `next()` read past the end
of the buffer (or fuel ran out, which the theorems exclude by giving enough).
-/

namespace Verif.Utf
open Spec

/-- C06. Complete description of reading a well-formed UTF-8 buffer: all scalars come out in order except
the dropped ones; if the very last scalar is a dropped one, `next()` reads past the end. -/
theorem C06_utf8_to_ucs4 (cs : List Nat) (hs : ∀ c ∈ cs, Scalar c) (fuel : Nat) (hf : cs.length ≤ fuel) :
    readAll ucs4Next fuel (encode8 cs) =
      if cs.getLast?.any (fun c => decide (Dropped c)) then none
      else some (cs.filter fun c => !decide (Dropped c)) := by
  refine readAll_utf8 (drop := fun c => decide (Dropped c)) (by rw [ucs4Next]; simp [group]) ?_ cs hs fuel hf
  intro c rest hc
  rw [ucs4Next_utf8 hc]
  by_cases h : Dropped c <;> simp [h]

/-- C06 as stated, for text without the dropped code points: exactly the encoded scalars, without reading
past the end.  Missing from the full claim: texts with dropped noncharacters, which the code skips (see
`C06_utf8_to_ucs4` and `C06_nonchar_lost`). -/
theorem C06_decodes_partial (cs : List Nat) (hs : ∀ c ∈ cs, Scalar c ∧ ¬ Dropped c) :
    readAll ucs4Next cs.length (encode8 cs) = some cs := by
  rw [C06_utf8_to_ucs4 cs (fun c hc => (hs c hc).1) _ (Nat.le_refl _)]
  have h1 : cs.getLast?.any (fun c => decide (Dropped c)) = false := by
    cases hl : cs.getLast? with
    | none => rfl
    | some z => simp [(hs z (List.mem_of_getLast? hl)).2]
  rw [h1]
  simp only [Bool.false_eq_true, if_false, Option.some.injEq, List.filter_eq_self, Bool.not_eq_true',
    decide_eq_false_iff_not]
  exact fun c hc => (hs c hc).2

/-- The full C06 fails: U+FFFE in the middle is skipped, at the end it makes `next()` run past the end. -/
theorem C06_nonchar_lost :
    readAll ucs4Next 3 (encode8 [0x61, 0xfffe, 0x62]) = some [0x61, 0x62] ∧
    readAll ucs4Next 2 (encode8 [0x61, 0xfffe]) = none := by
  constructor
  · rw [C06_utf8_to_ucs4 _ (by decide) _ (by decide)]; decide
  · rw [C06_utf8_to_ucs4 _ (by decide) _ (by decide)]; decide

/-- C07. Reading a well-formed UTF-16 string yields exactly its scalar values and never reads past the
end. -/
theorem C07_utf16_to_ucs4 (cs : List Nat) (hs : ∀ c ∈ cs, Scalar c) (fuel : Nat) (hf : cs.length ≤ fuel) :
    readAll utf16ToUcs4Next fuel (encode16 cs) = some cs := by
  induction cs generalizing fuel with
  | nil => cases fuel <;> simp [encode16, readAll]
  | cons c cs ih =>
    simp only [List.length_cons] at hf
    obtain ⟨f, rfl⟩ : ∃ f, fuel = f + 1 := ⟨fuel - 1, by omega⟩
    have he : encode16 (c :: cs) = utf16 c ++ encode16 cs := by simp [encode16]
    have hne : utf16 c ++ encode16 cs ≠ [] := by
      unfold utf16; split <;> simp
    have hn := next_utf16 (hs c List.mem_cons_self) (encode16 cs)
    rw [he]
    cases hl : utf16 c ++ encode16 cs with
    | nil => exact absurd hl hne
    | cons x xs =>
      rw [hl] at hn
      simp only [readAll, hn, Option.bind_some]
      rw [ih (fun x hx => hs x (List.mem_cons_of_mem _ hx)) f (by omega)]
      rfl

/-- A lone high surrogate at the end makes the iterator read past the end (ill-formed input, outside
C07). -/
theorem C07_lone_surrogate (u : Nat) (h : 0xd800 ≤ u ∧ u < 0xdc00) : utf16ToUcs4Next [u] = none := by
  have : isHighSurrogate u = true := by
    unfold isHighSurrogate
    rw [beq_iff_eq, and_fc00 (by omega)]; omega
  simp [utf16ToUcs4Next, this]

/-- C08. Complete description of transcoding UTF-8 to UTF-16: the encoding of all scalars but the dropped
ones in the BMP; if the last scalar is outside the BMP its low surrogate is never delivered; if the last
scalar is dropped, `next()` reads past the end. -/
theorem C08_utf8_to_utf16 (cs : List Nat) (hs : ∀ c ∈ cs, Scalar c) (fuel : Nat) (hf : 2 * cs.length ≤ fuel) :
    readAll16 fuel (encode8 cs) 0 =
      if cs.getLast?.any (fun c => decide (c ≤ 0xffff ∧ Dropped c)) then none
      else if cs.getLast?.any (fun c => decide (0xffff < c)) then
        some (encode16 (cs.filter fun c => !decide (c ≤ 0xffff ∧ Dropped c))).dropLast
      else some (encode16 (cs.filter fun c => !decide (c ≤ 0xffff ∧ Dropped c))) :=
  readAll16_utf8 cs hs fuel hf

/-- C08 as stated, for text without dropped code points that does not end outside the BMP. -/
theorem C08_transcodes_partial (cs : List Nat) (hs : ∀ c ∈ cs, Scalar c ∧ ¬ Dropped c)
    (hl : ∀ c, cs.getLast? = some c → c ≤ 0xffff) :
    readAll16 (2 * cs.length) (encode8 cs) 0 = some (encode16 cs) := by
  rw [C08_utf8_to_utf16 cs (fun c hc => (hs c hc).1) _ (Nat.le_refl _)]
  have h1 : cs.getLast?.any (fun c => decide (c ≤ 0xffff ∧ Dropped c)) = false := by
    cases h : cs.getLast? with
    | none => rfl
    | some z => simp [(hs z (List.mem_of_getLast? h)).2]
  have h2 : cs.getLast?.any (fun c => decide (0xffff < c)) = false := by
    cases h : cs.getLast? with
    | none => rfl
    | some z => have := hl z h; simp; omega
  have h3 : cs.filter (fun c => !decide (c ≤ 0xffff ∧ Dropped c)) = cs := by
    rw [List.filter_eq_self]
    intro c hc
    simp [(hs c hc).2]
  rw [h1, h2, h3]
  simp only [Bool.false_eq_true, if_false]

/-- The full C08 fails: for U+1F600 only the high surrogate is delivered. -/
theorem C08_last_surrogate_lost : readAll16 2 (encode8 [0x1f600]) 0 = some [0xd83d] ∧
    encode16 [0x1f600] = [0xd83d, 0xde00] := by
  constructor
  · rw [C08_utf8_to_utf16 _ (by decide) _ (by decide)]; decide
  · decide

/-- C56. The UTF-8 to UCS-2 iterator delivers exactly the BMP scalars that are not dropped; the
UTF-8 to ASCII iterator exactly the ASCII ones; both read past the end if the last scalar is not
delivered. -/
theorem C56_utf8_to_ucs2 (cs : List Nat) (hs : ∀ c ∈ cs, Scalar c) (fuel : Nat) (hf : cs.length ≤ fuel) :
    readAll ucs2Next fuel (encode8 cs) =
      if cs.getLast?.any (fun c => decide (0xffff < c ∨ Dropped c)) then none
      else some (cs.filter fun c => !decide (0xffff < c ∨ Dropped c)) := by
  refine readAll_utf8 (drop := fun c => decide (0xffff < c ∨ Dropped c)) (by rw [ucs2Next]; simp [group]) ?_
    cs hs fuel hf
  intro c rest hc
  rw [ucs2Next_utf8 hc]
  by_cases h : 0xffff < c ∨ Dropped c <;> simp [h]

theorem C56_utf8_to_ascii (cs : List Nat) (hs : ∀ c ∈ cs, Scalar c) (fuel : Nat) (hf : cs.length ≤ fuel) :
    readAll asciiNext fuel (encode8 cs) =
      if cs.getLast?.any (fun c => decide (128 ≤ c)) then none
      else some (cs.filter fun c => !decide (128 ≤ c)) := by
  refine readAll_utf8 (drop := fun c => decide (128 ≤ c)) (by rw [asciiNext]; simp [group]) ?_
    cs hs fuel hf
  intro c rest hc
  rw [asciiNext_utf8 hc]
  by_cases h : 128 ≤ c <;> simp [h]

/-- Non-vacuity: all four lengths. -/
example : (∀ c ∈ [0x61, 0xe4, 0x20ac, 0x1f600, 0x7a], Scalar c ∧ ¬ Dropped c) := by decide
example : encode8 [0x61, 0xe4, 0x20ac, 0x1f600] =
    [0x61, 0xc3, 0xa4, 0xe2, 0x82, 0xac, 0xf0, 0x9f, 0x98, 0x80] := by decide

end Verif.Utf
