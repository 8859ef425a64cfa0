import Verif.Utf.Model
import Verif.Utf.Spec

namespace Verif.Utf
open Spec

theorem lead2 : ∀ c, c < 256 → (c &&& 0xe0 = 0xc0 ↔ 0xc0 ≤ c ∧ c < 0xe0) := by decide +kernel
theorem lead3 : ∀ c, c < 256 → (c &&& 0xf0 = 0xe0 ↔ 0xe0 ≤ c ∧ c < 0xf0) := by decide +kernel
theorem lead4 : ∀ c, c < 256 → (c &&& 0xf8 = 0xf0 ↔ 0xf0 ≤ c ∧ c < 0xf8) := by decide +kernel

theorem and3f (d : Nat) : d &&& 0x3f = d % 64 := Nat.and_two_pow_sub_one_eq_mod d 6
theorem and1f (d : Nat) : d &&& 0x1f = d % 32 := Nat.and_two_pow_sub_one_eq_mod d 5
theorem and0f (d : Nat) : d &&& 0x0f = d % 16 := Nat.and_two_pow_sub_one_eq_mod d 4

theorem shl6_or (x y : Nat) (h : y < 64) : (x <<< 6) ||| y = x * 64 + y := by
  rw [← Nat.shiftLeft_add_eq_or_of_lt (i := 6) h, Nat.shiftLeft_eq]

theorem shl6_mod (x d : Nat) : (x <<< 6) ||| (d &&& 0x3f) = x * 64 + d % 64 := by
  rw [and3f, shl6_or _ _ (Nat.mod_lt _ (by decide))]

/-- Decoding the group that encodes one scalar. -/
theorem group_utf8 {c : Nat} (h : c < 0x110000) (rest : List Nat) :
    group (utf8 c ++ rest) = some (if c < 128 then .direct c else .ret c, rest) := by
  unfold utf8
  split
  · rename_i h1
    simp [group, h1]
  · rename_i h1
    split
    · rename_i h2
      have l2 := (lead2 (0xc0 + c / 64) (by omega)).mpr (by omega)
      simp only [List.cons_append, List.nil_append, group]
      rw [if_neg (by omega), if_pos l2, shl6_mod, and1f]
      have : (0xc0 + c / 64) % 32 * 64 + (0x80 + c % 64) % 64 = c := by omega
      rw [this]
    · rename_i h2
      split
      · rename_i h3
        have l2 : ¬ ((0xe0 + c / 4096) &&& 0xe0 = 0xc0) := by
          rw [lead2 _ (by omega)]; omega
        have l3 := (lead3 (0xe0 + c / 4096) (by omega)).mpr (by omega)
        simp only [List.cons_append, List.nil_append, group]
        rw [if_neg (by omega), if_neg l2, if_pos l3, shl6_mod, shl6_mod, and0f]
        have : ((0xe0 + c / 4096) % 16 * 64 + (0x80 + c / 64 % 64) % 64) * 64 + (0x80 + c % 64) % 64 = c := by
          omega
        rw [this]
      · rename_i h3
        have l2 : ¬ ((0xf0 + c / 262144) &&& 0xe0 = 0xc0) := by
          rw [lead2 _ (by omega)]; omega
        have l3 : ¬ ((0xf0 + c / 262144) &&& 0xf0 = 0xe0) := by
          rw [lead3 _ (by omega)]; omega
        have l4 := (lead4 (0xf0 + c / 262144) (by omega)).mpr (by omega)
        simp only [List.cons_append, List.nil_append, group]
        rw [if_neg (by omega), if_neg l2, if_neg l3, if_pos l4, shl6_mod, shl6_mod, shl6_mod, and0f]
        have : (((0xf0 + c / 262144) % 16 * 64 + (0x80 + c / 4096 % 64) % 64) * 64 + (0x80 + c / 64 % 64) % 64) * 64
            + (0x80 + c % 64) % 64 = c := by omega
        rw [this]

theorem and_fffe (c : Nat) : c &&& 0xfffe = 0xfffe ↔ 0xfffe ≤ c % 0x10000 := by
  have h1 : (c &&& 0xfffe) = (c % 0x10000) &&& 0xfffe := by
    have : (0xfffe : Nat) = 0xffff &&& 0xfffe := by decide
    conv => lhs; rw [this, ← Nat.and_assoc, Nat.and_two_pow_sub_one_eq_mod c 16]
  rw [h1]
  have hlt : c % 0x10000 < 0x10000 := Nat.mod_lt _ (by decide)
  generalize c % 0x10000 = d at hlt
  have e : d &&& 0xfffe = 2 * (d / 2) := by
    have hd : (d &&& 0xfffe) / 2 = d / 2 &&& 0x7fff := by
      rw [Nat.and_div_two]
    have hm : (d &&& 0xfffe) % 2 = 0 := by
      have := Nat.and_mod_two_pow (a := d) (b := 0xfffe) (n := 1)
      simpa using this
    have h3 : d / 2 &&& 0x7fff = d / 2 % 32768 := Nat.and_two_pow_sub_one_eq_mod (d / 2) 15
    omega
  rw [e]
  omega

theorem valid_iff {c : Nat} (h : c < 0x110000) : valid c = true ↔ ¬ Dropped c := by
  unfold valid Dropped sub32
  simp only [Bool.and_eq_true, bne_iff_ne, ne_eq, decide_eq_true_eq]
  rw [and_fffe]
  omega

theorem valid_of_lt {c : Nat} (h : c < 128) : ¬ Dropped c := by
  unfold Dropped; omega

theorem utf8_ne_nil (c : Nat) : utf8 c ≠ [] := by
  unfold utf8; split
  · simp
  · split
    · simp
    · split <;> simp

theorem utf8_pos (c : Nat) : 0 < (utf8 c).length := List.length_pos_iff.mpr (utf8_ne_nil c)

theorem Spec.Scalar.lt {c : Nat} (h : Scalar c) : c < 0x110000 := by unfold Scalar at h; omega

/-! ### `next` on an encoded scalar -/

theorem ucs4Next_direct {s s' : List Nat} {c : Nat} (h : group s = some (.direct c, s')) :
    ucs4Next s = some (c, s') := by
  rw [ucs4Next]; split <;> simp_all

theorem ucs4Next_ret {s s' : List Nat} {r : Nat} (h : group s = some (.ret r, s')) :
    ucs4Next s = if valid r then some (r, s') else ucs4Next s' := by
  rw [ucs4Next]; split <;> simp_all

theorem ucs2Next_direct {s s' : List Nat} {c : Nat} (h : group s = some (.direct c, s')) :
    ucs2Next s = some (c, s') := by
  rw [ucs2Next]; split <;> simp_all

theorem ucs2Next_ret {s s' : List Nat} {r : Nat} (h : group s = some (.ret r, s')) :
    ucs2Next s = if r ≤ 0xffff ∧ valid r then some (r, s') else ucs2Next s' := by
  rw [ucs2Next]; split <;> simp_all

theorem asciiNext_direct {s s' : List Nat} {c : Nat} (h : group s = some (.direct c, s')) :
    asciiNext s = some (c, s') := by
  rw [asciiNext]; split <;> simp_all

theorem asciiNext_ret {s s' : List Nat} {r : Nat} (h : group s = some (.ret r, s')) :
    asciiNext s = asciiNext s' := by
  rw [asciiNext]; split <;> simp_all

theorem utf16Loop_direct {s s' : List Nat} {c : Nat} (h : group s = some (.direct c, s')) :
    utf16Loop s = some (c, 0, s') := by
  rw [utf16Loop]; split <;> simp_all

theorem utf16Loop_ret {s s' : List Nat} {r : Nat} (h : group s = some (.ret r, s')) :
    utf16Loop s = if r ≤ 0xffff then (if valid r then some (r, 0, s') else utf16Loop s') else some (highSurrogate r, lowSurrogate r, s') := by
  rw [utf16Loop]; split <;> simp_all

theorem ucs4Next_utf8 {c : Nat} (h : c < 0x110000) (rest : List Nat) :
    ucs4Next (utf8 c ++ rest) = if Dropped c then ucs4Next rest else some (c, rest) := by
  have hg := group_utf8 h rest
  split at hg
  · rename_i h1
    rw [ucs4Next_direct hg, if_neg (valid_of_lt h1)]
  · have hv := valid_iff h
    rw [ucs4Next_ret hg]
    by_cases hd : Dropped c
    · rw [if_pos hd, if_neg (by rw [hv]; exact fun h => h hd)]
    · rw [if_neg hd, if_pos (hv.mpr hd)]

theorem ucs2Next_utf8 {c : Nat} (h : c < 0x110000) (rest : List Nat) :
    ucs2Next (utf8 c ++ rest) = if 0xffff < c ∨ Dropped c then ucs2Next rest else some (c, rest) := by
  have hg := group_utf8 h rest
  split at hg
  · rename_i h1
    rw [ucs2Next_direct hg, if_neg]
    rintro (h2 | h2)
    · omega
    · exact valid_of_lt h1 h2
  · have hv := valid_iff h
    rw [ucs2Next_ret hg]; simp only [hv]
    by_cases hd : Dropped c
    · rw [if_pos (Or.inr hd), if_neg (fun h => h.2 hd)]
    · by_cases hc : 0xffff < c
      · rw [if_pos (Or.inl hc), if_neg (fun h => by omega)]
      · rw [if_pos ⟨by omega, hd⟩, if_neg (fun h => h.elim hc hd)]

theorem asciiNext_utf8 {c : Nat} (h : c < 0x110000) (rest : List Nat) :
    asciiNext (utf8 c ++ rest) = if 128 ≤ c then asciiNext rest else some (c, rest) := by
  have hg := group_utf8 h rest
  split at hg
  · rw [asciiNext_direct hg, if_neg (by omega)]
  · rw [asciiNext_ret hg, if_pos (by omega)]

theorem utf16Loop_utf8 {c : Nat} (h : c < 0x110000) (rest : List Nat) :
    utf16Loop (utf8 c ++ rest) =
      if 0xffff < c then some (highSurrogate c, lowSurrogate c, rest)
      else if Dropped c then utf16Loop rest else some (c, 0, rest) := by
  have hg := group_utf8 h rest
  split at hg
  · rename_i h1
    rw [utf16Loop_direct hg, if_neg (by omega), if_neg (valid_of_lt h1)]
  · have hv := valid_iff h
    rw [utf16Loop_ret hg]; simp only [hv]
    by_cases hc : 0xffff < c
    · rw [if_neg (by omega), if_pos hc]
    · rw [if_pos (by omega), if_neg hc]
      by_cases hd : Dropped c
      · rw [if_pos hd, if_neg (fun h => h hd)]
      · rw [if_neg hd, if_pos hd]

/-! ### Whole inputs -/

/-- An iterator that drops the scalars satisfying `drop`. -/
theorem readAll_utf8 {next : List Nat → Option (Nat × List Nat)} {drop : Nat → Bool}
    (h0 : next [] = none)
    (hn : ∀ c rest, c < 0x110000 → next (utf8 c ++ rest) = if drop c then next rest else some (c, rest)) :
    ∀ (cs : List Nat), (∀ c ∈ cs, Scalar c) → ∀ fuel, cs.length ≤ fuel →
      readAll next fuel (encode8 cs) =
        if cs.getLast?.any drop then none else some (cs.filter fun c => !drop c) := by
  intro cs
  induction cs with
  | nil => intro _ fuel _; cases fuel <;> simp [encode8, readAll]
  | cons c cs ih =>
    intro hs fuel hf
    have hc : c < 0x110000 := (hs c List.mem_cons_self).lt
    have ih' := ih (fun x hx => hs x (List.mem_cons_of_mem _ hx))
    simp only [List.length_cons] at hf
    obtain ⟨f, rfl⟩ : ∃ f, fuel = f + 1 := ⟨fuel - 1, by omega⟩
    have unf : ∀ s, s ≠ [] → readAll next (f + 1) s =
        (next s).bind fun (c, s') => (readAll next f s').map (c :: ·) := by
      intro s hs; cases s with
      | nil => exact absurd rfl hs
      | cons => rfl
    have hne : encode8 (c :: cs) ≠ [] := by simp [encode8, utf8_ne_nil]
    rw [unf _ hne]
    have he : encode8 (c :: cs) = utf8 c ++ encode8 cs := by simp [encode8]
    rw [he, hn c _ hc]
    cases hd : drop c with
    | true =>
      simp only [if_true]
      cases cs with
      | nil => simp [encode8, h0, hd]
      | cons c' cs' =>
        have hne' : encode8 (c' :: cs') ≠ [] := by simp [encode8, utf8_ne_nil]
        have := ih' (f + 1) (by omega)
        rw [unf _ hne'] at this
        rw [this]
        simp [List.getLast?_cons_cons, hd]
    | false =>
      simp only [Bool.false_eq_true, if_false, Option.bind_some]
      rw [ih' f (by omega)]
      cases cs with
      | nil => simp [hd]
      | cons c' cs' =>
        rw [List.getLast?_cons_cons]
        split <;> simp [hd]

theorem surrogates {c : Nat} (h1 : 0xffff < c) (h2 : c < 0x110000) :
    highSurrogate c = 0xd800 + (c - 0x10000) / 0x400 ∧ lowSurrogate c = 0xdc00 + (c - 0x10000) % 0x400 := by
  unfold highSurrogate lowSurrogate
  rw [Nat.shiftRight_eq_div_pow]
  omega

theorem lowSurrogate_ne {c : Nat} : lowSurrogate c ≠ 0 := by
  unfold lowSurrogate; omega

/-- What the UTF-8 to UTF-16 iterator drops. -/
def drop16 (c : Nat) : Bool := decide (c ≤ 0xffff ∧ Dropped c)

theorem readAll16_utf8 : ∀ (cs : List Nat), (∀ c ∈ cs, Scalar c) → ∀ fuel, 2 * cs.length ≤ fuel →
    readAll16 fuel (encode8 cs) 0 =
      if cs.getLast?.any drop16 then none
      else if cs.getLast?.any (fun c => decide (0xffff < c)) then
        some (encode16 (cs.filter fun c => !drop16 c)).dropLast
      else some (encode16 (cs.filter fun c => !drop16 c)) := by
  intro cs
  induction cs with
  | nil => intro _ fuel _; cases fuel <;> simp [encode8, readAll16, encode16]
  | cons c cs ih =>
    intro hs fuel hf
    have hc : c < 0x110000 := (hs c List.mem_cons_self).lt
    have ih' := ih (fun x hx => hs x (List.mem_cons_of_mem _ hx))
    simp only [List.length_cons] at hf
    obtain ⟨f, rfl⟩ : ∃ f, fuel = f + 2 := ⟨fuel - 2, by omega⟩
    have unf : ∀ f s sur, s ≠ [] → readAll16 (f + 1) s sur =
        (utf16Next s sur).bind fun (c, sur', s') => (readAll16 f s' sur').map (c :: ·) := by
      intro f s sur hs; cases s with
      | nil => exact absurd rfl hs
      | cons => rfl
    have hne : encode8 (c :: cs) ≠ [] := by simp [encode8, utf8_ne_nil]
    have he : encode8 (c :: cs) = utf8 c ++ encode8 cs := by simp [encode8]
    rw [unf _ _ _ hne, utf16Next, if_neg (by simp), he, utf16Loop_utf8 hc]
    by_cases hsup : 0xffff < c
    · -- a surrogate pair
      rw [if_pos hsup]
      have hk : drop16 c = false := by simp [drop16]; intro; omega
      obtain ⟨e1, e2⟩ := surrogates hsup hc
      have h16 : utf16 c = [highSurrogate c, lowSurrogate c] := by
        unfold utf16; rw [if_neg (by omega), e1, e2]
      simp only [Option.bind_some]
      cases cs with
      | nil => simp [encode8, readAll16, hk, hsup, encode16, h16]
      | cons c' cs' =>
        have hne' : encode8 (c' :: cs') ≠ [] := by simp [encode8, utf8_ne_nil]
        rw [unf _ _ _ hne', utf16Next, if_pos lowSurrogate_ne]
        simp only [Option.bind_some]
        rw [ih' f (by omega), List.getLast?_cons_cons]
        have hfil : (c :: c' :: cs').filter (fun c => !drop16 c) = c :: (c' :: cs').filter (fun c => !drop16 c) := by
          rw [List.filter_cons_of_pos (by simp [hk])]
        split
        · simp
        · rename_i hlast
          split
          · rename_i hls
            rw [hfil]
            have hnn : encode16 ((c' :: cs').filter fun c => !drop16 c) ≠ [] := by
              cases hgl : (c' :: cs').getLast? with
              | none => simp [hgl] at hls
              | some z =>
                simp only [hgl, Option.any_some, decide_eq_true_eq] at hls
                have hz : z ∈ (c' :: cs').filter fun c => !drop16 c := by
                  rw [List.mem_filter]
                  refine ⟨List.mem_of_getLast? hgl, ?_⟩
                  simp [drop16]; exact Or.inl hls
                intro hnil
                simp only [encode16, List.flatMap_eq_nil_iff] at hnil
                have := hnil z hz
                unfold utf16 at this
                split at this <;> simp at this
            have : encode16 (c :: (c' :: cs').filter fun c => !drop16 c) =
                highSurrogate c :: lowSurrogate c :: encode16 ((c' :: cs').filter fun c => !drop16 c) := by
              simp [encode16, h16]
            rw [this]
            simp [List.dropLast_cons_of_ne_nil hnn]
          · rw [hfil]
            simp [encode16, h16]
    · rw [if_neg hsup]
      by_cases hd : Dropped c
      · rw [if_pos hd]
        have hk : drop16 c = true := by simp [drop16, hd]; omega
        cases cs with
        | nil => simp [encode8, utf16Loop, group, hk]
        | cons c' cs' =>
          have hne' : encode8 (c' :: cs') ≠ [] := by simp [encode8, utf8_ne_nil]
          have := ih' (f + 2) (by omega)
          rw [unf _ _ _ hne', utf16Next, if_neg (by simp)] at this
          rw [this, List.getLast?_cons_cons, List.filter_cons_of_neg (a := c) (by simp [hk])]
      · rw [if_neg hd]
        have hk : drop16 c = false := by simp [drop16, hd]
        simp only [Option.bind_some]
        rw [ih' (f + 1) (by omega)]
        have h16 : utf16 c = [c] := by unfold utf16; rw [if_pos (by omega)]
        cases cs with
        | nil => simp [hk, hsup, encode16, h16]
        | cons c' cs' =>
          rw [List.getLast?_cons_cons, List.filter_cons_of_pos (a := c) (by simp [hk])]
          split
          · simp
          · split
            · rename_i hls
              have hnn : encode16 ((c' :: cs').filter fun c => !drop16 c) ≠ [] := by
                cases hgl : (c' :: cs').getLast? with
                | none => simp [hgl] at hls
                | some z =>
                  simp only [hgl, Option.any_some, decide_eq_true_eq] at hls
                  have hz : z ∈ (c' :: cs').filter fun c => !drop16 c := by
                    rw [List.mem_filter]
                    refine ⟨List.mem_of_getLast? hgl, ?_⟩
                    simp [drop16]; exact Or.inl hls
                  intro hnil
                  simp only [encode16, List.flatMap_eq_nil_iff] at hnil
                  have := hnil z hz
                  unfold utf16 at this
                  split at this <;> simp at this
              have : encode16 (c :: (c' :: cs').filter fun c => !drop16 c) =
                  c :: encode16 ((c' :: cs').filter fun c => !drop16 c) := by
                simp [encode16, h16]
              rw [this]
              simp [List.dropLast_cons_of_ne_nil hnn]
            · simp [encode16, h16]

/-! ### UTF-16 -/

theorem and_fc00 {u : Nat} (h : u < 65536) : (u &&& 0xfffffc00 = 0xd800) ↔ 0xd800 ≤ u ∧ u < 0xdc00 := by
  have e : u &&& 0xfffffc00 = u / 1024 * 1024 := by
    have hd : (u &&& 0xfffffc00) / 2 ^ 10 = u / 2 ^ 10 &&& 0xfffffc00 / 2 ^ 10 := by
      rw [← Nat.shiftRight_eq_div_pow, Nat.shiftRight_and_distrib, Nat.shiftRight_eq_div_pow,
        Nat.shiftRight_eq_div_pow]
    have hm : (u &&& 0xfffffc00) % 2 ^ 10 = 0 := by
      rw [Nat.and_mod_two_pow]
      rw [show 0xfffffc00 % 2 ^ 10 = 0 by decide]; simp
    have h3 : u / 2 ^ 10 &&& 0xfffffc00 / 2 ^ 10 = u / 2 ^ 10 % 2 ^ 22 := by
      rw [show 0xfffffc00 / 2 ^ 10 = 2 ^ 22 - 1 by decide]
      exact Nat.and_two_pow_sub_one_eq_mod (u / 2 ^ 10) 22
    rw [h3] at hd
    omega
  rw [e]; omega

theorem next_utf16 {c : Nat} (h : Scalar c) (rest : List Nat) :
    utf16ToUcs4Next (utf16 c ++ rest) = some (c, rest) := by
  have hc := h.lt
  unfold Scalar at h
  unfold utf16
  split
  · rename_i h1
    have hn : isHighSurrogate c = false := by
      unfold isHighSurrogate
      rw [Bool.eq_false_iff, ne_eq, beq_iff_eq, and_fc00 h1]
      omega
    simp [utf16ToUcs4Next, hn]
  · rename_i h1
    have hn : isHighSurrogate (0xd800 + (c - 0x10000) / 0x400) = true := by
      unfold isHighSurrogate
      rw [beq_iff_eq, and_fc00 (by omega)]
      omega
    simp only [List.cons_append, List.nil_append, utf16ToUcs4Next, hn, if_true]
    have : surrogateToUcs4 (0xd800 + (c - 0x10000) / 0x400) (0xdc00 + (c - 0x10000) % 0x400) = c := by
      unfold surrogateToUcs4 sub32
      rw [Nat.shiftLeft_eq]
      omega
    rw [this]

end Verif.Utf
