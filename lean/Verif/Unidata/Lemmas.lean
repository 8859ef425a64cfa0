import Verif.Unidata.Model
import Verif.Unidata.Spec
import Verif.LexSyn.Faithful

/-!
# Reading lines and tables
-/

namespace Verif.Unidata

open Verif.Auto Verif.LexSyn Spec

theorem isSpace_iff {c : Nat} : isSpace c = true ↔ Blank c := by
  simp only [isSpace, Blank, List.mem_cons, List.not_mem_nil, or_false, Bool.or_eq_true, Bool.and_eq_true, beq_iff_eq, decide_eq_true_eq]
  omega

/-! ### Byte arrays -/

theorem dropWhile_app {p : Nat → Bool} {a l : List Nat} (h : ∀ c ∈ a, p c = true) : (a ++ l).dropWhile p = l.dropWhile p := by
  induction a with
  | nil => rfl
  | cons c a ih =>
    rw [List.cons_append, List.dropWhile_cons_of_pos (h c List.mem_cons_self)]
    exact ih fun d hd => h d (List.mem_cons_of_mem _ hd)

theorem dropWhile_stop {p : Nat → Bool} {l : List Nat} (h : ∀ c ∈ l.head?, p c = false) : l.dropWhile p = l := by
  cases l with
  | nil => rfl
  | cons c l => rw [List.dropWhile_cons_of_neg]; simpa using h c rfl

theorem trimmed_eq {a t b : List Nat} (ha : ∀ c ∈ a, Blank c) (hb : ∀ c ∈ b, Blank c) (h1 : ∀ c ∈ t.head?, ¬ Blank c) (h2 : ∀ c ∈ t.getLast?, ¬ Blank c) :
    trimmed (a ++ t ++ b) = t := by
  have no : ∀ {c}, ¬ Blank c → isSpace c = false := fun h => by
    cases hs : isSpace _ with
    | false => rfl
    | true => exact absurd (isSpace_iff.1 hs) h
  rw [trimmed, List.append_assoc, dropWhile_app (p := isSpace) fun c hc => isSpace_iff.2 (ha c hc)]
  cases t with
  | nil =>
    have : b.dropWhile isSpace = [] := by
      have := dropWhile_app (p := isSpace) (l := []) fun c hc => isSpace_iff.2 (hb c hc)
      simpa using this
    simp [this]
  | cons x t =>
    rw [dropWhile_stop (p := isSpace) (l := x :: t ++ b) fun c hc => no (h1 c hc), List.reverse_append,
      dropWhile_app (p := isSpace) fun c hc => isSpace_iff.2 (hb c (List.mem_reverse.1 hc)), dropWhile_stop (p := isSpace) fun c hc => no (h2 c (by rw [List.head?_reverse] at hc; exact hc)), List.reverse_reverse]

theorem fold_eq (t : List Nat) : replace 45 95 (replace 32 95 (toLower t)) = t.map fold := by
  simp only [replace, toLower, List.map_map]
  refine List.map_congr_left fun c _ => ?_
  simp only [Function.comp, fold, show ' '.toNat = 32 from rfl, show '-'.toNat = 45 from rfl, show '_'.toNat = 95 from rfl, show 'A'.toNat = 65 from rfl, show 'Z'.toNat = 90 from rfl]
  split_ifs <;> omega

theorem indexOf_some {c : Nat} {pre mid post : List Nat} (h : c ∉ mid) : indexOf c (pre ++ mid ++ c :: post) pre.length = some (pre.length + mid.length) := by
  have : ((mid ++ c :: post).findIdx? (· == c)) = some mid.length := by
    induction mid with
    | nil => rw [List.nil_append, List.findIdx?_cons]; simp
    | cons d mid ih =>
      simp only [List.mem_cons, not_or] at h
      rw [List.cons_append, List.findIdx?_cons, ih h.2]
      have : (d == c) = false := by simpa using Ne.symm h.1
      simp [this]
  rw [indexOf, List.append_assoc, List.drop_left, this]
  simp [Nat.add_comm]

theorem indexOf_none {c : Nat} {pre l : List Nat} (h : c ∉ l) : indexOf c (pre ++ l) pre.length = none := by
  rw [indexOf, List.drop_left, Option.map_eq_none_iff, List.findIdx?_eq_none_iff]
  intro x hx
  simpa using fun e => h (by rw [← e]; exact hx)

theorem dots_app {p l : List Nat} (h : 46 ∉ p) : indexOfDots (p ++ l) = (indexOfDots l).map (· + p.length) := by
  induction p with
  | nil => simp
  | cons c p ih =>
    simp only [List.mem_cons, not_or] at h
    rw [List.cons_append, indexOfDots, ih h.2]
    · cases indexOfDots l <;> simp [Nat.add_assoc]
    · intro l' e _; exact h.1 e.symm

theorem dots_none {l : List Nat} (h : ¬ Dots l) : indexOfDots l = none := by
  induction l with
  | nil => rfl
  | cons c l ih =>
    rw [indexOfDots, ih, Option.map_none]
    · rintro ⟨a, b, rfl⟩; exact h ⟨c :: a, b, rfl⟩
    · rintro l' rfl rfl; exact h ⟨[], l', rfl⟩

theorem digit_not {c v : Nat} (h : Text.Spec.IsDigit .hex c v) : c ≠ 46 ∧ c ≠ 59 ∧ c ≠ 35 ∧ c ≠ 10 := by
  have := h.2
  simp only [show '0'.toNat = 48 from rfl, show 'a'.toNat = 97 from rfl, show 'A'.toNat = 65 from rfl] at this
  omega

theorem not_digit {c : Nat} (h : c = 46 ∨ c = 59 ∨ c = 32 ∨ Blank c) (v : Nat) : ¬ Text.Spec.IsDigit .hex c v := by
  intro h'
  have := h'.2
  simp only [show '0'.toNat = 48 from rfl, show 'a'.toNat = 97 from rfl, show 'A'.toNat = 65 from rfl] at this
  have h1 := h'.1
  simp only [Text.Spec.Sys.base] at h1
  simp only [Blank, List.mem_cons, List.not_mem_nil, or_false] at h
  omega

theorem setCharAt_eq {pre s rest : List Nat} {v : Nat} (h : Number s v) (hr : ∀ c v, rest.head? = some c → ¬ Text.Spec.IsDigit .hex c v) :
    setCharAt (pre ++ s ++ rest) pre.length = (v, pre.length + s.length) := by
  obtain ⟨ds, _, rfl, h1, rfl, h2⟩ := h
  rw [setCharAt, List.append_assoc, List.drop_left, Text.C61_number ds rest h1 h2 hr]
  simp

theorem number_not {s : List Nat} {v : Nat} (h : Number s v) : 46 ∉ s ∧ 59 ∉ s ∧ 35 ∉ s := by
  obtain ⟨ds, _, rfl, h1, -, -⟩ := h
  refine ⟨fun h => ?_, fun h => ?_, fun h => ?_⟩ <;> obtain ⟨d, hd, e⟩ := List.mem_map.1 h <;> have := digit_not (h1 d hd) <;> omega

theorem nameAt_eq {pre name rest : List Nat} {n : Text} (h : '#'.toNat ∉ name) (hn : IsName name n) (hr : Comment rest) :
    nameAt (pre ++ ';'.toNat :: (name ++ rest)) (some pre.length) = n := by
  obtain ⟨a, t, b, rfl, h1, h2, h3, h4, rfl⟩ := hn
  have e : pre ++ ';'.toNat :: (a ++ t ++ b ++ rest) = (pre ++ [';'.toNat]) ++ (a ++ t ++ b ++ rest) := by simp
  have hl : pre.length + 1 = (pre ++ [';'.toNat]).length := by simp
  have : upToHash (pre ++ ';'.toNat :: (a ++ t ++ b ++ rest)) (pre.length + 1) = a ++ t ++ b := by
    rw [e, hl, upToHash, List.drop_left]
    rcases hr with rfl | ⟨s, rfl⟩
    · rw [List.append_nil, indexOf_none (by exact h)]
    · have := indexOf_some (c := 35) (pre := pre ++ [';'.toNat]) (mid := a ++ t ++ b) (post := s) (by exact h)
      rw [show '#'.toNat = 35 from rfl, ← List.append_assoc (pre ++ [';'.toNat]), this]
      dsimp only
      rw [Nat.add_sub_cancel_left, List.take_left]
  simp only [nameAt]
  rw [this, fold_eq, trimmed_eq h1 h2 h3 h4]

/-! ### Lines -/

theorem not_comment {s rest : List Nat} {v : Nat} (h : Number s v) : ∃ c l, s ++ rest = c :: l ∧ c ≠ 35 := by
  obtain ⟨ds, h0, rfl, h1, -, -⟩ := h
  cases ds with
  | nil => exact absurd rfl h0
  | cons d ds => exact ⟨d.1, _, rfl, (digit_not (h1 d List.mem_cons_self)).2.2.1⟩

theorem scan_single {ds : List Nat} {v : Nat} {gap name : List Nat} {n : Text} {rest : List Nat} (h1 : Number ds v) (h2 : ∀ c ∈ gap, c = ' '.toNat) (h3 : '#'.toNat ∉ name)
    (h4 : IsName name n) (h5 : Comment rest) (h6 : ¬ Dots (name ++ rest)) : scanLine (ds ++ gap ++ ';'.toNat :: name ++ rest) = .ok (some (v, v, n)) := by
  obtain ⟨c, l, e, hc⟩ := not_comment (rest := gap ++ ';'.toNat :: name ++ rest) h1
  obtain ⟨n1, n2, n3⟩ := number_not h1
  have g1 : ∀ x, x ≠ 32 → x ∉ gap := fun x hx hg => hx (h2 x hg)
  have d : indexOfDots (ds ++ gap ++ ';'.toNat :: name ++ rest) = none := by
    have e : ds ++ gap ++ ';'.toNat :: name ++ rest = (ds ++ gap ++ [59]) ++ (name ++ rest) := by simp [show ';'.toNat = 59 from rfl]
    rw [e, dots_app, dots_none h6, Option.map_none]
    simp only [List.mem_append, List.mem_singleton]
    rintro ((h | h) | h)
    · exact n1 h
    · exact g1 46 (by omega) h
    · omega
  have s : setCharAt (ds ++ gap ++ ';'.toNat :: name ++ rest) 0 = (v, ds.length) := by
    have := setCharAt_eq (pre := []) (rest := gap ++ ';'.toNat :: name ++ rest) h1 (by
      intro c v hh
      cases gap with
      | nil => simp at hh; exact not_digit (Or.inr (Or.inl hh.symm)) v
      | cons g gap => simp at hh; exact not_digit (Or.inr (Or.inr (Or.inl (by rw [← hh]; exact h2 g List.mem_cons_self)))) v)
    simpa using this
  have i : indexOf 59 (ds ++ gap ++ ';'.toNat :: name ++ rest) ds.length = some (ds.length + gap.length) := by
    have := indexOf_some (c := 59) (pre := ds) (mid := gap) (post := name ++ rest) (g1 59 (by omega))
    simpa [show ';'.toNat = 59 from rfl] using this
  have nm := nameAt_eq (pre := ds ++ gap) h3 h4 h5
  have e' : ds ++ gap ++ ';'.toNat :: name ++ rest = c :: l := by rw [← e]; simp
  rw [e'] at d s i ⊢
  have nm' : nameAt (c :: l) (some (ds.length + gap.length)) = n := by
    rw [← e', ← nm]; simp
  simp only [scanLine, if_neg hc, d, s, i, nm']

theorem scan_range {ds : List Nat} {v : Nat} {es : List Nat} {w : Nat} {gap name : List Nat} {n : Text} {rest : List Nat} (h1 : Number ds v) (h1' : Number es w)
    (h2 : ∀ c ∈ gap, c = ' '.toNat) (h3 : '#'.toNat ∉ name) (h4 : IsName name n) (h5 : Comment rest) :
    scanLine (ds ++ str ".." ++ es ++ gap ++ ';'.toNat :: name ++ rest) = .ok (some (v, w, n)) := by
  obtain ⟨c, l, e, hc⟩ := not_comment (rest := str ".." ++ es ++ gap ++ ';'.toNat :: name ++ rest) h1
  obtain ⟨n1, n2, n3⟩ := number_not h1
  obtain ⟨m1, m2, m3⟩ := number_not h1'
  have hb : str ".." = [46, 46] := rfl
  have d : indexOfDots (ds ++ str ".." ++ es ++ gap ++ ';'.toNat :: name ++ rest) = some ds.length := by
    have e : ds ++ str ".." ++ es ++ gap ++ ';'.toNat :: name ++ rest = ds ++ (46 :: 46 :: (es ++ gap ++ ';'.toNat :: name ++ rest)) := by simp [hb]
    rw [e, dots_app n1]
    simp [indexOfDots]
  have s : setCharAt (ds ++ str ".." ++ es ++ gap ++ ';'.toNat :: name ++ rest) 0 = (v, ds.length) := by
    have := setCharAt_eq (pre := []) (rest := str ".." ++ es ++ gap ++ ';'.toNat :: name ++ rest) h1 (by
      intro c v hh
      simp [hb] at hh
      exact not_digit (Or.inl hh.symm) v)
    simpa using this
  have s2 : setCharAt (ds ++ str ".." ++ es ++ gap ++ ';'.toNat :: name ++ rest) (ds.length + 2) = (w, ds.length + 2 + es.length) := by
    have := setCharAt_eq (pre := ds ++ str "..") (rest := gap ++ ';'.toNat :: name ++ rest) h1' (by
      intro c v hh
      cases gap with
      | nil => simp at hh; exact not_digit (Or.inr (Or.inl hh.symm)) v
      | cons g gap => simp at hh; exact not_digit (Or.inr (Or.inr (Or.inl (by rw [← hh]; exact h2 g List.mem_cons_self)))) v)
    simpa [hb] using this
  have i : indexOf 59 (ds ++ str ".." ++ es ++ gap ++ ';'.toNat :: name ++ rest) (ds.length + 2) = some (ds.length + 2 + (es.length + gap.length)) := by
    have := indexOf_some (c := 59) (pre := ds ++ str "..") (mid := es ++ gap) (post := name ++ rest) (by
      simp only [List.mem_append, not_or]
      exact ⟨m2, fun hg => absurd (h2 59 hg) (by decide)⟩)
    simpa [show ';'.toNat = 59 from rfl, hb] using this
  have nm := nameAt_eq (pre := ds ++ str ".." ++ es ++ gap) h3 h4 h5
  have e' : ds ++ str ".." ++ es ++ gap ++ ';'.toNat :: name ++ rest = c :: l := by rw [← e]; simp
  rw [e'] at d s s2 i ⊢
  have nm' : nameAt (c :: l) (some (ds.length + 2 + (es.length + gap.length))) = n := by
    rw [← e', ← nm]; simp [hb]; congr 2; omega
  simp only [scanLine, if_neg hc, d, s, s2, i, nm', Nat.le_refl, if_true]
  rw [if_pos (by omega)]

theorem scan_blank {s : List Nat} (h : ∀ c ∈ s, Blank c) : scanLine s = .ok none ∨ scanLine s = .ok (some (0, 0, [])) := by
  cases s with
  | nil => exact Or.inl rfl
  | cons c s =>
    refine Or.inr ?_
    have no : ∀ x, ¬ Blank x → x ∉ c :: s := fun x hx hm => hx (h x hm)
    have d : indexOfDots (c :: s) = none := dots_none (by
      rintro ⟨a, b, e⟩
      exact no 46 (by simp [Blank]) (by rw [e]; simp [str]))
    have sc : setCharAt (c :: s) 0 = (0, 0) := by
      have h1 := Text.C61_number [] (c :: s) (by simp) (by decide) (by
        intro x v hx
        simp only [List.head?_cons, Option.some.injEq] at hx
        subst hx
        exact not_digit (Or.inr (Or.inr (Or.inr (h c List.mem_cons_self)))) v)
      simp only [List.map_nil, List.nil_append] at h1
      simp [setCharAt, h1, Text.Spec.value]
    have i : indexOf 59 (c :: s) 0 = none := indexOf_none (pre := []) (no 59 (by simp [Blank]))
    have j : indexOf 35 (c :: s) 0 = none := indexOf_none (pre := []) (no 35 (by simp [Blank]))
    have nm : nameAt (c :: s) none = [] := by
      simp only [nameAt, upToHash, j, List.drop_zero]
      have := trimmed_eq (a := c :: s) (t := []) (b := []) h (by simp) (by simp) (by simp)
      simp only [List.append_nil] at this
      rw [this]; rfl
    have hc : c ≠ 35 := fun e => no 35 (by simp [Blank]) (by rw [e]; exact List.mem_cons_self)
    simp only [scanLine, if_neg hc, d, sc, i, nm]

/-- Lines are read as they are meant, but a blank line adds the null character to the class without a name. -/
theorem scan_line {l : List Nat} {e : Option (Nat × Nat × Text)} (h : Line l e) : scanLine l = .ok e ∨ e = none ∧ scanLine l = .ok (some (0, 0, [])) := by
  cases h with
  | comment => exact Or.inl rfl
  | blank h => exact (scan_blank h).imp id fun h => ⟨rfl, h⟩
  | single h1 h2 h3 h4 h5 h6 h7 => exact Or.inl (scan_single h1 h2 h3 h4 h6 h7)
  | range h1 h2 h3 h4 h5 h6 h7 => exact Or.inl (scan_range h1 h2 h3 h4 h5 h7)

/-! ### Tables -/

theorem lines_line {l t : List Nat} (h : 10 ∉ l) : lines (l ++ 10 :: t) = (l ++ [10]) :: lines t := by
  induction l with
  | nil => simp [lines]
  | cons c l ih =>
    simp only [List.mem_cons, not_or] at h
    rw [List.cons_append, lines, if_neg (Ne.symm h.1), ih h.2]
    rfl

theorem lines_last {l : List Nat} (h : 10 ∉ l) (h0 : l ≠ []) : lines l = [l] := by
  induction l with
  | nil => exact absurd rfl h0
  | cons c l ih =>
    simp only [List.mem_cons, not_or] at h
    rw [lines, if_neg (Ne.symm h.1)]
    cases l with
    | nil => rfl
    | cons d l => rw [ih h.2 (by simp)]

end Verif.Unidata
