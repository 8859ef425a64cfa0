import Verif.Unidata.Lemmas

/-!
# Loading tables
-/

namespace Verif.Unidata

open Verif.Auto Verif.LexSyn Spec

variable {C : Type} [CharSetLike C]

/-! ### What a store knows -/

/-- All automata are well-formed. -/
def Good (st : Store C) : Prop := ∀ n d, st n = some d → d.nfa.Wf

/-- The words of a name. -/
def words (st : Store C) (n : Text) : Lang := fun w => ∃ d, st n = some d ∧ d.nfa.Lang w

theorem good_set {st : Store C} (h : Good st) {n : Text} {d : Def C} (hd : d.nfa.Wf) : Good (st.set n d) := by
  intro m e he
  simp only [Store.set] at he
  split at he
  · cases he; exact hd
  · exact h m e he

theorem words_set (st : Store C) (n : Text) (d : Def C) (m : Text) (w : List Nat) : words (st.set n d) m w ↔ if m = n then d.nfa.Lang w else words st m w := by
  simp only [words, Store.set]
  split
  · simp
  · exact Iff.rfl

theorem known_set (st : Store C) (n : Text) (d : Def C) (m : Text) : st.set n d m ≠ none ↔ m = n ∨ st m ≠ none := by
  simp only [Store.set]
  split <;> simp [*]

/-- No name is among those that have been made deterministic. -/
def Raw (st : Store C) : Prop := ∀ n d, st n = some d → d.ready = false

theorem raw_set {st : Store C} (h : Raw st) {n : Text} {d : Def C} (hd : d.ready = false) : Raw (st.set n d) := by
  intro m e he
  simp only [Store.set] at he
  split at he
  · cases he; exact hd
  · exact h m e he

/-! ### Entries -/

def addEntries (range : Nat → Nat → Option (NFA C)) : Store C → List (Nat × Nat × Text) → Out (Store C)
  | st, [] => .ok st
  | st, x :: xs => (addEntry range st x).bind fun st => addEntries range st xs

theorem addEntry_spec {range : Nat → Nat → Option (NFA C)} {st : Store C} {b e : Nat} {n : Text} {R : Lang} (hs : Good st) (h : Made (range b ((e + 1) % 2 ^ 32)) R) :
    ∃ st', addEntry range st (b, e, n) = .ok st' ∧ Good st' ∧ (Raw st → Raw st') ∧ (∀ m, st' m ≠ none ↔ m = n ∨ st m ≠ none) ∧
      ∀ m w, words st' m w ↔ words st m w ∨ m = n ∧ R w := by
  obtain ⟨a, h1, h2, h3⟩ := h
  simp only [addEntry, h1, lift, Out.bind]
  cases hn : st n with
  | none =>
    refine ⟨_, rfl, good_set hs h2, fun hr => raw_set hr rfl, known_set st n _, fun m w => ?_⟩
    rw [words_set]
    split
    · rename_i e; subst e
      simp [words, hn, h3]
    · rename_i e; simp [e]
  | some d =>
    obtain ⟨r, g1, g2, g3⟩ := alt_spec (hs n d hn) h2
    simp only [g1]
    refine ⟨_, rfl, good_set hs g2, fun hr => raw_set hr (hr n d hn), known_set st n _, fun m w => ?_⟩
    rw [words_set]
    split
    · rename_i e; subst e
      simp [words, hn, h3, g3]
    · rename_i e; simp [e]

theorem addEntries_spec {range : Nat → Nat → Option (NFA C)} {R : Nat → Nat → Lang} (xs : List (Nat × Nat × Text)) :
    ∀ {st : Store C}, Good st → (∀ b e n, (b, e, n) ∈ xs → Made (range b ((e + 1) % 2 ^ 32)) (R b e)) →
    ∃ st', addEntries range st xs = .ok st' ∧ Good st' ∧ (Raw st → Raw st') ∧ (∀ m, st' m ≠ none ↔ st m ≠ none ∨ ∃ b e, (b, e, m) ∈ xs) ∧
      ∀ m w, words st' m w ↔ words st m w ∨ ∃ b e, (b, e, m) ∈ xs ∧ R b e w := by
  induction xs with
  | nil => intro st h _; exact ⟨st, rfl, h, id, by simp, by simp⟩
  | cons x xs ih =>
    intro st hs hR
    obtain ⟨b, e, n⟩ := x
    obtain ⟨st1, h1, h2, h3, h4, h5⟩ := addEntry_spec (n := n) hs (hR b e n List.mem_cons_self)
    obtain ⟨st2, g1, g2, g3, g4, g5⟩ := ih h2 fun b e n h => hR b e n (List.mem_cons_of_mem _ h)
    refine ⟨st2, by simp only [addEntries, h1, Out.bind, g1], g2, g3 ∘ h3, fun m => ?_, fun m w => ?_⟩
    · rw [g4, h4]
      constructor
      · rintro ((rfl | h) | ⟨b', e', h⟩)
        · exact Or.inr ⟨b, e, List.mem_cons_self⟩
        · exact Or.inl h
        · exact Or.inr ⟨b', e', List.mem_cons_of_mem _ h⟩
      · rintro (h | ⟨b', e', h⟩)
        · exact Or.inl (Or.inr h)
        · rcases List.mem_cons.1 h with h | h
          · cases h; exact Or.inl (Or.inl rfl)
          · exact Or.inr ⟨b', e', h⟩
    · rw [g5, h5]
      constructor
      · rintro ((h | ⟨rfl, h⟩) | ⟨b', e', h, h'⟩)
        · exact Or.inl h
        · exact Or.inr ⟨b, e, List.mem_cons_self, h⟩
        · exact Or.inr ⟨b', e', List.mem_cons_of_mem _ h, h'⟩
      · rintro (h | ⟨b', e', h, h'⟩)
        · exact Or.inl (Or.inl h)
        · rcases List.mem_cons.1 h with h | h
          · cases h; exact Or.inl (Or.inr ⟨rfl, h'⟩)
          · exact Or.inr ⟨b', e', h, h'⟩

theorem addEntries_append {range : Nat → Nat → Option (NFA C)} (xs ys : List (Nat × Nat × Text)) (st : Store C) :
    addEntries range st (xs ++ ys) = (addEntries range st xs).bind fun st => addEntries range st ys := by
  induction xs generalizing st with
  | nil => rfl
  | cons x xs ih =>
    simp only [List.cons_append, addEntries]
    cases addEntry range st x with
    | ok st' => exact ih st'
    | exit => rfl
    | stuck => rfl

/-! ### Tables -/

/-- The entries the loader makes: those listed, and the null character without name. -/
def Padded (es xs : List (Nat × Nat × Text)) : Prop := (∀ x ∈ es, x ∈ xs) ∧ ∀ x ∈ xs, x ∈ es ∨ x = (0, 0, [])

theorem Padded.append {es xs fs ys : List (Nat × Nat × Text)} (h : Padded es xs) (g : Padded fs ys) : Padded (es ++ fs) (xs ++ ys) := by
  constructor
  · intro x hx
    rcases List.mem_append.1 hx with hx | hx
    · exact List.mem_append_left _ (h.1 x hx)
    · exact List.mem_append_right _ (g.1 x hx)
  · intro x hx
    rcases List.mem_append.1 hx with hx | hx
    · exact (h.2 x hx).imp (List.mem_append_left _) id
    · exact (g.2 x hx).imp (List.mem_append_right _) id

theorem addLine_spec {l : List Nat} {e : Option (Nat × Nat × Text)} (h : Line l e) :
    ∃ xs, Padded e.toList xs ∧ ∀ (range : Nat → Nat → Option (NFA C)) st, addLine range st l = addEntries range st xs := by
  have one : ∀ (range : Nat → Nat → Option (NFA C)) st x, addEntries range st [x] = addEntry range st x := by
    intro range st x
    simp only [addEntries]
    cases addEntry range st x <;> rfl
  rcases scan_line h with hl | ⟨rfl, hl⟩
  · refine ⟨e.toList, ⟨fun _ h => h, fun _ h => Or.inl h⟩, fun range st => ?_⟩
    simp only [addLine, hl, Out.bind]
    cases e with
    | none => rfl
    | some x => exact (one range st x).symm
  · refine ⟨[(0, 0, [])], ⟨by simp, by simp⟩, fun range st => ?_⟩
    rw [addLine, hl, one]
    rfl

theorem table_spec {t : List Nat} {es : List (Nat × Nat × Text)} (h : Table t es) :
    ∃ xs, Padded es xs ∧ ∀ (range : Nat → Nat → Option (NFA C)) st, standardFormat range st t = addEntries range st xs := by
  induction h with
  | nil => exact ⟨[], ⟨by simp, by simp⟩, fun _ _ => rfl⟩
  | @last l e h1 h2 =>
    obtain ⟨xs, g1, g2⟩ := addLine_spec (C := C) h2
    by_cases h0 : l = []
    · subst h0
      have : e = none := by
        rcases scan_line h2 with h | ⟨h, _⟩
        · simp only [scanLine] at h; cases h; rfl
        · exact h
      subst this
      exact ⟨[], ⟨by simp, by simp⟩, fun _ _ => rfl⟩
    · refine ⟨xs, g1, fun range st => ?_⟩
      rw [standardFormat, lines_last h1 h0, addLines, g2]
      simp only [addLines]
      cases addEntries range st xs <;> rfl
  | @line l e t es h1 h2 h3 ih =>
    obtain ⟨xs, g1, g2⟩ := addLine_spec (C := C) h2
    obtain ⟨ys, i1, i2⟩ := ih
    refine ⟨xs ++ ys, g1.append i1, fun range st => ?_⟩
    rw [standardFormat, lines_line h1, addLines, g2, addEntries_append]
    congr 1
    funext st
    exact i2 range st

theorem files_spec {fs : List (List Nat)} {ess : List (List (Nat × Nat × Text))} (h : List.Forall₂ Table fs ess) :
    ∃ xs, Padded ess.flatten xs ∧ ∀ (range : Nat → Nat → Option (NFA C)) st, addFiles range st fs = addEntries range st xs := by
  induction h with
  | nil => exact ⟨[], ⟨by simp, by simp⟩, fun _ _ => rfl⟩
  | cons h _ ih =>
    obtain ⟨xs, g1, g2⟩ := table_spec (C := C) h
    obtain ⟨ys, i1, i2⟩ := ih
    refine ⟨xs ++ ys, g1.append i1, fun range st => ?_⟩
    rw [addFiles, g2, addEntries_append]
    congr 1
    funext st
    exact i2 range st

/-- The numbers of tables are below `2 ^ 28`. -/
theorem line_bound {l : List Nat} {e : Option (Nat × Nat × Text)} (h : Line l e) : ∀ x ∈ e.toList, x.1 < 2 ^ 28 ∧ x.2.1 < 2 ^ 28 ∧ x.2.2 ≠ [] := by
  cases h with
  | comment | blank => simp
  | single h1 h2 h3 h4 h5 h6 h7 =>
    obtain ⟨_, _, _, _, _, h⟩ := h1
    simpa using ⟨h, h5⟩
  | range h1 h2 h3 h4 h5 h6 h7 =>
    obtain ⟨_, _, _, _, _, h⟩ := h1
    obtain ⟨_, _, _, _, _, h'⟩ := h2
    simpa using ⟨h, h', h6⟩

theorem table_bound {t : List Nat} {es : List (Nat × Nat × Text)} (h : Table t es) : ∀ x ∈ es, x.1 < 2 ^ 28 ∧ x.2.1 < 2 ^ 28 ∧ x.2.2 ≠ [] := by
  induction h with
  | nil => simp
  | last _ h => exact line_bound h
  | line _ h _ ih =>
    intro x hx
    rcases List.mem_append.1 hx with hx | hx
    · exact line_bound h x hx
    · exact ih x hx

theorem files_bound {fs : List (List Nat)} {ess : List (List (Nat × Nat × Text))} (h : List.Forall₂ Table fs ess) : ∀ x ∈ ess.flatten, x.1 < 2 ^ 28 ∧ x.2.1 < 2 ^ 28 ∧ x.2.2 ≠ [] := by
  induction h with
  | nil => simp
  | cons h _ ih =>
    intro x hx
    rw [List.flatten_cons] at hx
    rcases List.mem_append.1 hx with hx | hx
    · exact table_bound h x hx
    · exact ih x hx

/-! ### The whole -/

theorem extendNum_spec {st : Store C} {n : Text} (hs : Good st) (h1 : st (txt "num") ≠ none) (h2 : st n ≠ none) :
    ∃ st', extendNum n st = .ok st' ∧ Good st' ∧ (Raw st → Raw st') ∧ (∀ m, st' m ≠ none ↔ st m ≠ none) ∧
      ∀ m w, words st' m w ↔ words st m w ∨ m = txt "num" ∧ words st n w := by
  obtain ⟨d, hd⟩ := Option.ne_none_iff_exists'.1 h1
  obtain ⟨e, he⟩ := Option.ne_none_iff_exists'.1 h2
  obtain ⟨r, g1, g2, g3⟩ := alt_spec (hs _ d hd) (hs n e he)
  simp only [extendNum, hd, he, g1, lift, Out.bind]
  refine ⟨_, rfl, good_set hs g2, fun hr => raw_set hr (hr _ d hd), fun m => ?_, fun m w => ?_⟩
  · rw [known_set]
    exact ⟨fun h => h.elim (fun e => e ▸ h1) id, Or.inr⟩
  · rw [words_set]
    split
    · rename_i e; subst e
      simp [words, hd, he, g3]
    · rename_i e; simp [e]

/-- The words of a name before `num` and the two ranges are added. -/
def Before (st : Store C) (es : List (Nat × Nat × Text)) (R : Nat → Nat → Lang) (n : Text) : Lang := fun w => words st n w ∨ ∃ b e, (b, e, n) ∈ es ∧ R b e w

theorem shuffle (a b d k l : Prop) : (a ∨ b ∨ d ∨ k ∨ l) ↔ k ∨ d ∨ b ∨ a ∨ l := by tauto

theorem load_spec {range : Nat → Nat → Option (NFA C)} {R : Nat → Nat → Lang} {fs : List (List Nat)} {ess : List (List (Nat × Nat × Text))} (h : List.Forall₂ Table fs ess)
    (hR : ∀ b e n, (b, e, n) ∈ ess.flatten → Made (range b (e + 1)) (R b e)) (h0 : Made (range 0 1) (R 0 0)) (h1 : Made (range 0 128) (R 0 127)) (h2 : Made (range 0 256) (R 0 255))
    {st : Store C} (hs : Good st) (hn : ∀ n ∈ [txt "numeric", txt "digit", txt "decimal"], st n ≠ none ∨ ∃ b e, (b, e, n) ∈ ess.flatten) :
    ∃ st', loadUnicodeData range fs st = .ok st' ∧ Good st' ∧ (Raw st → Raw st') ∧ ∀ m, m ≠ [] →
      (st' m ≠ none ↔ st m ≠ none ∨ Known ess.flatten m) ∧ ∀ w, words st' m w ↔
        if m = txt "num" then Before st ess.flatten R (txt "numeric") w ∨ Before st ess.flatten R (txt "digit") w ∨ Before st ess.flatten R (txt "decimal") w
        else if m = txt "ascii-range" then R 0 127 w else if m = txt "latin1-range" then R 0 255 w else Before st ess.flatten R m w := by
  obtain ⟨xs, ⟨p1, p2⟩, p3⟩ := files_spec (C := C) h
  have bd := files_bound h
  obtain ⟨s1, a1, a2, a3, a4, a5⟩ := addEntries_spec (range := range) (R := R) xs hs (by
    intro b e n hx
    rcases p2 _ hx with hx | hx
    · have : e < 2 ^ 28 := (bd _ hx).2.1
      rw [Nat.mod_eq_of_lt (by omega)]
      exact hR b e n hx
    · cases hx; exact h0)
  -- the names of the tables
  have k1 : ∀ m, m ≠ [] → ∀ b e, (b, e, m) ∈ xs ↔ (b, e, m) ∈ ess.flatten := fun m hm b e =>
    ⟨fun hx => (p2 _ hx).elim id fun e => absurd (by cases e; rfl) hm, p1 _⟩
  have a4' : ∀ m, m ≠ [] → (s1 m ≠ none ↔ st m ≠ none ∨ ∃ b e, (b, e, m) ∈ ess.flatten) := fun m hm => by
    rw [a4]; simp only [k1 m hm]
  have a5' : ∀ m, m ≠ [] → ∀ w, words s1 m w ↔ Before st ess.flatten R m w := fun m hm w => by
    rw [a5, Before]; simp only [k1 m hm]
  have l1 : txt "numeric" ≠ [] ∧ txt "digit" ≠ [] ∧ txt "decimal" ≠ [] := by decide
  have l2 : txt "digit" ≠ txt "num" ∧ txt "decimal" ≠ txt "num" ∧ txt "ascii-range" ≠ txt "num" ∧ txt "latin1-range" ≠ txt "num" ∧ txt "latin1-range" ≠ txt "ascii-range" := by
    decide +kernel
  have n1 := (a4' (txt "numeric") l1.1).2 (hn _ (by simp))
  have n2 := (a4' (txt "digit") l1.2.1).2 (hn _ (by simp))
  have n3 := (a4' (txt "decimal") l1.2.2).2 (hn _ (by simp))
  -- num
  obtain ⟨d, hd⟩ := Option.ne_none_iff_exists'.1 n1
  have b1 : startNum s1 = .ok (s1.set (txt "num") ⟨d.nfa, false⟩) := by simp only [startNum, hd]
  have b2 := good_set a2 (n := txt "num") (d := ⟨d.nfa, false⟩) (a2 _ d hd)
  have b3 : ∀ m, _ := known_set s1 (txt "num") ⟨d.nfa, false⟩
  have b4 : ∀ m w, words (s1.set (txt "num") ⟨d.nfa, false⟩) m w ↔ if m = txt "num" then words s1 (txt "numeric") w else words s1 m w := fun m w => by
    rw [words_set]
    simp [words, hd]
  have b5 : Raw s1 → Raw (s1.set (txt "num") ⟨d.nfa, false⟩) := fun hr => raw_set hr rfl
  generalize s1.set (txt "num") ⟨d.nfa, false⟩ = s2 at b1 b2 b3 b4 b5
  obtain ⟨s3, c1, c2, c3, c4, c5⟩ := extendNum_spec (n := txt "digit") b2 ((b3 _).2 (Or.inl rfl)) ((b3 _).2 (Or.inr n2))
  obtain ⟨s4, d1, d2, d3, d4, d5⟩ := extendNum_spec (n := txt "decimal") c2 ((c4 _).2 ((b3 _).2 (Or.inl rfl))) ((c4 _).2 ((b3 _).2 (Or.inr n3)))
  obtain ⟨r1, e1, e2, e3⟩ := h1
  obtain ⟨r2, f1, f2, f3⟩ := h2
  refine ⟨(s4.set (txt "ascii-range") ⟨r1, false⟩).set (txt "latin1-range") ⟨r2, false⟩, ?_, good_set (good_set d2 e2) f2,
    fun hr => raw_set (raw_set (d3 (c3 (b5 (a3 hr)))) rfl) rfl, fun m hm => ⟨?_, fun w => ?_⟩⟩
  · simp only [loadUnicodeData, p3, a1, Out.bind, b1, c1, d1, addRange, e1, f1, lift]
  · rw [known_set, known_set, d4, c4, b3, a4' m hm, Known]
    exact shuffle _ _ _ _ _
  · have key : ∀ m, m ≠ [] → (words s4 m w ↔ if m = txt "num" then Before st ess.flatten R (txt "numeric") w ∨ Before st ess.flatten R (txt "digit") w ∨ Before st ess.flatten R (txt "decimal") w
        else Before st ess.flatten R m w) := by
      intro m hm
      rw [d5, c5, c5, b4, b4, b4, if_neg l2.1, if_neg l2.2.1, a5' _ l1.1, a5' _ l1.2.1, a5' _ l1.2.2, a5' m hm]
      split
      · rename_i e
        simp only [e, true_and, l2.2.1, false_and, or_false]
        exact or_assoc
      · rename_i e; simp [e]
    rw [words_set, words_set]
    by_cases m1 : m = txt "latin1-range"
    · subst m1; rw [if_pos rfl, if_neg l2.2.2.2.1, if_neg l2.2.2.2.2, if_pos rfl]; exact f3 w
    · rw [if_neg m1]
      by_cases m2 : m = txt "ascii-range"
      · subst m2; rw [if_pos rfl, if_neg l2.2.2.1, if_pos rfl]; exact e3 w
      · rw [if_neg m2, if_neg m2, if_neg m1, key m hm]

end Verif.Unidata
