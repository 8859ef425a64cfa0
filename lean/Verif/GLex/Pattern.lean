import Verif.GLex.Model

/-!
# Patterns: the language of a pattern, and the match flex chooses
-/

namespace Verif.GLex

open Rx

/-- The texts that match a pattern (the usual definition). -/
inductive Mat : Rx → List Nat → Prop
  | eps : Mat .eps []
  | cls {p : Nat → Bool} {c : Nat} : p c = true → Mat (.cls p) [c]
  | seq {a b : Rx} {u v : List Nat} : Mat a u → Mat b v → Mat (.seq a b) (u ++ v)
  | altL {a b : Rx} {u : List Nat} : Mat a u → Mat (.alt a b) u
  | altR {a b : Rx} {u : List Nat} : Mat b u → Mat (.alt a b) u
  | nil {a : Rx} : Mat (.star a) []
  | more {a : Rx} {u v : List Nat} : Mat a u → Mat (.star a) v → Mat (.star a) (u ++ v)

theorem take_add' {s : List Nat} {k j : Nat} : s.take (k + j) = s.take k ++ (s.drop k).take j := by
  rw [List.take_add]

theorem mem_reps {e : List Nat → List Nat} {a : Rx} (he : ∀ s k, k ∈ e s ↔ k ≤ s.length ∧ Mat a (s.take k)) :
    ∀ (f : Nat) (s : List Nat) (k : Nat), k ∈ reps e f s → k ≤ s.length ∧ Mat (.star a) (s.take k)
  | 0, s, k, h => by simp [reps] at h; subst h; exact ⟨Nat.zero_le _, by simpa using Mat.nil⟩
  | f + 1, s, k, h => by
    simp only [reps, List.mem_cons, List.mem_flatMap, List.mem_filter, List.mem_map, decide_eq_true_eq] at h
    rcases h with rfl | ⟨j, ⟨hj, _⟩, i, hi, rfl⟩
    · exact ⟨Nat.zero_le _, by simpa using Mat.nil⟩
    · have h1 := (he s j).1 hj
      have h2 := mem_reps he f _ _ hi
      rw [List.length_drop] at h2
      refine ⟨by omega, ?_⟩
      rw [take_add']
      exact .more h1.2 h2.2

theorem star_split {a : Rx} {w : List Nat} (h : Mat (.star a) w) : w = [] ∨ ∃ u v, u ≠ [] ∧ w = u ++ v ∧ Mat a u ∧ Mat (.star a) v := by
  generalize hr : Rx.star a = r at h
  induction h with
  | eps => cases hr
  | cls _ => cases hr
  | seq _ _ => cases hr
  | altL _ => cases hr
  | altR _ => cases hr
  | nil => exact Or.inl rfl
  | @more a' u v hu hv _ ih =>
    cases hr
    by_cases h : u = []
    · subst h; simpa using ih rfl
    · exact Or.inr ⟨u, v, h, rfl, hu, hv⟩

theorem reps_mem {e : List Nat → List Nat} {a : Rx} (he : ∀ s k, k ∈ e s ↔ k ≤ s.length ∧ Mat a (s.take k)) :
    ∀ (f : Nat) (s : List Nat) (k : Nat), s.length ≤ f → k ≤ s.length → Mat (.star a) (s.take k) → k ∈ reps e f s
  | 0, s, k, hf, hk, _ => by
    have : k = 0 := by omega
    simp [reps, this]
  | f + 1, s, k, hf, hk, h => by
    simp only [reps, List.mem_cons, List.mem_flatMap, List.mem_filter, List.mem_map, decide_eq_true_eq]
    rcases star_split h with h | ⟨u, v, hu, hw, h1, h2⟩
    · left
      have := congrArg List.length h
      rw [List.length_take] at this
      simp at this
      rcases this with h | h
      · exact h
      · subst h; simpa using hk
    · right
      have hl := congrArg List.length hw
      rw [List.length_take, List.length_append] at hl
      have hu0 : 0 < u.length := List.length_pos_iff.2 hu
      have e1 : s.take u.length = u := by
        have := congrArg (List.take u.length) hw
        rw [List.take_take, Nat.min_eq_left (by omega), List.take_left'  rfl] at this
        exact this
      have e2 : (s.drop u.length).take v.length = v := by
        have := congrArg (List.drop u.length) hw
        rw [List.drop_left' rfl, List.drop_take] at this
        have hk' : v.length = k - u.length := by omega
        rw [hk', this]
      refine ⟨u.length, ⟨(he s _).2 ⟨by omega, by rw [e1]; exact h1⟩, hu0⟩, v.length, ?_, by omega⟩
      exact reps_mem he f _ _ (by rw [List.length_drop]; omega) (by rw [List.length_drop]; omega) (by rw [e2]; exact h2)

/-- The listed lengths are those of the matches. -/
theorem mem_ends : ∀ (r : Rx) (s : List Nat) (k : Nat), k ∈ ends r s ↔ k ≤ s.length ∧ Mat r (s.take k)
  | .eps, s, k => by
    constructor
    · intro h; simp [ends] at h; subst h; exact ⟨Nat.zero_le _, by simpa using Mat.eps⟩
    · intro ⟨h, m⟩
      generalize hw : s.take k = w at m
      cases m
      have := congrArg List.length hw
      rw [List.length_take] at this
      simp [ends]
      simp at this
      rcases this with h | h
      · exact h
      · subst h; simpa using h
  | .cls p, s, k => by
    cases s with
    | nil =>
      constructor
      · intro h; simp [ends] at h
      · intro ⟨h, m⟩
        simp at m; cases m
    | cons c s =>
      constructor
      · intro h
        simp only [ends] at h
        split at h
        · rename_i hp
          simp at h; subst h
          exact ⟨by simp, by simpa using Mat.cls hp⟩
        · simp at h
      · intro ⟨h, m⟩
        generalize hw : (c :: s).take k = w at m
        cases m with
        | cls hp =>
          cases k with
          | zero => simp at hw
          | succ k =>
            simp at hw
            rcases hw with ⟨rfl, hw⟩
            have : k = 0 := by
              rcases hw with h | h
              · exact h
              · subst h; simpa using h
            subst this
            simp [ends, hp]
  | .seq a b, s, k => by
    simp only [ends, List.mem_flatMap, List.mem_map]
    constructor
    · rintro ⟨j, hj, i, hi, rfl⟩
      have h1 := (mem_ends a _ _).1 hj
      have h2 := (mem_ends b _ _).1 hi
      rw [List.length_drop] at h2
      exact ⟨by omega, by rw [take_add']; exact .seq h1.2 h2.2⟩
    · intro ⟨h, m⟩
      generalize hw : s.take k = w at m
      cases m with
      | @seq _ _ u v h1 h2 =>
        have hl := congrArg List.length hw
        rw [List.length_take, List.length_append] at hl
        have e1 : s.take u.length = u := by
          have := congrArg (List.take u.length) hw
          rw [List.take_take, Nat.min_eq_left (by omega), List.take_left' rfl] at this
          exact this
        have e2 : (s.drop u.length).take v.length = v := by
          have := congrArg (List.drop u.length) hw
          rw [List.drop_left' rfl, List.drop_take] at this
          have hk' : v.length = k - u.length := by omega
          rw [hk', this]
        exact ⟨u.length, (mem_ends a _ _).2 ⟨by omega, by rw [e1]; exact h1⟩, v.length,
          (mem_ends b _ _).2 ⟨by rw [List.length_drop]; omega, by rw [e2]; exact h2⟩, by omega⟩
  | .alt a b, s, k => by
    simp only [ends, List.mem_append, mem_ends a, mem_ends b]
    constructor
    · rintro (⟨h, m⟩ | ⟨h, m⟩)
      · exact ⟨h, .altL m⟩
      · exact ⟨h, .altR m⟩
    · rintro ⟨h, m⟩
      cases m with
      | altL m => exact Or.inl ⟨h, m⟩
      | altR m => exact Or.inr ⟨h, m⟩
  | .star a, s, k => by
    simp only [ends]
    exact ⟨fun h => mem_reps (mem_ends a) _ _ _ h, fun h => reps_mem (mem_ends a) _ _ _ (Nat.le_refl _) h.1 h.2⟩

/-! ## Inversion -/

theorem mat_cls {p : Nat → Bool} {w : List Nat} : Mat (.cls p) w ↔ ∃ c, w = [c] ∧ p c = true :=
  ⟨fun h => by cases h with | cls h => exact ⟨_, rfl, h⟩, fun ⟨_, e, h⟩ => e ▸ .cls h⟩

theorem mat_seq {a b : Rx} {w : List Nat} : Mat (.seq a b) w ↔ ∃ u v, w = u ++ v ∧ Mat a u ∧ Mat b v :=
  ⟨fun h => by cases h with | seq h1 h2 => exact ⟨_, _, rfl, h1, h2⟩, fun ⟨_, _, e, h1, h2⟩ => e ▸ .seq h1 h2⟩

theorem mat_alt {a b : Rx} {w : List Nat} : Mat (.alt a b) w ↔ Mat a w ∨ Mat b w :=
  ⟨fun h => by cases h with | altL h => exact Or.inl h | altR h => exact Or.inr h, fun h => h.elim .altL .altR⟩

theorem mat_eps {w : List Nat} : Mat .eps w ↔ w = [] := ⟨fun h => by cases h; rfl, fun e => e ▸ .eps⟩

theorem mat_one {c : Nat} {w : List Nat} : Mat (one c) w ↔ w = [c] := by
  simp [one, mat_cls]

theorem mat_word : ∀ {l w : List Nat}, Mat (word l) w ↔ w = l
  | [], w => mat_eps
  | c :: l, w => by
    have : word (c :: l) = .seq (one c) (word l) := rfl
    rw [this, mat_seq]
    constructor
    · rintro ⟨u, v, rfl, h1, h2⟩
      rw [mat_one] at h1; rw [mat_word] at h2
      subst h1; subst h2; rfl
    · rintro rfl; exact ⟨[c], l, rfl, mat_one.2 rfl, mat_word.2 rfl⟩

theorem mat_lit {s : String} {w : List Nat} : Mat (lit s) w ↔ w = bytes s := mat_word

theorem mat_star_cls {p : Nat → Bool} : ∀ {w : List Nat}, Mat (.star (.cls p)) w ↔ ∀ c ∈ w, p c = true := by
  intro w
  constructor
  · intro h
    generalize hr : Rx.star (.cls p) = r at h
    induction h with
    | eps => cases hr
    | cls _ => cases hr
    | seq _ _ => cases hr
    | altL _ => cases hr
    | altR _ => cases hr
    | nil => simp
    | @more a' u v hu hv _ ih =>
      cases hr
      rw [mat_cls] at hu
      obtain ⟨c, rfl, hc⟩ := hu
      intro d hd
      simp at hd
      rcases hd with rfl | hd
      · exact hc
      · exact ih rfl _ hd
  · intro h
    induction w with
    | nil => exact .nil
    | cons c w ih => exact .more (u := [c]) (.cls (h c (by simp))) (ih fun d hd => h d (by simp [hd]))

theorem mat_plus_cls {p : Nat → Bool} {w : List Nat} : Mat (plus (.cls p)) w ↔ w ≠ [] ∧ ∀ c ∈ w, p c = true := by
  rw [plus, mat_seq]
  constructor
  · rintro ⟨u, v, rfl, h1, h2⟩
    rw [mat_cls] at h1; rw [mat_star_cls] at h2
    obtain ⟨c, rfl, hc⟩ := h1
    refine ⟨by simp, fun d hd => ?_⟩
    simp at hd
    rcases hd with rfl | hd
    · exact hc
    · exact h2 _ hd
  · rintro ⟨h, h1⟩
    cases w with
    | nil => exact absurd rfl h
    | cons c w => exact ⟨[c], w, rfl, .cls (h1 c (by simp)), mat_star_cls.2 fun d hd => h1 d (by simp [hd])⟩

theorem mat_newline {w : List Nat} : Mat newlineRx w ↔ w = [13, 10] ∨ w = [13] ∨ w = [10] := by
  simp [newlineRx, mat_alt, mat_word, mat_one]

/-- The first byte of a match that is not empty. -/
theorem take_head {s : List Nat} {c : Nat} {t : Nat} (h : 0 < t) : (c :: s).take t = c :: s.take (t - 1) := by
  cases t with
  | zero => omega
  | succ t => rfl

/-! ## The chosen match -/

theorem pick_some (b : Option Match) (x : Match) : ∃ y, pick b x = some y := by
  cases b with
  | none => exact ⟨x, rfl⟩
  | some y => simp only [pick]; split <;> exact ⟨_, rfl⟩

/-- At least as good. -/
def NotWorse (x y : Match) : Prop := better y x = false

theorem notWorse_iff {x y : Match} : NotWorse x y ↔ y.1 < x.1 ∨ y.1 = x.1 ∧ (x.2.1 < y.2.1 ∨ x.2.1 = y.2.1 ∧ y.2.2 ≤ x.2.2) := by
  unfold NotWorse better
  rw [Bool.or_eq_false_iff, Bool.and_eq_false_iff, Bool.or_eq_false_iff, Bool.and_eq_false_iff]
  simp only [decide_eq_false_iff_not, beq_eq_false_iff_ne, ne_eq]
  omega

theorem foldl_pick : ∀ (l : List Match) (b : Option Match) (y : Match), l.foldl pick b = some y →
    (y ∈ l ∨ b = some y) ∧ (∀ x, x ∈ l ∨ b = some x → NotWorse y x)
  | [], b, y, h => by
    simp at h; subst h
    refine ⟨Or.inr rfl, fun x hx => ?_⟩
    simp at hx; subst hx
    rw [notWorse_iff]; omega
  | z :: l, b, y, h => by
    simp only [List.foldl_cons] at h
    obtain ⟨h1, h2⟩ := foldl_pick l _ _ h
    obtain ⟨w, hw⟩ := pick_some b z
    have hy : NotWorse y w := h2 w (Or.inr hw)
    have hc : (w = z ∨ b = some w) ∧ (NotWorse w z ∧ ∀ x, b = some x → NotWorse w x) := by
      cases b with
      | none =>
        simp [pick] at hw; subst hw
        exact ⟨Or.inl rfl, by rw [notWorse_iff]; omega, fun x hx => by cases hx⟩
      | some v =>
        simp only [pick] at hw
        split at hw <;> rename_i hb <;> cases hw
        · refine ⟨Or.inl rfl, by rw [notWorse_iff]; omega, fun x hx => ?_⟩
          cases hx
          rw [notWorse_iff]
          unfold better at hb
          simp only [Bool.or_eq_true, decide_eq_true_eq, Bool.and_eq_true, beq_iff_eq] at hb
          omega
        · exact ⟨Or.inr rfl, by simpa [NotWorse] using hb, fun x hx => by cases hx; rw [notWorse_iff]; omega⟩
    have tr : ∀ x, NotWorse w x → NotWorse y x := by
      intro x hx; rw [notWorse_iff] at *; omega
    refine ⟨?_, fun x hx => ?_⟩
    · rcases h1 with h1 | h1
      · exact Or.inl (List.mem_cons_of_mem _ h1)
      · rw [hw] at h1; cases h1
        rcases hc.1 with h | h
        · exact Or.inl (h ▸ List.mem_cons_self)
        · exact Or.inr h
    · simp only [List.mem_cons] at hx
      rcases hx with (rfl | hx) | hx
      · exact tr _ hc.2.1
      · exact h2 x (Or.inl hx)
      · exact tr _ (hc.2.2 x hx)

theorem foldl_pick_some : ∀ (l : List Match) (b : Option Match), (l ≠ [] ∨ b ≠ none) → ∃ y, l.foldl pick b = some y
  | [], b, h => by
    rcases h with h | h
    · exact absurd rfl h
    · cases b with
      | none => exact absurd rfl h
      | some y => exact ⟨y, rfl⟩
  | z :: l, b, _ => by
    obtain ⟨w, hw⟩ := pick_some b z
    simp only [List.foldl_cons]
    exact foldl_pick_some l _ (Or.inr (by rw [hw]; simp))

theorem mem_allMatches {rules : List Rule} {s : List Nat} {t i k : Nat} :
    (t, i, k) ∈ allMatches rules s ↔ ∃ r, rules[i]? = some r ∧ (t, k) ∈ r.cands s ∧ 0 < t := by
  unfold allMatches
  simp only [List.mem_flatMap, List.mem_map, List.mem_filter, decide_eq_true_eq, Prod.exists, Prod.mk.injEq]
  constructor
  · rintro ⟨r, j, hj, a, b, ⟨hm, h0⟩, rfl, rfl, rfl⟩
    exact ⟨r, List.mem_zipIdx_iff_getElem?.1 hj, hm, h0⟩
  · rintro ⟨r, hr, hm, h0⟩
    exact ⟨r, i, List.mem_zipIdx_iff_getElem?.2 hr, t, k, ⟨hm, h0⟩, rfl, rfl, rfl⟩

/-- What flex chooses is a match, and none is better. -/
theorem select_some {rules : List Rule} {s : List Nat} {t i k : Nat} (h : select rules s none = some (t, i, k)) :
    (∃ r, rules[i]? = some r ∧ (t, k) ∈ r.cands s ∧ 0 < t) ∧
    ∀ j r' t' k', rules[j]? = some r' → (t', k') ∈ r'.cands s → 0 < t' → t' < t ∨ t' = t ∧ (i < j ∨ i = j ∧ k' ≤ k) := by
  unfold select at h
  have hf : ∀ l : List Match, l.filter (fun _ => true) = l := fun l => by simp
  simp only [hf] at h
  obtain ⟨h1, h2⟩ := foldl_pick _ _ _ h
  refine ⟨mem_allMatches.1 (h1.resolve_right (by simp)), fun j r' t' k' hr hm h0 => ?_⟩
  have := h2 (t', j, k') (Or.inl (mem_allMatches.2 ⟨r', hr, hm, h0⟩))
  rw [notWorse_iff] at this
  exact this

/-- A match that is better than all others is chosen. -/
theorem select_best {rules : List Rule} {s : List Nat} {t i k : Nat} {r : Rule} (hr : rules[i]? = some r) (hm : (t, k) ∈ r.cands s) (h0 : 0 < t)
    (hb : ∀ j r' t' k', rules[j]? = some r' → (t', k') ∈ r'.cands s → 0 < t' → t' < t ∨ t' = t ∧ (i < j ∨ i = j ∧ k' ≤ k)) :
    select rules s none = some (t, i, k) := by
  have hne : allMatches rules s ≠ [] := List.ne_nil_of_mem (mem_allMatches.2 ⟨r, hr, hm, h0⟩)
  obtain ⟨⟨t', i', k'⟩, hy⟩ := foldl_pick_some (allMatches rules s) none (Or.inl hne)
  have hs : select rules s none = some (t', i', k') := by
    unfold select
    have hf : ∀ l : List Match, l.filter (fun _ => true) = l := fun l => by simp
    simp only [hf]; exact hy
  obtain ⟨⟨r', hr', hm', h0'⟩, hb'⟩ := select_some hs
  have a := hb _ _ _ _ hr' hm' h0'
  have b := hb' _ _ _ _ hr hm h0
  rw [hs]
  have : t' = t ∧ i' = i ∧ k' = k := by omega
  obtain ⟨rfl, rfl, rfl⟩ := this
  rfl

/-- Rules without trailing context. -/
theorem mem_cands_none {r : Rule} (h : r.trail = none) {s : List Nat} {t k : Nat} : (t, k) ∈ r.cands s ↔ k = t ∧ t ≤ s.length ∧ Mat r.body (s.take t) := by
  unfold Rule.cands
  simp only [h, List.mem_flatMap, List.mem_singleton, Prod.mk.injEq, mem_ends]
  constructor
  · rintro ⟨j, hj, rfl, rfl⟩; exact ⟨rfl, hj⟩
  · rintro ⟨rfl, hj⟩; exact ⟨_, hj, rfl, rfl⟩

theorem mem_cands_some {r : Rule} {x : Rx} (h : r.trail = some x) {s : List Nat} {t k : Nat} :
    (t, k) ∈ r.cands s ↔ ∃ j, t = k + j ∧ t ≤ s.length ∧ Mat r.body (s.take k) ∧ Mat x ((s.drop k).take j) := by
  unfold Rule.cands
  simp only [h, List.mem_flatMap, List.mem_map, Prod.mk.injEq, mem_ends, List.length_drop]
  constructor
  · rintro ⟨j, hj, i, hi, rfl, rfl⟩; exact ⟨i, rfl, by omega, hj.2, hi.2⟩
  · rintro ⟨j, rfl, h1, h2, h3⟩; exact ⟨_, ⟨by omega, h2⟩, j, ⟨by omega, h3⟩, rfl, rfl⟩

/-- The token is not longer than the match, and the match not longer than the text. -/
theorem cands_le {r : Rule} {s : List Nat} {t k : Nat} (h : (t, k) ∈ r.cands s) : k ≤ t ∧ t ≤ s.length := by
  cases ht : r.trail with
  | none => rw [mem_cands_none ht] at h; omega
  | some x => rw [mem_cands_some ht] at h; obtain ⟨j, h1, h2, _⟩ := h; omega

end Verif.GLex
