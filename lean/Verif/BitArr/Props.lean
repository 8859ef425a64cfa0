import Verif.BitArr.Lemmas

/-!
# C05: bit sets behave as sets of indices

A history starts from `BitArray(n)` or `BitArray()`, then writes in range and grows.
-/

namespace Verif.BitArr

/-- Starting points in contract: a size that is no multiple of 64, or the empty array. -/
inductive Start : BA → Nat → Prop
  | new {n a} : n % 64 ≠ 0 → BA.new n = some a → Start a n
  | empty : Start BA.empty 0

theorem Start.inv {a : BA} {n : Nat} (h : Start a n) : Inv a ⟨n, fun _ => false⟩ := by
  cases h with
  | new hn ha =>
    obtain ⟨a', h', I⟩ := inv_new hn
    rw [ha] at h'
    simp only [Option.some.injEq] at h'
    rw [h']; exact I
  | empty => exact inv_empty

/-- C05 (contents). Every history in contract runs without leaving the allocated memory, and each index
below the size reads back the last value written to it (false if none). -/
theorem C05_contents (a : BA) (n : Nat) (h0 : Start a n) (os : List Op) (hv : Spec.Valid n os) :
    ∃ a', a.run os = some a' ∧ a'.size = (Spec.run ⟨n, fun _ => false⟩ os).size ∧
      ∀ i, i < a'.size → a'.get i = some ((Spec.run ⟨n, fun _ => false⟩ os).mem i) := by
  obtain ⟨a', h, I⟩ := inv_run os a _ h0.inv hv
  refine ⟨a', h, I.size, ?_⟩
  intro i hi
  rw [get_eq_bit]
  apply I.bits
  have : a'.size ≤ bytes a'.size * 8 := by unfold bytes words; omega
  have := I.len
  omega

/-- The case of equal final sizes. -/
theorem equality_same (a b a' b' : BA) (n m : Nat) (ha : Start a n) (hb : Start b m) (os ps : List Op)
    (hv : Spec.Valid n os) (hw : Spec.Valid m ps) (ra : a.run os = some a') (rb : b.run ps = some b')
    (hsz : a'.size = b'.size) :
    (a'.eq b' = true ↔ ∀ i, i < a'.size →
      (Spec.run ⟨n, fun _ => false⟩ os).mem i = (Spec.run ⟨m, fun _ => false⟩ ps).mem i) ∧
    (a'.eq b' = true → a'.hash = b'.hash) ∧
    (a'.lt b' = true ∨ a'.eq b' = true ∨ b'.lt a' = true) ∧
    ¬ (a'.lt b' = true ∧ a'.eq b' = true) ∧ ¬ (a'.lt b' = true ∧ b'.lt a' = true) := by
  obtain ⟨a'', h, I⟩ := inv_run os a _ ha.inv hv
  rw [ra] at h; simp only [Option.some.injEq] at h; subst h
  obtain ⟨b'', h, J⟩ := inv_run ps b _ hb.inv hw
  rw [rb] at h; simp only [Option.some.injEq] at h; subst h
  have hs : (Spec.run ⟨n, fun _ => false⟩ os).size = (Spec.run ⟨m, fun _ => false⟩ ps).size := by
    rw [← I.size, ← J.size, hsz]
  have hmem := mem_eq_iff I J hs
  rw [← I.size] at hmem
  have hlen : a'.mem.length = words a'.size * 8 := I.len
  have hlenb : b'.mem.length = words a'.size * 8 := by rw [hsz]; exact J.len
  have heq : a'.eq b' = true ↔ a'.mem = b'.mem := by
    unfold BA.eq
    rw [if_neg (by omega)]
    by_cases h0 : a'.size = 0
    · rw [if_pos h0]
      have : words a'.size = 0 := by rw [h0]; rfl
      rw [this] at hlen hlenb
      simp only [Nat.zero_mul, List.length_eq_zero_iff] at hlen hlenb
      simp [hlen, hlenb]
    · rw [if_neg h0, eqWords_iff _ _ (by simp [wordList_length])]
      exact ⟨wordList_inj _ _ _ hlen hlenb, fun h => by rw [h]⟩
  refine ⟨heq.trans hmem, ?_, ?_, ?_, ?_⟩
  · intro h
    have := heq.mp h
    simp only [BA.hash, this, hsz]
  · by_cases h0 : a'.size = 0
    · right; left
      simp only [BA.eq]; rw [if_neg (by omega), if_pos h0]
    · rcases ltWords_tri (wordList (words a'.size) a'.mem) (wordList (words a'.size) b'.mem)
        (by simp [wordList_length]) with h | h | h
      · left; simp only [BA.lt]; rw [if_neg (by omega), if_neg (by omega), if_neg h0]; exact h
      · right; left; exact heq.mpr (wordList_inj _ _ _ hlen hlenb h)
      · right; right
        simp only [BA.lt]
        rw [if_neg (by omega), if_neg (by omega), if_neg (by omega), ← hsz]; exact h
  · rintro ⟨h1, h2⟩
    rw [heq] at h2
    simp only [BA.lt] at h1
    rw [if_neg (by omega), if_neg (by omega), h2, ltWords_irrefl] at h1
    simp at h1
  · rintro ⟨h1, h2⟩
    simp only [BA.lt] at h1 h2
    rw [if_neg (by omega), if_neg (by omega)] at h1 h2
    split at h1
    · simp at h1
    · rw [if_neg (by omega), ← hsz] at h2
      have := ltWords_trans _ _ _ h1 h2
      rw [ltWords_irrefl] at this
      simp at this

/-- C05 (equality, hash, order). Arrays reached by two histories are `==` exactly when they have the same size and
hold the same indices; then their hashes agree too, and exactly one of `a < b`, `a == b`, `b < a` holds. -/
theorem C05_equality (a b a' b' : BA) (n m : Nat) (ha : Start a n) (hb : Start b m) (os ps : List Op)
    (hv : Spec.Valid n os) (hw : Spec.Valid m ps) (ra : a.run os = some a') (rb : b.run ps = some b') :
    (a'.eq b' = true ↔ (Spec.run ⟨n, fun _ => false⟩ os).size = (Spec.run ⟨m, fun _ => false⟩ ps).size ∧
      ∀ i, i < (Spec.run ⟨n, fun _ => false⟩ os).size →
        (Spec.run ⟨n, fun _ => false⟩ os).mem i = (Spec.run ⟨m, fun _ => false⟩ ps).mem i) ∧
    (a'.eq b' = true → a'.hash = b'.hash) ∧
    (a'.lt b' = true ∨ a'.eq b' = true ∨ b'.lt a' = true) ∧
    ¬ (a'.lt b' = true ∧ a'.eq b' = true) ∧ ¬ (b'.lt a' = true ∧ a'.eq b' = true) ∧ ¬ (a'.lt b' = true ∧ b'.lt a' = true) := by
  have sa : a'.size = (Spec.run ⟨n, fun _ => false⟩ os).size := by
    obtain ⟨a'', h, I, _⟩ := C05_contents a n ha os hv
    rw [ra] at h; cases h; exact I
  have sb : b'.size = (Spec.run ⟨m, fun _ => false⟩ ps).size := by
    obtain ⟨b'', h, I, _⟩ := C05_contents b m hb ps hw
    rw [rb] at h; cases h; exact I
  by_cases hsz : a'.size = b'.size
  · obtain ⟨h1, h2, h3, h4, h5⟩ := equality_same a b a' b' n m ha hb os ps hv hw ra rb hsz
    obtain ⟨g1, _, _, g4, _⟩ := equality_same b a b' a' m n hb ha ps os hw hv rb ra hsz.symm
    refine ⟨?_, h2, h3, h4, ?_, h5⟩
    · rw [h1, ← sa, ← sb]; exact ⟨fun h => ⟨hsz, h⟩, fun h => h.2⟩
    · rintro ⟨k1, k2⟩
      refine g4 ⟨k1, g1.mpr fun i hi => ((h1.mp k2) i (by omega)).symm⟩
  · have e : a'.eq b' = false := by simp only [BA.eq]; rw [if_pos (fun h => hsz h.symm)]
    simp only [e, Bool.false_eq_true, false_iff, false_implies, and_false, not_false_eq_true, true_and, false_or]
    refine ⟨fun h => hsz (by rw [sa, sb, h.1]), ?_, ?_⟩
    · by_cases h : a'.size < b'.size
      · left; simp [BA.lt, h]
      · right; simp [BA.lt, show b'.size < a'.size by omega]
    · rintro ⟨k1, k2⟩
      by_cases h : a'.size < b'.size
      · simp [BA.lt, h, show ¬ b'.size < a'.size by omega] at k2
      · simp [BA.lt, h, show b'.size < a'.size by omega] at k1

/-- C05 (order, any sizes): `operator<` is irreflexive and transitive. -/
theorem C05_order (a b c : BA) : a.lt a = false ∧ (a.lt b = true → b.lt c = true → a.lt c = true) := by
  constructor
  · simp [BA.lt, ltWords_irrefl]
  · intro h1 h2
    simp only [BA.lt] at h1 h2 ⊢
    by_cases e1 : a.size < b.size
    · by_cases e2 : c.size < b.size
      · simp [e2, show ¬ b.size < c.size by omega] at h2
      · simp [show a.size < c.size by omega]
    · by_cases e1' : b.size < a.size
      · simp [e1, e1'] at h1
      · have hab : a.size = b.size := by omega
        rw [if_neg e1, if_neg e1'] at h1
        by_cases e2 : b.size < c.size
        · simp [show a.size < c.size by omega]
        · by_cases e2' : c.size < b.size
          · simp [e2, e2'] at h2
          · rw [if_neg e2, if_neg e2'] at h2
            rw [if_neg (by omega), if_neg (by omega)]
            split at h1
            · simp at h1
            · rw [if_neg (by omega)] at h2
              rw [if_neg (by omega)]
              rw [← hab] at h2
              exact ltWords_trans _ _ _ h1 h2

/-- Undefined cases of the constructor: size 0 and multiples of 64 (`setZerosAtEnd` indexes word -1,
or shifts by 64). -/
theorem C05_new_undefined (n : Nat) (h : n % 64 = 0) : BA.new n = none := by
  simp [BA.new, setZerosAtEnd, h]

/-- Why shrinking is out of contract: shrinking and growing back within one word revives an old bit. -/
theorem C05_shrink_stale : ((BA.new 10).bind fun a => (a.run [.write 9 true, .resize 5, .resize 10]).bind fun a => a.get 9)
    = some true := by decide

/-- Non-vacuity. -/
example : Start ⟨70, List.replicate 16 0⟩ 70 := .new (by decide) (by decide)

example : Spec.Valid 70 [.write 69 true, .write 3 true, .write 69 false, .resize 128, .write 127 true] := by
  simp [Spec.Valid]

end Verif.BitArr
