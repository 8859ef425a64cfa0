import Verif.BitArr.Model

namespace Verif.BitArr

namespace Spec

/-- Abstract state: size and membership of each index. -/
structure Set where
  size : Nat
  mem : Nat → Bool

/-- Histories in contract: indices in range, sizes never shrink. -/
def Valid : Nat → List Op → Prop
  | _, [] => True
  | n, .write i _ :: os => i < n ∧ Valid n os
  | n, .resize m :: os => n ≤ m ∧ Valid m os

def step (s : Set) : Op → Set
  | .write i v => ⟨s.size, fun j => if j = i then v else s.mem j⟩
  | .resize m => ⟨m, s.mem⟩

def run (s : Set) (os : List Op) : Set := os.foldl step s

end Spec

/-- Bit `i` of the memory. -/
def bit (m : List (BitVec 8)) (i : Nat) : Option Bool := (m[i / 8]?).map fun b => b.getLsbD (i % 8)

/-- Memory holds exactly the set; bits beyond the size are zero. -/
structure Inv (a : BA) (s : Spec.Set) : Prop where
  size : a.size = s.size
  len : a.mem.length = bytes a.size
  bits : ∀ i, i < a.mem.length * 8 → bit a.mem i = some (s.mem i)
  zero : ∀ i, s.size ≤ i → s.mem i = false

theorem get_eq_bit (a : BA) (i : Nat) : a.get i = bit a.mem i := by
  unfold BA.get bit
  congr 1
  funext b
  have h8 : i % 8 < 8 := Nat.mod_lt _ (by decide)
  generalize i % 8 = k at h8
  have : ∀ (b : BitVec 8) (k : Nat), k < 8 → ((b &&& (1#8 <<< k)) == (1#8 <<< k)) = b.getLsbD k := by
    intro b k hk
    rw [Bool.eq_iff_iff, beq_iff_eq]
    constructor
    · intro h
      have := congrArg (fun v => v.getLsbD k) h
      simpa [hk] using this
    · intro h
      apply BitVec.eq_of_getLsbD_eq
      intro j hj
      by_cases hjk : j = k
      · subst hjk; simp [hk, h]
      · simp only [BitVec.getLsbD_and, BitVec.getLsbD_shiftLeft, hj]
        by_cases hlt : j < k
        · simp [hlt]
        · have : j - k ≠ 0 := by omega
          simp [this]
  exact this b k h8

theorem lt_bytes {n i : Nat} (h : i < n) : i / 8 < bytes n := by
  unfold bytes words; omega

theorem inv_new {n : Nat} (h : n % 64 ≠ 0) : ∃ a, BA.new n = some a ∧ Inv a ⟨n, fun _ => false⟩ := by
  refine ⟨⟨n, List.replicate (bytes n) 0⟩, by simp [BA.new, setZerosAtEnd, h], ?_⟩
  constructor
  · rfl
  · simp
  · intro i hi
    simp at hi
    have : i / 8 < bytes n := by omega
    simp [bit, this]
  · simp

theorem inv_empty : Inv BA.empty ⟨0, fun _ => false⟩ :=
  ⟨rfl, rfl, by simp [BA.empty], by simp⟩

theorem inv_write {a : BA} {s : Spec.Set} (I : Inv a s) {i : Nat} (v : Bool) (hi : i < s.size) :
    ∃ a', a.set i v = some a' ∧ Inv a' (Spec.step s (.write i v)) := by
  have hlt : i / 8 < a.mem.length := by rw [I.len, I.size]; exact lt_bytes hi
  refine ⟨_, by simp [BA.set, hlt]; rfl, ?_⟩
  constructor
  · exact I.size
  · simpa using I.len
  · intro j hj
    simp only [List.length_set] at hj
    have hb := I.bits j hj
    have hj8 : j / 8 < a.mem.length := by omega
    simp only [bit, Spec.step]
    by_cases hji : j / 8 = i / 8
    · rw [hji, List.getElem?_set_self hlt]
      simp only [Option.map_some, Option.some.injEq]
      have h8i : i % 8 < 8 := Nat.mod_lt _ (by decide)
      have h8j : j % 8 < 8 := Nat.mod_lt _ (by decide)
      simp only [bit, hji, List.getElem?_eq_getElem hlt, Option.map_some, Option.some.injEq] at hb
      by_cases he : j = i
      · subst he
        cases v <;> simp [h8i]
      · have hm : j % 8 ≠ i % 8 := by omega
        have hbit : (1#8 <<< (i % 8)).getLsbD (j % 8) = false := by
          simp only [BitVec.getLsbD_shiftLeft, h8j]
          by_cases hl : j % 8 < i % 8
          · simp [hl]
          · have : j % 8 - i % 8 ≠ 0 := by omega
            simp [this]
        rw [if_neg he, ← hb]
        cases v
        · simp only [Bool.false_eq_true, if_false, BitVec.getLsbD_and, BitVec.getLsbD_not, hbit, h8j]
          simp
        · simp only [if_true, BitVec.getLsbD_or, hbit, Bool.or_false]
    · rw [List.getElem?_set_ne (Ne.symm hji)]
      have hne : j ≠ i := by rintro rfl; exact hji rfl
      rw [if_neg hne]
      exact hb
  · intro j hj
    simp only [Spec.step] at hj ⊢
    rw [if_neg (by omega)]
    exact I.zero j hj

theorem bytes_mono {n m : Nat} (h : n ≤ m) : bytes n ≤ bytes m := by
  unfold bytes words; omega

theorem inv_resize {a : BA} {s : Spec.Set} (I : Inv a s) {n : Nat} (hn : s.size ≤ n) :
    Inv (a.resize n) (Spec.step s (.resize n)) := by
  have hm := bytes_mono hn
  have hlen := I.len
  rw [I.size] at hlen
  constructor
  · rfl
  · simp only [BA.resize, List.length_append, List.length_take, List.length_replicate]; omega
  · intro j hj
    simp only [BA.resize, List.length_append, List.length_take, List.length_replicate] at hj
    have hj8 : j / 8 < bytes n := by omega
    simp only [BA.resize, bit, Spec.step]
    rw [List.take_of_length_le (by omega)]
    by_cases hja : j / 8 < a.mem.length
    · rw [List.getElem?_append_left hja]
      exact I.bits j (by omega)
    · rw [List.getElem?_append_right (by omega)]
      have : j / 8 - a.mem.length < bytes n - a.mem.length := by omega
      simp only [List.getElem?_replicate, this, if_true, Option.map_some, Option.some.injEq]
      rw [I.zero j]
      · simp
      · have : s.size ≤ bytes s.size * 8 := by unfold bytes words; omega
        omega
  · intro j hj
    exact I.zero j (by simp only [Spec.step] at hj; omega)

theorem inv_run (os : List Op) : ∀ (a : BA) (s : Spec.Set), Inv a s → Spec.Valid s.size os →
    ∃ a', a.run os = some a' ∧ Inv a' (Spec.run s os) := by
  induction os with
  | nil => intro a s I _; exact ⟨a, rfl, I⟩
  | cons o os ih =>
    intro a s I hv
    cases o with
    | write i v =>
      obtain ⟨a1, h1, I1⟩ := inv_write I v hv.1
      obtain ⟨a2, h2, I2⟩ := ih a1 _ I1 hv.2
      exact ⟨a2, by simp [BA.run, BA.step, h1, h2], I2⟩
    | resize n =>
      obtain ⟨a2, h2, I2⟩ := ih _ _ (inv_resize I hv.1) hv.2
      exact ⟨a2, by simp [BA.run, BA.step, h2], I2⟩

/-! ### Words determine the memory -/

theorem wordVal_inj : ∀ (x y : List (BitVec 8)), x.length = y.length → wordVal x = wordVal y → x = y := by
  intro x
  induction x with
  | nil => intro y h _; cases y <;> simp_all
  | cons a x ih =>
    intro y h he
    cases y with
    | nil => simp at h
    | cons b y =>
      simp only [wordVal] at he
      have ha := a.isLt
      have hb := b.isLt
      have h1 : a = b := BitVec.eq_of_toNat_eq (by omega)
      rw [h1, ih y (by simpa using h) (by omega)]

theorem wordList_inj : ∀ (k : Nat) (x y : List (BitVec 8)), x.length = k * 8 → y.length = k * 8 →
    wordList k x = wordList k y → x = y := by
  intro k
  induction k with
  | zero =>
    intro x y hx hy _
    simp only [Nat.zero_mul, List.length_eq_zero_iff] at hx hy
    rw [hx, hy]
  | succ k ih =>
    intro x y hx hy h
    simp only [wordList, List.cons.injEq] at h
    have h1 := wordVal_inj _ _ (by simp; omega) h.1
    have h2 := ih _ _ (by simp; omega) (by simp; omega) h.2
    rw [← List.take_append_drop 8 x, ← List.take_append_drop 8 y, h1, h2]

theorem wordList_length : ∀ (k : Nat) (x : List (BitVec 8)), (wordList k x).length = k := by
  intro k
  induction k with
  | zero => intro x; rfl
  | succ k ih => intro x; simp [wordList, ih]

theorem eqWords_iff : ∀ (x y : List Nat), x.length = y.length → (eqWords x y = true ↔ x = y) := by
  intro x
  induction x with
  | nil => intro y h; cases y <;> simp_all [eqWords]
  | cons a x ih =>
    intro y h
    cases y with
    | nil => simp at h
    | cons b y =>
      simp only [eqWords]
      by_cases hab : a = b
      · simp [hab, ih y (by simpa using h)]
      · simp [hab]

theorem ltWords_irrefl : ∀ x, ltWords x x = false := by
  intro x; induction x with
  | nil => rfl
  | cons a x ih => simp [ltWords, ih]

theorem ltWords_trans : ∀ (x y z : List Nat), ltWords x y = true → ltWords y z = true →
    ltWords x z = true := by
  intro x
  induction x with
  | nil => intro y z h; simp [ltWords] at h
  | cons a x ih =>
    intro y z h1 h2
    cases y with
    | nil => simp [ltWords] at h1
    | cons b y =>
      cases z with
      | nil => simp [ltWords] at h2
      | cons c z =>
        simp only [ltWords] at h1 h2 ⊢
        by_cases hab : a < b
        · by_cases hbc : b < c
          · simp [show a < c by omega]
          · by_cases hcb : c < b
            · simp [hbc, hcb] at h2
            · simp [show a < c by omega]
        · by_cases hba : b < a
          · simp [hab, hba] at h1
          · have : a = b := by omega
            subst this
            by_cases hbc : a < c
            · simp [hbc]
            · by_cases hcb : c < a
              · simp [hbc, hcb] at h2
              · simp [hbc, hcb] at h2 ⊢
                simp at h1
                exact ih y z h1 h2

theorem ltWords_tri : ∀ (x y : List Nat), x.length = y.length →
    ltWords x y = true ∨ x = y ∨ ltWords y x = true := by
  intro x
  induction x with
  | nil => intro y h; cases y <;> simp_all
  | cons a x ih =>
    intro y h
    cases y with
    | nil => simp at h
    | cons b y =>
      simp only [ltWords]
      rcases Nat.lt_trichotomy a b with hab | hab | hab
      · left; simp [hab]
      · subst hab
        rcases ih y (by simpa using h) with h | h | h
        · left; simp [h]
        · right; left; rw [h]
        · right; right; simp [h]
      · right; right; simp [hab]

theorem bit_ext {x y : List (BitVec 8)} (hl : x.length = y.length)
    (h : ∀ i, i < x.length * 8 → bit x i = bit y i) : x = y := by
  apply List.ext_getElem hl
  intro n h1 h2
  apply BitVec.eq_of_getLsbD_eq
  intro j hj
  have := h (n * 8 + j) (by omega)
  have e1 : (n * 8 + j) / 8 = n := by omega
  have e2 : (n * 8 + j) % 8 = j := by omega
  simpa [bit, e1, e2, h1, h2] using this

theorem mem_eq_iff {a b : BA} {s t : Spec.Set} (I : Inv a s) (J : Inv b t) (hs : s.size = t.size) :
    a.mem = b.mem ↔ ∀ i, i < s.size → s.mem i = t.mem i := by
  have hla := I.len; have hlb := J.len
  rw [I.size] at hla; rw [J.size, ← hs] at hlb
  have hle : s.size ≤ bytes s.size * 8 := by unfold bytes words; omega
  constructor
  · intro h i hi
    have h1 := I.bits i (by omega)
    have h2 := J.bits i (by omega)
    rw [h, h2] at h1
    simpa using h1.symm
  · intro h
    apply bit_ext (by omega)
    intro i hi
    rw [I.bits i hi, J.bits i (by omega)]
    by_cases his : i < s.size
    · rw [h i his]
    · rw [I.zero i (by omega), J.zero i (by omega)]

end Verif.BitArr
