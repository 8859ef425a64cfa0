import Verif.LocTable.Spec

namespace Verif.LocTable

/-- The table stores the line starts, strictly increasing from 0. -/
structure Inv (t : Table) (starts : List Int) : Prop where
  cap : t.lines.length = t.lineCount
  cur : t.currentLine = starts.length
  fit : starts.length ≤ t.lines.length
  pos : 0 < starts.length
  cells : ∀ i s, starts[i]? = some s → cell t.lines i = some s
  zero : starts[0]? = some 0
  mono : ∀ (i j : Nat) (a b : Int), starts[i]? = some a → starts[j]? = some b → i < j → a < b
  last : t.lastLine < starts.length

theorem cell_some {a : List (Option Int)} {i : Nat} {x : Int} : cell a i = some x ↔ a[i]? = some (some x) := by
  unfold cell
  split
  · rename_i y h; simp [h]
  · rename_i h
    constructor
    · simp
    · intro h'; exact absurd h' (h x)

theorem Inv.get {t : Table} {st : List Int} (I : Inv t st) {i : Nat} (h : i < st.length) :
    cell t.lines i = some st[i] := I.cells i st[i] (by simp)

theorem inv_init {n : Nat} (hn : 0 < n) : ∃ t, Table.init n = some t ∧ Inv t [0] := by
  have : Table.init n = some ⟨(List.replicate n none).set 0 (some 0), n, 1, 0⟩ := by
    simp [Table.init, Table.resize, hn]
  refine ⟨_, this, ?_⟩
  constructor
  · simp
  · simp
  · simp; omega
  · simp
  · intro i s hs
    have : i = 0 := by
      have := (List.getElem?_eq_some_iff.mp hs).1
      simpa using this
    subst this
    simp only [List.getElem?_cons_zero, Option.some.injEq] at hs
    subst hs
    rw [cell_some]
    exact List.getElem?_set_self (by simpa using hn)
  · rfl
  · intro i j a b hi hj hij
    have := (List.getElem?_eq_some_iff.mp hj).1
    simp at this; omega
  · simp

theorem inv_resize {t : Table} {st : List Int} (I : Inv t st) {n : Nat} (hn : st.length ≤ n) :
    ∃ t', t.resize n = some t' ∧ Inv t' st ∧ t'.lineCount = n := by
  have hp := I.pos
  refine ⟨_, by simp only [Table.resize]; rw [if_pos (by omega)], ?_, rfl⟩
  constructor
  · simp; omega
  · exact I.cur
  · simp; omega
  · exact I.pos
  · intro i s hs
    have hi : i < st.length := (List.getElem?_eq_some_iff.mp hs).1
    have h := I.cells i s hs
    rw [cell_some] at h ⊢
    have hil : i < t.lines.length := (List.getElem?_eq_some_iff.mp h).1
    simp only
    rw [List.getElem?_append_left (by simp; omega), List.getElem?_take]
    rw [if_pos (by omega)]; exact h
  · exact I.zero
  · exact I.mono
  · exact I.last

theorem inv_newline {t : Table} {st : List Int} (I : Inv t st) {o : Int} (ho : ∀ s ∈ st, s ≤ o) :
    ∃ t', t.newline o = some t' ∧ Inv t' (st ++ [o + 1]) := by
  obtain ⟨t1, h1, I1, hroom⟩ : ∃ t1, (if t.currentLine = t.lineCount then t.resize (t.currentLine * 2) else some t)
      = some t1 ∧ Inv t1 st ∧ st.length < t1.lines.length := by
    split
    · rename_i he
      have hp := I.pos
      have hc := I.cur
      obtain ⟨t', ht', I', hl⟩ := inv_resize I (n := t.currentLine * 2) (by omega)
      exact ⟨t', ht', I', by rw [I'.cap, hl]; omega⟩
    · rename_i hne
      have := I.cap; have := I.cur; have := I.fit
      exact ⟨t, rfl, I, by omega⟩
  have hc1 := I1.cur
  refine ⟨⟨t1.lines.set t1.currentLine (some (o + 1)), t1.lineCount, t1.currentLine + 1, t1.lastLine⟩, ?_, ?_⟩
  · simp only [Table.newline, h1]
    rw [if_pos (by omega)]
  constructor
  · simpa using I1.cap
  · simp [hc1]
  · simp; omega
  · simp
  · intro i s hs
    rw [cell_some]
    simp only
    by_cases hi : i < st.length
    · rw [List.getElem?_append_left hi] at hs
      rw [List.getElem?_set_ne (by omega)]
      exact cell_some.mp (I1.cells i s hs)
    · have hil := (List.getElem?_eq_some_iff.mp hs).1
      simp at hil
      have hi : i = st.length := by omega
      subst hi
      simp only [List.getElem?_concat_length, Option.some.injEq] at hs
      subst hs
      rw [hc1, List.getElem?_set_self (by omega)]
  · rw [List.getElem?_append_left I.pos]; exact I.zero
  · intro i j a b hi hj hij
    have hjl := (List.getElem?_eq_some_iff.mp hj).1
    simp at hjl
    rw [List.getElem?_append_left (by omega)] at hi
    by_cases hj' : j < st.length
    · rw [List.getElem?_append_left hj'] at hj
      exact I.mono i j a b hi hj hij
    · have : j = st.length := by omega
      subst this
      simp only [List.getElem?_concat_length, Option.some.injEq] at hj
      subst hj
      have := ho a (List.mem_of_getElem? hi)
      omega
  · have := I1.last
    simp; omega

/-- `lower_bound` finds the partition point. -/
theorem lowerBound_spec {t : Table} {st : List Int} (I : Inv t st) (v : Int) :
    ∀ (len first : Nat), first + len ≤ st.length →
      (∀ (i : Nat) (x : Int), i < first → st[i]? = some x → x < v) →
      (∀ (i : Nat) (x : Int), first + len ≤ i → st[i]? = some x → v ≤ x) →
      ∃ r, lowerBound t.lines v first len = some r ∧ r ≤ st.length ∧
        (∀ (i : Nat) (x : Int), i < r → st[i]? = some x → x < v) ∧
        (∀ (i : Nat) (x : Int), r ≤ i → st[i]? = some x → v ≤ x) := by
  intro len
  induction len using Nat.strongRecOn with
  | _ len ih =>
    intro first hle hlo hhi
    unfold lowerBound
    split
    · rename_i h0
      subst h0
      exact ⟨first, rfl, by omega, hlo, by simpa using hhi⟩
    · rename_i h0
      have hm : first + len / 2 < st.length := by omega
      rw [I.get hm]
      simp only
      have hmid : st[first + len / 2]? = some st[first + len / 2] := by simp
      split
      · rename_i hlt
        refine ih (len - len / 2 - 1) (by omega) _ (by omega) ?_ ?_
        · intro i x hi hx
          by_cases he : i = first + len / 2
          · subst he; rw [hmid] at hx; simp at hx; omega
          · have := I.mono i _ _ _ hx hmid (by omega)
            omega
        · intro i x hi hx
          exact hhi i x (by omega) hx
      · rename_i hge
        refine ih (len / 2) (by omega) _ (by omega) hlo ?_
        intro i x hi hx
        by_cases he : i = first + len / 2
        · subst he; rw [hmid] at hx; simp at hx; omega
        · have := I.mono _ i _ _ hmid hx (by omega)
          omega

theorem answer_of {t : Table} {st : List Int} (I : Inv t st) {q : Int} (hq : 0 ≤ q) (l : Nat)
    (hl : l < st.length) (h1 : st[l] ≤ q) (h2 : ∀ x, st[l + 1]? = some x → q < x) :
    Spec.Answer st q ((l : Int), q - st[l]) := by
  right
  refine ⟨hq, l, st[l], rfl, by simp, h1, ?_⟩
  intro j s' hj hs'
  apply Decidable.byContradiction
  intro hlt
  have hjl := (List.getElem?_eq_some_iff.mp hj).1
  have hl1 : l + 1 < st.length := by omega
  have h3 := h2 st[l + 1] (by simp)
  by_cases he : j = l + 1
  · subst he; rw [List.getElem?_eq_getElem hl1] at hj; simp only [Option.some.injEq] at hj; omega
  · have := I.mono (l + 1) j _ _ (List.getElem?_eq_getElem hl1) hj (by omega)
    omega

theorem Inv.setLast {t : Table} {st : List Int} (I : Inv t st) {l : Nat} (hl : l < st.length) :
    Inv { t with lastLine := l } st :=
  ⟨I.cap, I.cur, I.fit, I.pos, I.cells, I.zero, I.mono, hl⟩

/-- What the shortcut may return. -/
theorem shortcut_spec {t : Table} {st : List Int} (I : Inv t st) (q : Int) :
    t.shortcut q = some none ∨ ∃ i, ∃ h : i < st.length, t.shortcut q = some (some i) ∧ st[i] ≤ q ∧
      ∀ x, st[i + 1]? = some x → q < x := by
  have hc := I.cur
  unfold Table.shortcut
  by_cases h1 : t.lastLine + 1 < t.currentLine
  · rw [if_pos h1, I.get (i := t.lastLine) (by omega)]
    simp only
    by_cases h2 : st[t.lastLine]'(by omega) ≤ q
    · rw [if_pos h2, I.get (i := t.lastLine + 1) (by omega)]
      simp only
      by_cases h3 : q < st[t.lastLine + 1]'(by omega)
      · rw [if_pos h3]
        right
        refine ⟨t.lastLine, by omega, rfl, h2, ?_⟩
        intro x hx
        rw [List.getElem?_eq_getElem (by omega)] at hx
        simp only [Option.some.injEq] at hx
        omega
      · rw [if_neg h3]
        by_cases h4 : t.lastLine + 2 < t.currentLine
        · rw [if_pos h4, I.get (i := t.lastLine + 2) (by omega)]
          simp only
          by_cases h5 : q < st[t.lastLine + 2]'(by omega)
          · rw [if_pos h5]
            right
            refine ⟨t.lastLine + 1, by omega, rfl, by omega, ?_⟩
            intro x hx
            rw [show t.lastLine + 1 + 1 = t.lastLine + 2 by omega,
              List.getElem?_eq_getElem (by omega)] at hx
            simp only [Option.some.injEq] at hx
            omega
          · rw [if_neg h5]; exact Or.inl rfl
        · rw [if_neg h4]; exact Or.inl rfl
    · rw [if_neg h2]; exact Or.inl rfl
  · rw [if_neg h1]; exact Or.inl rfl

theorem positionAt_spec {t : Table} {st : List Int} (I : Inv t st) (q : Int) :
    ∃ t' a, t.positionAt q = some (t', a) ∧ Inv t' st ∧ Spec.Answer st q a := by
  have hc := I.cur
  have hp := I.pos
  unfold Table.positionAt
  by_cases hq : q < 0
  · rw [if_pos hq]; exact ⟨t, _, rfl, I, Or.inl ⟨hq, rfl⟩⟩
  rw [if_neg hq, if_neg (by omega), I.get (i := t.currentLine - 1) (by omega)]
  simp only
  by_cases hover : st[t.currentLine - 1]'(by omega) < q
  · rw [if_pos hover]
    refine ⟨t, _, rfl, I, ?_⟩
    refine answer_of I (by omega) (t.currentLine - 1) (by omega) (by omega) ?_
    intro x hx
    have := (List.getElem?_eq_some_iff.mp hx).1
    omega
  rw [if_neg hover]
  rcases shortcut_spec I q with hs | ⟨i, hi, hs, h1, h2⟩
  · rw [hs]
    simp only
    obtain ⟨r, hr, hrl, hlo, hhi⟩ := lowerBound_spec I q t.currentLine 0 (by omega)
      (by intro i x hi; omega) (by
        intro i x hi hx
        have := (List.getElem?_eq_some_iff.mp hx).1
        omega)
    rw [hr]
    simp only
    have hrne : r ≠ t.currentLine := by
      intro he
      have := hlo (t.currentLine - 1) _ (by omega) (List.getElem?_eq_getElem (by omega))
      omega
    rw [if_neg hrne, I.get (i := r) (by omega)]
    simp only
    have hrge : q ≤ st[r]'(by omega) := hhi r _ (Nat.le_refl _) (List.getElem?_eq_getElem (by omega))
    by_cases hne : st[r]'(by omega) ≠ q
    · rw [if_pos hne]
      have hr0 : r ≠ 0 := by
        intro he
        subst he
        have := I.zero
        rw [List.getElem?_eq_getElem hp] at this
        simp only [Option.some.injEq] at this
        omega
      rw [if_neg hr0, I.get (i := r - 1) (by omega)]
      simp only
      have h1 := hlo (r - 1) _ (by omega) (List.getElem?_eq_getElem (by omega))
      refine ⟨_, _, rfl, I.setLast (by omega), answer_of I (by omega) (r - 1) (by omega) (by omega) ?_⟩
      intro x hx
      rw [show r - 1 + 1 = r by omega, List.getElem?_eq_getElem (by omega)] at hx
      simp only [Option.some.injEq] at hx
      omega
    · rw [if_neg hne]
      refine ⟨_, _, rfl, I.setLast (by omega), answer_of I (by omega) r (by omega) (by omega) ?_⟩
      intro x hx
      have := I.mono r (r + 1) _ _ (List.getElem?_eq_getElem (by omega)) hx (by omega)
      omega
  · rw [hs]
    simp only
    rw [I.get hi]
    simp only
    exact ⟨_, _, rfl, I.setLast hi, answer_of I (by omega) i hi h1 h2⟩

end Verif.LocTable
