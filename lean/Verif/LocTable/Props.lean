import Verif.LocTable.Lemmas

/-! # C03: offsets map to the right line and column -/

namespace Verif.LocTable

/-- C03. For every initial capacity and every history of newlines (in increasing order), capacity
changes and queries, the table never touches a cell it should not, and each query is answered with the
last line that starts at or before the offset and the distance from that line's start (`(-1,-1)` for a
negative offset).  `Spec.Answer` mentions only the newlines, so answers do not depend on earlier
queries. -/
theorem C03_positions (size : Nat) (hs : 0 < size) (os : List Op) (hc : Spec.Contract [0] os) :
    ∃ t0 t as, Table.init size = some t0 ∧ t0.run os = some (t, as) ∧ Spec.Answers [0] os as := by
  obtain ⟨t0, h0, I0⟩ := inv_init hs
  have H : ∀ (os : List Op) (t : Table) (st : List Int), Inv t st → Spec.Contract st os →
      ∃ t' as, t.run os = some (t', as) ∧ Spec.Answers st os as := by
    intro os
    induction os with
    | nil => intro t st _ _; exact ⟨t, [], rfl, rfl⟩
    | cons o os ih =>
      intro t st I hc
      cases o with
      | newline o =>
        obtain ⟨t1, h1, I1⟩ := inv_newline I hc.1
        obtain ⟨t', as, h, ha⟩ := ih t1 _ I1 hc.2
        exact ⟨t', as, by simp [Table.run, h1, h], ha⟩
      | resize n =>
        obtain ⟨t1, h1, I1, _⟩ := inv_resize I hc.1
        obtain ⟨t', as, h, ha⟩ := ih t1 _ I1 hc.2
        exact ⟨t', as, by simp [Table.run, h1, h], ha⟩
      | query q =>
        obtain ⟨t1, a, h1, I1, hA⟩ := positionAt_spec I q
        obtain ⟨t', as, h, ha⟩ := ih t1 _ I1 hc
        exact ⟨t', a :: as, by simp [Table.run, h1, h], a, as, rfl, hA, ha⟩
  obtain ⟨t, as, h, ha⟩ := H os t0 [0] I0 hc
  exact ⟨t0, t, as, h0, h, ha⟩

/-- The right answer is unique, so `C03_positions` pins every answer down. -/
theorem C03_answer_unique (starts : List Int) (q : Int) (a b : Int × Int)
    (ha : Spec.Answer starts q a) (hb : Spec.Answer starts q b) : a = b := by
  rcases ha with ⟨h, rfl⟩ | ⟨h, l, s, rfl, hl, hs, hm⟩ <;>
    rcases hb with ⟨h', rfl⟩ | ⟨h', l', s', rfl, hl', hs', hm'⟩
  · rfl
  · omega
  · omega
  · have h1 := hm l' s' hl' hs'
    have h2 := hm' l s hl hs
    have : l = l' := by omega
    subst this
    rw [hl] at hl'
    simp only [Option.some.injEq] at hl'
    rw [hl']

/-- Non-vacuity: growth from capacity 1, queries out of order, an offset on a line start. -/
example : Spec.Contract [0] [.newline 4, .newline 9, .query 7, .resize 3, .query 3, .query 5, .query (-2), .query 50] := by
  simp [Spec.Contract]

example : (Table.init 1).bind (fun t => (t.run [.newline 4, .newline 9, .query 7, .query 3, .query 5, .query 50]).map (·.2))
    = some [(1, 2), (0, 3), (1, 0), (2, 40)] := by
  decide +kernel

/-- Shrinking below the contents leaves `currentLine` beyond the array: the next query is undefined
behaviour. -/
theorem C03_shrink_undefined :
    (Table.init 4).bind (fun t => t.run [.newline 4, .newline 9, .resize 1, .query 7]) = none := by
  decide

end Verif.LocTable
