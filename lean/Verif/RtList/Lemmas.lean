import Verif.RtList.Spec
import Mathlib.Tactic.Tauto

namespace Verif.RtList

variable {α : Type}

/-- The nodes of `l` form a ring in the heap, numbered from 0. -/
def Ring (h : Heap α) (l : List (Nat × α)) : Prop :=
  l ≠ [] ∧ ∀ i (hi : i < l.length),
    h[l[i].1]? = some ⟨l[i].2, i, (l[(i + 1) % l.length]'(Nat.mod_lt _ (by omega))).1⟩

/-- The heap holds exactly the sequences of the abstract world. -/
def Represents (h : Heap α) (w : Spec.World α) : Prop :=
  h.length = Spec.nodes w ∧ (w.flatten.map Prod.fst).Nodup ∧
  (∀ p ∈ w.flatten.map Prod.fst, p < h.length) ∧ ∀ l ∈ w, Ring h l

theorem Ring.pos {h : Heap α} {l} (r : Ring h l) : 0 < l.length :=
  List.length_pos_iff.mpr r.1

theorem Ring.hasNext {h : Heap α} {l} (r : Ring h l) (i : Nat) (hi : i < l.length) :
    hasNext h l[i].1 = some (decide (i + 1 < l.length)) := by
  have h1 := r.2 i hi
  have hm : (i + 1) % l.length < l.length := Nat.mod_lt _ (by omega)
  have h2 := r.2 _ hm
  simp only [RtList.hasNext, h1, h2, Option.bind_eq_bind, Option.bind_some, Option.pure_def,
    Option.some.injEq, decide_eq_decide]
  by_cases hlt : i + 1 < l.length
  · simp [Nat.mod_eq_of_lt hlt, hlt]
  · have : i + 1 = l.length := by omega
    simp [this]

theorem Ring.backLoop {h : Heap α} {l} (r : Ring h l) :
    ∀ (fuel i : Nat) (hi : i < l.length), l.length ≤ fuel + i →
      backLoop h fuel l[i].1 = some (l[l.length - 1]'(by omega)).1 := by
  intro fuel
  induction fuel with
  | zero => intro i hi hf; omega
  | succ f ih =>
    intro i hi hf
    simp only [RtList.backLoop, r.hasNext i hi, Option.bind_eq_bind, Option.bind_some]
    by_cases hlt : i + 1 < l.length
    · simp only [hlt, decide_true, if_true, r.2 i hi, Option.bind_some]
      have := ih (i + 1) hlt (by omega)
      simpa [Nat.mod_eq_of_lt hlt] using this
    · have : i = l.length - 1 := by omega
      subst this
      simp [hlt]

theorem nodes_append (a b : Spec.World α) : Spec.nodes (a ++ b) = Spec.nodes a + Spec.nodes b := by
  simp [Spec.nodes]

theorem nodes_eq_flatten (w : Spec.World α) : Spec.nodes w = w.flatten.length := by
  simp [Spec.nodes, List.length_flatten]

theorem Represents.length_le {h : Heap α} {w : Spec.World α} (r : Represents h w)
    {l : List (Nat × α)} (hl : l ∈ w) : l.length ≤ h.length := by
  rw [r.1, nodes_eq_flatten]
  exact (List.sublist_flatten_of_mem hl).length_le

theorem Ring.back {h : Heap α} {l} (r : Ring h l) (hle : l.length ≤ h.length)
    (i : Nat) (hi : i < l.length) :
    back h l[i].1 = some (l[l.length - 1]'(by omega)).1 :=
  r.backLoop _ i hi (by omega)

theorem Ring.front {h : Heap α} {l} (r : Ring h l) (hle : l.length ≤ h.length)
    (i : Nat) (hi : i < l.length) : front h l[i].1 = some (l[0]'(r.pos)).1 := by
  have hp := r.pos
  simp only [RtList.front, r.back hle i hi, Option.bind_eq_bind, Option.bind_some,
    r.2 (l.length - 1) (by omega), Option.pure_def]
  simp [show l.length - 1 + 1 = l.length by omega]

theorem Ring.count {h : Heap α} {l} (r : Ring h l) (hle : l.length ≤ h.length)
    (i : Nat) (hi : i < l.length) : count h l[i].1 = some l.length := by
  have hp := r.pos
  simp only [RtList.count, r.back hle i hi, Option.bind_eq_bind, Option.bind_some,
    r.2 (l.length - 1) (by omega), Option.pure_def]
  congr 1
  omega

/-- Number of `next` steps from position `i` to position `j` of a ring of size `n`. -/
private def dist (n i j : Nat) : Nat := if i ≤ j then j - i else n - i + j

theorem Ring.atLoop {h : Heap α} {l} (r : Ring h l) (j : Nat) (hj : j < l.length) :
    ∀ (fuel i : Nat) (hi : i < l.length), dist l.length i j < fuel →
      atLoop h j fuel l[i].1 = some l[j].1 := by
  intro fuel
  induction fuel with
  | zero => intro i hi hf; omega
  | succ f ih =>
    intro i hi hf
    simp only [RtList.atLoop, r.2 i hi, Option.bind_eq_bind, Option.bind_some]
    by_cases hij : j = i
    · subst hij; simp
    · simp only [hij, if_false]
      have hm : (i + 1) % l.length < l.length := Nat.mod_lt _ (by omega)
      apply ih _ hm
      unfold dist at hf ⊢
      by_cases hlt : i + 1 < l.length
      · rw [Nat.mod_eq_of_lt hlt]; split <;> split at hf <;> omega
      · have : i + 1 = l.length := by omega
        rw [this, Nat.mod_self]; split <;> split at hf <;> omega

theorem Ring.at_ {h : Heap α} {l} (r : Ring h l) (hle : l.length ≤ h.length)
    (i : Nat) (hi : i < l.length) (j : Nat) (hj : j < l.length) :
    at_ h l[i].1 j = some l[j].1 := by
  apply r.atLoop j hj _ i hi
  unfold dist; split <;> omega

theorem Ring.visitLoop {h : Heap α} {l} (r : Ring h l)
    (hd : (l.map Prod.fst).Nodup) :
    ∀ (fuel i : Nat) (hi : i < l.length), l.length ≤ fuel + i →
      visitLoop h (l[0]'(r.pos)).1 fuel l[i].1 = some ((l.drop i).map Prod.snd) := by
  have hp := r.pos
  intro fuel
  induction fuel with
  | zero => intro i hi hf; omega
  | succ f ih =>
    intro i hi hf
    simp only [RtList.visitLoop, r.2 i hi, Option.bind_eq_bind, Option.bind_some]
    by_cases hlt : i + 1 < l.length
    · have hne : ¬ ((l[(i + 1) % l.length]'(Nat.mod_lt _ (by omega))).1 = l[0].1) := by
        simp only [Nat.mod_eq_of_lt hlt]
        intro he
        have := (List.getElem_inj (h₀ := by simpa using hlt) (h₁ := by simpa using hp) hd).mp
          (by simpa using he)
        omega
      simp only [hne, if_false]
      have := ih (i + 1) hlt (by omega)
      simp only [Nat.mod_eq_of_lt hlt, this, Option.bind_some, Option.pure_def]
      rw [List.drop_eq_getElem_cons hi, List.map_cons]
    · have hi' : i = l.length - 1 := by omega
      have : (i + 1) % l.length = 0 := by rw [show i + 1 = l.length by omega, Nat.mod_self]
      simp only [this, if_true, Option.pure_def]
      rw [List.drop_eq_getElem_cons hi, List.drop_of_length_le (by omega)]
      simp

theorem Ring.visitSequence {h : Heap α} {l} (r : Ring h l) (hd : (l.map Prod.fst).Nodup)
    (hle : l.length ≤ h.length) (i : Nat) (hi : i < l.length) :
    visitSequence h (some l[i].1) = some (l.map Prod.snd) := by
  simp only [RtList.visitSequence, r.front hle i hi, Option.bind_eq_bind, Option.bind_some]
  simpa using r.visitLoop hd _ 0 r.pos (by omega)

/-! ### Operations -/

theorem Ring.mono {h h' : Heap α} {l} (r : Ring h l)
    (he : ∀ p ∈ l.map Prod.fst, h'[p]? = h[p]?) : Ring h' l := by
  refine ⟨r.1, fun i hi => ?_⟩
  rw [he _ (List.mem_map.mpr ⟨_, List.getElem_mem hi, rfl⟩)]
  exact r.2 i hi

theorem represents_new {h : Heap α} {w : Spec.World α} (r : Represents h w) (e : α) :
    ∃ h', step h (.new e) = some h' ∧ Represents h' (w ++ [[(Spec.nodes w, e)]]) := by
  refine ⟨_, rfl, ?_⟩
  obtain ⟨h1, h2, h3, h4⟩ := r
  simp only [create1]
  refine ⟨?_, ?_, ?_, ?_⟩
  · simp [h1, Spec.nodes]
  · simp only [List.flatten_append, List.map_append, List.nodup_append]
    refine ⟨h2, by simp, ?_⟩
    intro a ha b hb
    simp only [List.flatten_cons, List.flatten_nil, List.append_nil, List.map_cons, List.map_nil,
      List.mem_singleton] at hb
    have := h3 a ha
    omega
  · intro p hp
    simp only [List.flatten_append, List.map_append, List.mem_append] at hp
    rcases hp with hp | hp
    · have := h3 p hp; simp; omega
    · simp at hp; subst hp; simp [h1]
  · intro l hl
    rcases List.mem_append.mp hl with hl | hl
    · apply (h4 l hl).mono
      intro p hp
      have : p < h.length := by
        apply h3; simp only [List.mem_map, List.mem_flatten] at hp ⊢
        obtain ⟨a, ha, rfl⟩ := hp; exact ⟨a, ⟨l, hl, ha⟩, rfl⟩
      simp [List.getElem?_append_left this]
    · simp only [List.mem_singleton] at hl
      subst hl
      refine ⟨by simp, ?_⟩
      intro i hi
      have : i = 0 := by simpa using hi
      subst this
      simp [h1]

theorem appendTo_split {p fresh : Nat} {e : α} {w w' : Spec.World α}
    (h : Spec.appendTo p fresh e w = some w') :
    ∃ a l b, w = a ++ l :: b ∧ p ∈ l.map Prod.fst ∧ w' = a ++ (l ++ [(fresh, e)]) :: b := by
  induction w generalizing w' with
  | nil => simp [Spec.appendTo] at h
  | cons x xs ih =>
    simp only [Spec.appendTo] at h
    split at h
    · rename_i hp
      exact ⟨[], x, xs, rfl, hp, by simpa using h.symm⟩
    · rw [Option.map_eq_some_iff] at h
      obtain ⟨w1, h1, h2⟩ := h
      obtain ⟨a, l, b, e1, e2, e3⟩ := ih h1
      exact ⟨x :: a, l, b, by simp [e1], e2, by simp [← h2, e3]⟩

theorem create2_eq (h : Heap α) (b : Nat) (e : α) (nd : Node α) (hb : h[b]? = some nd) :
    create2 h b e = some ((h.set b { nd with next := h.length }) ++
      [{ element := e, index := nd.index + 1, next := nd.next }], h.length) := by
  have hlt : b < h.length := by
    rw [List.getElem?_eq_some_iff] at hb; exact hb.1
  have hne : h.length ≠ b := by omega
  obtain ⟨_, rfl⟩ := List.getElem?_eq_some_iff.mp hb
  simp [create2, create1, List.set_append_left, hlt, List.getElem?_append_left]

theorem represents_app {h : Heap α} {w w' : Spec.World α} (r : Represents h w) (p : Nat) (e : α)
    (hw : Spec.step w (.app p e) = some w') :
    ∃ h', step h (.app p e) = some h' ∧ Represents h' w' := by
  obtain ⟨a, l, b, rfl, hp, rfl⟩ := appendTo_split hw
  have hl : l ∈ a ++ l :: b := by simp
  have hle := r.length_le hl
  obtain ⟨h1, h2, h3, h4⟩ := r
  have rg := h4 l hl
  have hpos := rg.pos
  obtain ⟨pr, hpr, rfl⟩ := List.mem_map.mp hp
  obtain ⟨i, hi, rfl⟩ := List.getElem_of_mem hpr
  have hlast := rg.2 (l.length - 1) (by omega)
  have hz : (l.length - 1 + 1) % l.length = 0 := by
    rw [show l.length - 1 + 1 = l.length by omega, Nat.mod_self]
  simp only [hz] at hlast
  have hdl : (l.map Prod.fst).Nodup := by
    refine List.Nodup.sublist ?_ h2
    exact (List.sublist_flatten_of_mem hl).map _
  have hbl : ∀ q ∈ l.map Prod.fst, q < h.length := by
    intro q hq
    apply h3
    simp only [List.mem_map, List.mem_flatten] at hq ⊢
    obtain ⟨x, hx, rfl⟩ := hq; exact ⟨x, ⟨l, hl, hx⟩, rfl⟩
  have hother : ∀ m ∈ a ++ b, ∀ q ∈ m.map Prod.fst, q ≠ (l[l.length - 1]'(by omega)).1 := by
    intro m hm q hq hqe
    have hlm : (l[l.length - 1]'(by omega)).1 ∈ l.map Prod.fst :=
      List.mem_map.mpr ⟨_, List.getElem_mem (by omega), rfl⟩
    rw [← hqe] at hlm
    simp only [List.flatten_append, List.flatten_cons, List.map_append, List.nodup_append,
      List.mem_append] at h2
    obtain ⟨_, ⟨_, _, h22⟩, h23⟩ := h2
    rcases List.mem_append.mp hm with hm | hm
    · have hqa : q ∈ a.flatten.map Prod.fst := by
        simp only [List.mem_map, List.mem_flatten] at hq ⊢
        obtain ⟨x, hx, rfl⟩ := hq; exact ⟨x, ⟨m, hm, hx⟩, rfl⟩
      exact h23 q hqa q (Or.inl hlm) rfl
    · have hqb : q ∈ b.flatten.map Prod.fst := by
        simp only [List.mem_map, List.mem_flatten] at hq ⊢
        obtain ⟨x, hx, rfl⟩ := hq; exact ⟨x, ⟨m, hm, hx⟩, rfl⟩
      exact h22 q hlm q hqb rfl
  have hstep : step h (.app l[i].1 e) =
      some (h.set (l[l.length - 1]'(by omega)).1
        ⟨(l[l.length - 1]'(by omega)).2, l.length - 1, h.length⟩ ++
        [⟨e, l.length - 1 + 1, (l[0]'hpos).1⟩]) := by
    simp only [step, snoc, rg.back hle i hi, Option.bind_eq_bind, Option.bind_some,
      create2_eq h _ e _ hlast, Option.map_some]
  refine ⟨_, hstep, ?_⟩
  refine ⟨?_, ?_, ?_, ?_⟩
  · simp only [Spec.nodes, List.map_append, List.map_cons, List.sum_append,
      List.sum_cons, List.length_append, List.length_set, List.length_cons, List.length_nil] at h1 ⊢
    omega
  · have hperm : ((a ++ (l ++ [(Spec.nodes (a ++ l :: b), e)]) :: b).flatten.map Prod.fst).Perm
        (((a ++ l :: b).flatten.map Prod.fst) ++ [h.length]) := by
      rw [← h1]
      simp only [List.flatten_append, List.flatten_cons, List.map_append, List.append_assoc,
        List.map_cons, List.map_nil]
      refine List.Perm.append_left _ (List.Perm.append_left _ ?_)
      exact List.perm_append_comm
    rw [hperm.nodup_iff, List.nodup_append]
    refine ⟨h2, by simp, ?_⟩
    intro x hx y hy
    have := h3 x hx
    simp only [List.mem_singleton] at hy
    omega
  · intro q hq
    have : q ∈ (a ++ l :: b).flatten.map Prod.fst ∨ q = h.length := by
      rw [← h1] at hq
      simp only [List.flatten_append, List.flatten_cons, List.map_append, List.mem_append,
        List.map_cons, List.map_nil, List.mem_singleton] at hq ⊢
      tauto
    rcases this with hq | rfl
    · have := h3 q hq
      simp only [List.length_append, List.length_set]; omega
    · simp
  · intro m hm
    have hm' : m ∈ a ++ b ∨ m = l ++ [(Spec.nodes (a ++ l :: b), e)] := by
      simp only [List.mem_append, List.mem_cons] at hm ⊢; tauto
    rcases hm' with hm | rfl
    · have hmw : m ∈ a ++ l :: b := by
        simp only [List.mem_append, List.mem_cons] at hm ⊢; tauto
      apply (h4 m hmw).mono
      intro q hq
      have hqb : q < h.length := by
        apply h3
        simp only [List.mem_map, List.mem_flatten] at hq ⊢
        obtain ⟨x, hx, rfl⟩ := hq; exact ⟨x, ⟨m, hmw, hx⟩, rfl⟩
      rw [List.getElem?_append_left (by simpa using hqb)]
      rw [List.getElem?_set_ne (Ne.symm (hother m hm q hq))]
    · rw [← h1]
      refine ⟨by simp, ?_⟩
      intro k hk
      simp only [List.length_append, List.length_cons, List.length_nil, Nat.zero_add] at hk
      by_cases hkl : k < l.length
      · rw [List.getElem_append_left hkl]
        have hkb : l[k].1 < h.length := hbl _ (List.mem_map.mpr ⟨_, List.getElem_mem hkl, rfl⟩)
        rw [List.getElem?_append_left (by simpa using hkb)]
        by_cases hk1 : k = l.length - 1
        · subst hk1
          rw [List.getElem?_set_self hkb]
          simp [show l.length - 1 + 1 = l.length by omega]
        · have hne : (l[l.length - 1]'(by omega)).1 ≠ l[k].1 := by
            intro he
            have := (List.getElem_inj (xs := l.map Prod.fst) (i := l.length - 1) (j := k)
              (h₀ := by simp; omega) (h₁ := by simpa using hkl) hdl).mp (by simpa using he)
            exact hk1 this.symm
          rw [List.getElem?_set_ne hne, rg.2 k hkl]
          have e1 : (k + 1) % l.length = k + 1 := Nat.mod_eq_of_lt (by omega)
          have e2 : (k + 1) % (l ++ [(h.length, e)]).length = k + 1 :=
            Nat.mod_eq_of_lt (by rw [List.length_append]; simp; omega)
          simp only [e1, e2]
          rw [List.getElem_append_left (by omega)]
      · have hkeq : k = l.length := by omega
        subst hkeq
        simp only [List.getElem_concat_length, List.length_append, List.length_cons,
          List.length_nil, Nat.zero_add, Nat.mod_self]
        rw [List.getElem_append_left hpos]
        rw [List.getElem?_append_right (by simp)]
        simp; omega

theorem represents_run {h : Heap α} {w w' : Spec.World α} (r : Represents h w) (os : List (Op α))
    (hw : Spec.run w os = some w') : ∃ h', run h os = some h' ∧ Represents h' w' := by
  induction os generalizing h w with
  | nil =>
    simp only [Spec.run, Option.some.injEq] at hw
    exact ⟨h, rfl, hw ▸ r⟩
  | cons o os ih =>
    simp only [Spec.run, Option.bind_eq_some_iff] at hw
    obtain ⟨w1, hs, hr⟩ := hw
    have : ∃ h', step h o = some h' ∧ Represents h' w1 := by
      cases o with
      | new e =>
        simp only [Spec.step, Option.some.injEq] at hs
        subst hs; exact represents_new r e
      | app p e => exact represents_app r p e hs
    obtain ⟨h1, e1, r1⟩ := this
    obtain ⟨h2, e2, r2⟩ := ih r1 hr
    exact ⟨h2, by simp [run, e1, e2], r2⟩

theorem represents_nil : Represents ([] : Heap α) [] := by
  refine ⟨rfl, by simp, by simp, by simp⟩

end Verif.RtList
