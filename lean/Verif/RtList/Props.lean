import Verif.RtList.Lemmas

/-!
# C01, C55: AST sequences

`Spec.run [] os = some w` says that the program `os` of `snoc` calls only uses handles of existing
nodes, and `w` lists, for each sequence, the (address, element) pairs in append order.
-/

namespace Verif.RtList

variable {α : Type}

/-- C01. After any program of `snoc` calls (any number of sequences sharing one pool, any node of a
sequence as handle), for every sequence `l` of the abstract world and every node of it used as
handle: `count` is its length, `front`/`back` are its first/last nodes, `at(j)` is the `j`-th node,
that node holds the `j`-th appended element, and `next` of the `j`-th node is the cyclically next. -/
theorem C01_sequence (os : List (Op α)) (w : Spec.World α) (hw : Spec.run [] os = some w) :
    ∃ h, run [] os = some h ∧ ∀ l ∈ w, ∀ i (hi : i < l.length),
      count h l[i].1 = some l.length ∧
      front h l[i].1 = some (l[0]'(by omega)).1 ∧
      back h l[i].1 = some (l[l.length - 1]'(by omega)).1 ∧
      ∀ j (hj : j < l.length), at_ h l[i].1 j = some l[j].1 ∧
        h[l[j].1]? = some ⟨l[j].2, j, (l[(j + 1) % l.length]'(Nat.mod_lt _ (by omega))).1⟩ := by
  obtain ⟨h, e, r⟩ := represents_run represents_nil os hw
  refine ⟨h, e, fun l hl i hi => ?_⟩
  have hle := r.length_le hl
  have rg := r.2.2.2 l hl
  exact ⟨rg.count hle i hi, rg.front hle i hi, rg.back hle i hi,
    fun j hj => ⟨rg.at_ hle i hi j hj, rg.2 j hj⟩⟩

/-- C01 (canonical use, as emitted by the parser generator): starting from a null pointer and always
passing the result of the previous `snoc`, the sequence holds exactly the given elements, in order. -/
theorem C01_snoc_all (xs : List α) (hx : xs ≠ []) :
    ∃ h p, xs.foldlM (fun (s : Heap α × Option Nat) e =>
        (snoc s.1 s.2 e).map fun r => (r.1, some r.2)) ([], none) = some (h, some p) ∧
      count h p = some xs.length ∧
      visitSequence h (some p) = some xs := by
  suffices H : ∀ (ys : List α) (h : Heap α) (l : List (Nat × α)) (p : Nat),
      Represents h [l] → (∃ i, ∃ hi : i < l.length, l[i].1 = p) →
      ∃ h' p', ys.foldlM (fun (s : Heap α × Option Nat) e =>
          (snoc s.1 s.2 e).map fun r => (r.1, some r.2)) (h, some p) = some (h', some p') ∧
        count h' p' = some (l.length + ys.length) ∧
        visitSequence h' (some p') = some (l.map Prod.snd ++ ys) by
    obtain ⟨x, xs, rfl⟩ := List.exists_cons_of_ne_nil hx
    obtain ⟨h1, e1, r1⟩ := represents_new (represents_nil (α := α)) x
    simp only [step, snoc, create1, Option.map_some, Option.some.injEq] at e1
    subst e1
    obtain ⟨h', p', e, hc, hv⟩ := H xs _ [(0, x)] 0 r1 ⟨0, by simp, rfl⟩
    refine ⟨h', p', ?_, by simpa [Nat.add_comm] using hc, by simpa using hv⟩
    simpa [List.foldlM_cons, snoc, create1] using e
  intro ys
  induction ys with
  | nil =>
    intro h l p r ⟨i, hi, hp⟩
    subst hp
    have rg := r.2.2.2 l (by simp)
    have hle := r.length_le (l := l) (by simp)
    exact ⟨h, _, rfl, rg.count hle i hi, by
      simpa using rg.visitSequence (by simpa using r.2.1) hle i hi⟩
  | cons y ys ih =>
    intro h l p r ⟨i, hi, hp⟩
    subst hp
    have hs : Spec.step [l] (.app l[i].1 y) = some [l ++ [(Spec.nodes [l], y)]] := by
      have : l[i].1 ∈ l.map Prod.fst := List.mem_map.mpr ⟨_, List.getElem_mem hi, rfl⟩
      simp only [Spec.step, Spec.appendTo, this, if_true]
    obtain ⟨h1, e1, r1⟩ := represents_app r _ y hs
    simp only [step, Option.map_eq_some_iff] at e1
    obtain ⟨⟨h1', p1⟩, e1, rfl⟩ := e1
    have hp1 : p1 = h.length := by
      simp only [snoc, Option.bind_eq_bind, Option.bind_eq_some_iff] at e1
      obtain ⟨b, hb, hc⟩ := e1
      simp only [create2, create1, Option.bind_eq_bind, Option.bind_eq_some_iff, Option.pure_def,
        Option.some.injEq, Prod.mk.injEq] at hc
      obtain ⟨_, _, _, _, _, h3⟩ := hc
      exact h3.symm
    have hn : Spec.nodes [l] = h.length := r.1.symm
    obtain ⟨h', p', e, hc, hv⟩ := ih h1' _ p1 r1 ⟨l.length, by simp, by simp [hp1, hn]⟩
    refine ⟨h', p', ?_, ?_, ?_⟩
    · simpa [List.foldlM_cons, e1] using e
    · rw [hc]; simp; omega
    · rw [hv]; simp

/-- C55. The loop that the default visitor emits for a sequence member visits every element of the
sequence exactly once, in append order, and terminates, whatever node the member points to. -/
theorem C55_visit_sequence (os : List (Op α)) (w : Spec.World α) (hw : Spec.run [] os = some w) :
    ∃ h, run [] os = some h ∧ visitSequence h none = some [] ∧
      ∀ l ∈ w, ∀ i (hi : i < l.length),
        visitSequence h (some l[i].1) = some (l.map Prod.snd) := by
  obtain ⟨h, e, r⟩ := represents_run represents_nil os hw
  refine ⟨h, e, rfl, fun l hl i hi => ?_⟩
  exact (r.2.2.2 l hl).visitSequence
    (List.Nodup.sublist ((List.sublist_flatten_of_mem hl).map _) r.2.1) (r.length_le hl) i hi

/-- Non-vacuity: two interleaved sequences, handles that are not the last node. -/
example : Spec.run [] [Op.new 'a', .app 0 'b', .new 'x', .app 0 'c', .app 2 'y', .app 1 'd'] =
    some [[(0, 'a'), (1, 'b'), (3, 'c'), (5, 'd')], [(2, 'x'), (4, 'y')]] := by decide

end Verif.RtList
