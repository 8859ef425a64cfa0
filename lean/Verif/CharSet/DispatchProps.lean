import Verif.CharSet.Dispatch
import Verif.CharSet.Props

/-!
# Properties of the generated character dispatch (C12)
-/

namespace Verif.CharSet

/-- The ranges of a slice contain `x` with target `k`. -/
def Hits (seg : List ((Nat × Nat) × Nat)) (x k : Nat) : Prop :=
  ∃ p ∈ seg, p.1.1 ≤ x ∧ x < p.1.2 ∧ p.2 = k

/-- Overlapping ranges are the same entry. -/
def Coherent (seg : List ((Nat × Nat) × Nat)) : Prop :=
  ∀ p ∈ seg, ∀ q ∈ seg, ∀ x : Nat, p.1.1 ≤ x → x < p.1.2 → q.1.1 ≤ x → x < q.1.2 → p = q

theorem leaf_spec (a b k tmin tmax x : Nat) (h1 : tmin ≤ x) (h2 : x < tmax) :
    (leaf a b k tmin tmax).exec x = if a ≤ x ∧ x < b then some k else none := by
  unfold leaf
  grind [Code.exec, Cond.holds]

theorem codegen_spec : ∀ (seg : List ((Nat × Nat) × Nat)) (tmin tmax x : Nat), Coherent seg →
    seg.Pairwise (fun p q => p.1.1 ≤ q.1.1) → (∀ p ∈ seg, p.1.1 < p.1.2) → tmin ≤ x → x < tmax →
    ∀ k, (codegen seg tmin tmax).exec x = some k ↔ Hits seg x k := by
  intro seg tmin tmax
  induction seg, tmin, tmax using codegen.induct with
  | case1 tmin tmax => intro x _ _ _ _ _ k; simp [codegen, Code.exec, Hits]
  | case2 tmin tmax a b k =>
    intro x _ _ _ h1 h2 k'
    rw [codegen, leaf_spec a b k tmin tmax x h1 h2]
    simp only [Hits, List.mem_singleton, exists_eq_left]
    split <;> simp <;> omega
  | case3 tmin tmax p q l seg hnone =>
    intro x
    exfalso
    rw [List.getElem?_eq_none_iff] at hnone
    simp only [seg, List.length_cons] at hnone
    omega
  | case4 tmin tmax p q l seg m hm ih1 ih2 =>
    intro x hc hp hne h1 h2 k
    have hlen : 2 ≤ seg.length := by simp [seg]
    have hmm : m ∈ seg := List.mem_of_getElem? hm
    have hco : ∀ (l' : List ((Nat × Nat) × Nat)), (∀ p ∈ l', p ∈ seg) → Coherent l' :=
      fun l' h p hp q hq => hc p (h p hp) q (h q hq)
    have hcg : codegen seg tmin tmax = .ite (.lt m.1.1) (codegen (seg.take (seg.length / 2)) tmin m.1.1)
        (codegen (seg.drop (seg.length / 2)) m.1.1 tmax) := by
      show codegen (p :: q :: l) tmin tmax = _
      rw [codegen]
      have hm' : (p :: q :: l)[(p :: q :: l).length / 2]? = some m := hm
      rw [hm']
    show (codegen seg tmin tmax).exec x = some k ↔ Hits seg x k
    rw [hcg]
    have hp' : seg.Pairwise (fun p q => p.1.1 ≤ q.1.1) := hp
    -- the head of the upper half is m
    have hdrop : seg.drop (seg.length / 2) = m :: seg.drop (seg.length / 2 + 1) := by
      rw [List.getElem?_eq_some_iff] at hm
      obtain ⟨hlt, hm⟩ := hm
      rw [List.drop_eq_getElem_cons hlt, hm]
    have hsplit : seg = seg.take (seg.length / 2) ++ seg.drop (seg.length / 2) := (List.take_append_drop _ _).symm
    have hup : ∀ q ∈ seg.drop (seg.length / 2), m.1.1 ≤ q.1.1 := by
      intro q hq
      have hpd : (seg.drop (seg.length / 2)).Pairwise (fun p q => p.1.1 ≤ q.1.1) := hp'.sublist (List.drop_sublist _ _)
      rw [hdrop] at hq hpd
      rw [List.pairwise_cons] at hpd
      rcases List.mem_cons.mp hq with rfl | hq
      · exact Nat.le_refl _
      · exact hpd.1 q hq
    have hlow : ∀ q ∈ seg.take (seg.length / 2), q.1.1 ≤ m.1.1 := by
      intro q hq
      rw [hsplit, List.pairwise_append] at hp'
      exact hp'.2.2 q hq m (by rw [hdrop]; exact List.mem_cons_self)
    simp only [Code.exec, Cond.holds, decide_eq_true_eq]
    split
    · rename_i hx
      rw [ih1 x (hco _ fun p h => List.mem_of_mem_take h) (hp'.sublist (List.take_sublist _ _))
        (fun p h => hne p (List.mem_of_mem_take h)) h1 hx k]
      constructor
      · rintro ⟨p, hp, h⟩; exact ⟨p, List.mem_of_mem_take hp, h⟩
      · rintro ⟨p, hp, h⟩
        refine ⟨p, ?_, h⟩
        rw [hsplit, List.mem_append] at hp
        rcases hp with hp | hp
        · exact hp
        · have := hup p hp; omega
    · rename_i hx
      rw [ih2 x (hco _ fun p h => List.mem_of_mem_drop h) (hp'.sublist (List.drop_sublist _ _))
        (fun p h => hne p (List.mem_of_mem_drop h)) (by omega) h2 k]
      constructor
      · rintro ⟨p, hp, h⟩; exact ⟨p, List.mem_of_mem_drop hp, h⟩
      · rintro ⟨p, hp, h⟩
        refine ⟨p, ?_, h⟩
        have hp0 := hp
        rw [hsplit, List.mem_append] at hp
        rcases hp with hp | hp
        · have hl := hlow p hp
          have hmne := hne m hmm
          -- p reaches up to x, so it overlaps m at m's first character
          have : p = m := hc p hp0 m hmm m.1.1 (by omega) (by omega) (Nat.le_refl _) hmne
          rw [this, hdrop]; exact List.mem_cons_self
        · exact hp

/-- The transitions a DFA state may have: strict sets, and whenever two entries share a character they
are copies of each other (`NFA::dfa` may list a state's transitions twice). -/
structure Transitions (S : Nat) (tr : List (Seq × Nat)) : Prop where
  strict : ∀ p ∈ tr, WF S False 0 p.1.data
  disjoint : ∀ p ∈ tr, ∀ q ∈ tr, ∀ x, mem p.1.data x → mem q.1.data x → p = q

theorem wf_same {S n : Nat} {l : Ranges} (h : WF S False n l) :
    ∀ p ∈ l, ∀ q ∈ l, ∀ x : Nat, p.1 ≤ x → x < p.2 → q.1 ≤ x → x < q.2 → p = q := by
  induction h with
  | nil => intro p hp; simp at hp
  | cons h1 h2 h3 h4 ih =>
    intro p hp q hq x a1 a2 a3 a4
    rcases List.mem_cons.mp hp with rfl | hp' <;> rcases List.mem_cons.mp hq with rfl | hq'
    · rfl
    · have := (h4.bounds (x := x) ⟨q, hq', a3, a4⟩).1; simp only at a2; omega
    · have := (h4.bounds (x := x) ⟨p, hp', a1, a2⟩).1; simp only at a4; omega
    · exact ih p hp' q hq' x a1 a2 a3 a4

theorem strict_nonempty {S n : Nat} {l : Ranges} (h : WF S False n l) : ∀ p ∈ l, p.1 < p.2 := by
  induction h with
  | nil => intro p hp; simp at hp
  | cons h1 h2 h3 _ ih =>
    intro p hp
    rcases List.mem_cons.mp hp with rfl | hp
    · simp only; grind
    · exact ih p hp

theorem pairLe_trans (a b c : (Nat × Nat) × Nat) : pairLe a b = true → pairLe b c = true → pairLe a c = true := by
  simp only [pairLe, Bool.or_eq_true, Bool.and_eq_true, decide_eq_true_eq, beq_iff_eq]; omega

theorem pairLe_total (a b : (Nat × Nat) × Nat) : (pairLe a b || pairLe b a) = true := by
  simp only [pairLe, Bool.or_eq_true, Bool.and_eq_true, decide_eq_true_eq, beq_iff_eq]; omega

/-- **C12, sequence lexer.** For every character of the code space, the generated decision tree jumps to
state `k` iff a transition to `k` accepts the character, and to `_end` iff no transition accepts it. -/
theorem C12_seq_dispatch {S : Nat} (tr : List (Seq × Nat)) (h : Transitions S tr) (x : Nat) (hx : x < S) :
    (∀ k, (seqDispatch S tr).exec x = some k ↔ ∃ p ∈ tr, p.1.accepts x = true ∧ p.2 = k) ∧
    ((seqDispatch S tr).exec x = none ↔ ∀ p ∈ tr, p.1.accepts x = false) := by
  have main : ∀ k, (seqDispatch S tr).exec x = some k ↔ ∃ p ∈ tr, p.1.accepts x = true ∧ p.2 = k := by
    intro k
    have hperm := List.mergeSort_perm (tr.flatMap fun p => p.1.data.map fun r => (r, p.2)) pairLe
    have hsort := List.pairwise_mergeSort pairLe_trans pairLe_total
      (tr.flatMap fun p => p.1.data.map fun r => (r, p.2))
    have hmem : ∀ e, e ∈ (tr.flatMap fun p => p.1.data.map fun r => (r, p.2)).mergeSort pairLe ↔
        ∃ p ∈ tr, ∃ r ∈ p.1.data, (r, p.2) = e := by
      intro e; rw [hperm.mem_iff]; simp only [List.mem_flatMap, List.mem_map]
    unfold seqDispatch
    rw [codegen_spec _ 0 S x ?_ ?_ ?_ (Nat.zero_le _) hx k]
    · constructor
      · rintro ⟨e, he, h1, h2, rfl⟩
        obtain ⟨p, hp, r, hr, rfl⟩ := (hmem e).mp he
        exact ⟨p, hp, (accepts_iff (h.strict p hp) x).mpr ⟨r, hr, h1, h2⟩, rfl⟩
      · rintro ⟨p, hp, hac, rfl⟩
        obtain ⟨r, hr, h1, h2⟩ := (accepts_iff (h.strict p hp) x).mp hac
        exact ⟨(r, p.2), (hmem _).mpr ⟨p, hp, r, hr, rfl⟩, h1, h2, rfl⟩
    · intro e he f hf y h1 h2 h3 h4
      obtain ⟨p, hp, r, hr, rfl⟩ := (hmem e).mp he
      obtain ⟨q, hq, s, hs, rfl⟩ := (hmem f).mp hf
      simp only at h1 h2 h3 h4
      have := h.disjoint p hp q hq y ⟨r, hr, h1, h2⟩ ⟨s, hs, h3, h4⟩
      subst this
      rw [wf_same (h.strict p hp) r hr s hs y h1 h2 h3 h4]
    · refine hsort.imp fun {a b} hab => ?_
      simp only [pairLe, Bool.or_eq_true, Bool.and_eq_true, decide_eq_true_eq, beq_iff_eq] at hab
      omega
    · intro e he
      obtain ⟨p, hp, r, hr, rfl⟩ := (hmem e).mp he
      exact strict_nonempty (h.strict p hp) r hr
  refine ⟨main, ?_⟩
  constructor
  · intro hn p hp
    rw [← Bool.not_eq_true]
    intro hac
    have := (main p.2).mpr ⟨p, hp, hac, rfl⟩
    rw [hn] at this
    cases this
  · intro hall
    cases he : (seqDispatch S tr).exec x with
    | none => rfl
    | some k =>
      obtain ⟨p, hp, hac, _⟩ := (main k).mp he
      rw [hall p hp] at hac
      cases hac

/-- **C12, table lexer.** With pairwise disjoint sets the printed `switch` has no repeated case label and
jumps to state `k` iff the transition to `k` accepts the character, to `_end` iff none does. -/
theorem C12_table_dispatch {S : Nat} (tr : List (Table S × Nat))
    (hd : tr.Pairwise fun p q => ∀ i, ¬ (p.1.data i = true ∧ q.1.data i = true)) :
    switchValid (tableDispatch tr) ∧ ∀ x, x < S →
      (∀ k, switchExec x (tableDispatch tr) = some k ↔ ∃ p ∈ tr, p.1.accepts x = some true ∧ p.2 = k) ∧
      (switchExec x (tableDispatch tr) = none ↔ ∀ p ∈ tr, p.1.accepts x = some false) := by
  have hlab : ∀ (p : Table S × Nat) (x : Nat),
      x ∈ ((List.finRange S).filter fun i => p.1.data i).map Fin.val ↔ p.1.accepts x = some true := by
    intro p x
    simp only [List.mem_map, List.mem_filter, List.mem_finRange, true_and, Table.accepts]
    constructor
    · rintro ⟨i, hi, rfl⟩; simp [hi]
    · intro h
      split at h
      · rename_i hx; exact ⟨⟨x, hx⟩, by simpa using h, rfl⟩
      · cases h
  have hne : ∀ (p : Table S × Nat) (x : Nat), p.1.accepts x = some true → p.1.empty = false := by
    intro p x h
    simp only [Table.accepts] at h
    split at h
    · rename_i hx
      simp only [Option.some.injEq] at h
      rw [← Bool.not_eq_true]
      intro he
      simp only [Table.empty, List.all_eq_true, List.mem_finRange, true_imp_iff, beq_iff_eq] at he
      rw [he] at h; cases h
    · cases h
  constructor
  · unfold switchValid tableDispatch
    induction tr with
    | nil => simp
    | cons p tr ih =>
      rw [List.pairwise_cons] at hd
      rw [List.filter_cons]
      split
      · simp only [List.map_cons, List.flatMap_cons, List.nodup_append]
        refine ⟨?_, ih hd.2, ?_⟩
        · have hnd : ((List.finRange S).filter fun i => p.1.data i).Nodup :=
            (List.nodup_finRange S).sublist List.filter_sublist
          exact List.Pairwise.map (R := fun a b : Fin S => a ≠ b) Fin.val (fun a b h e => h (Fin.ext e)) hnd
        · intro a ha b hb hab
          subst hab
          rw [List.mem_flatMap] at hb
          obtain ⟨g, hg, hag⟩ := hb
          rw [List.mem_map] at hg
          obtain ⟨q, hq, rfl⟩ := hg
          have h1 := (hlab p a).mp ha
          have h2 := (hlab q a).mp hag
          simp only [Table.accepts] at h1 h2
          split at h1
          · rename_i hx
            rw [dif_pos hx] at h2
            simp only [Option.some.injEq] at h1 h2
            exact hd.1 q (List.mem_filter.mp hq).1 ⟨a, hx⟩ ⟨h1, h2⟩
          · cases h1
      · exact ih hd.2
  · intro x hx
    have key : ∀ k, switchExec x (tableDispatch tr) = some k ↔ ∃ p ∈ tr, p.1.accepts x = some true ∧ p.2 = k := by
      intro k
      unfold switchExec tableDispatch
      induction tr with
      | nil => simp
      | cons p tr ih =>
        rw [List.pairwise_cons] at hd
        rw [List.filter_cons]
        by_cases hp : p.1.accepts x = some true
        · rw [if_pos (by simp [hne p x hp]), List.map_cons, List.find?_cons_of_pos (by simpa using (hlab p x).mpr hp)]
          simp only [Option.map_some, Option.some.injEq]
          constructor
          · rintro rfl; exact ⟨p, List.mem_cons_self, hp, rfl⟩
          · rintro ⟨q, hq, hq', rfl⟩
            rcases List.mem_cons.mp hq with rfl | hq
            · rfl
            · exfalso
              simp only [Table.accepts, dif_pos hx, Option.some.injEq] at hp hq'
              exact hd.1 q hq ⟨x, hx⟩ ⟨hp, hq'⟩
        · have hskip : ∀ k', (∃ q ∈ p :: tr, q.1.accepts x = some true ∧ q.2 = k') ↔
              ∃ q ∈ tr, q.1.accepts x = some true ∧ q.2 = k' := by
            intro k'
            constructor
            · rintro ⟨q, hq, h⟩
              rcases List.mem_cons.mp hq with rfl | hq
              · exact absurd h.1 hp
              · exact ⟨q, hq, h⟩
            · rintro ⟨q, hq, h⟩; exact ⟨q, List.mem_cons_of_mem _ hq, h⟩
          rw [hskip]
          split
          · rw [List.map_cons, List.find?_cons_of_neg (by
              rw [List.contains_iff_mem]; exact fun h => hp ((hlab p x).mp h))]
            exact ih hd.2
          · exact ih hd.2
    refine ⟨key, ?_⟩
    have hacc : ∀ p : Table S × Nat, p.1.accepts x = some true ∨ p.1.accepts x = some false := by
      intro p
      simp only [Table.accepts, dif_pos hx, Option.some.injEq]
      cases p.1.data ⟨x, hx⟩ <;> simp
    constructor
    · intro hn p hp
      rcases hacc p with h | h
      · have := (key p.2).mpr ⟨p, hp, h, rfl⟩
        rw [hn] at this; cases this
      · exact h
    · intro hall
      cases he : switchExec x (tableDispatch tr) with
      | none => rfl
      | some k =>
        obtain ⟨p, hp, hac, _⟩ := (key k).mp he
        rw [hall p hp] at hac
        cases hac

/-- Non-trivial case: letters to state 1 (listed twice), digits and the last character to state 2. -/
theorem sampleTransitions : Transitions 128 [(⟨[(65, 91), (97, 123)], false⟩, 1), (⟨[(48, 58), (127, 128)], false⟩, 2),
    (⟨[(65, 91), (97, 123)], false⟩, 1)] := by
  have w1 : WF 128 False 0 [(65, 91), (97, 123)] :=
    .cons (by omega) (by omega) (by omega) (.cons (by omega) (by omega) (by omega) .nil)
  have w2 : WF 128 False 0 [(48, 58), (127, 128)] :=
    .cons (by omega) (by omega) (by omega) (.cons (by omega) (by omega) (by omega) .nil)
  constructor
  · intro p hp
    simp only [List.mem_cons, List.not_mem_nil, or_false] at hp
    rcases hp with rfl | rfl | rfl
    · exact w1
    · exact w2
    · exact w1
  · intro p hp q hq x h1 h2
    simp only [List.mem_cons, List.not_mem_nil, or_false] at hp hq
    rcases hp with rfl | rfl | rfl <;> rcases hq with rfl | rfl | rfl <;> simp_all <;> omega

example : (seqDispatch 128 [(⟨[(65, 91), (97, 123)], false⟩, 1), (⟨[(48, 58), (127, 128)], false⟩, 2),
    (⟨[(65, 91), (97, 123)], false⟩, 1)]).exec 127 = some 2 :=
  ((C12_seq_dispatch _ sampleTransitions 127 (by omega)).1 2).mpr
    ⟨_, List.mem_cons_of_mem _ List.mem_cons_self, by decide +kernel, rfl⟩

/-- Non-trivial tables: even characters to state 1, odd ones to state 2. -/
example : ([(⟨fun i => i.val % 2 == 0, false⟩, 1), (⟨fun i => i.val % 2 == 1, false⟩, 2)] : List (Table 128 × Nat)).Pairwise
    fun p q => ∀ i, ¬ (p.1.data i = true ∧ q.1.data i = true) := by
  simp only [List.pairwise_cons, List.mem_singleton, forall_eq, List.not_mem_nil, beq_iff_eq]
  exact ⟨fun i h => by omega, by simp⟩

end Verif.CharSet
