import Verif.Lexer.Spec
import Verif.Auto.QuotientLemmas
import Verif.CharSet.DispatchProps

set_option linter.unusedSectionVars false

namespace Verif.Lexer

open Verif.Auto

variable {S P C : Type} [CharSetLike C]

/-- Acceptance from a state. -/
def ActsFrom (d : DFA C) (q : Nat) (w : List Nat) (a : Nat) : Prop := a ≠ 0 ∧ ∃ k, Run d.rules q w k ∧ d.accept[k]? = some a

/-- The dispatch does what the transitions say. -/
def StepOk (step : List (C × Nat) → Nat → Option Nat) (d : DFA C) : Prop :=
  ∀ es ∈ d.rules, ∀ x, x < CharSetLike.size C → ∀ j, step es x = some j ↔ ∃ c, (c, j) ∈ es ∧ CharSetLike.accepts c x = true

structure LongestFrom (d : DFA C) (q : Nat) (w : List Nat) (k a : Nat) : Prop where
  le : k ≤ w.length
  acts : ActsFrom d q (w.take k) a
  max : ∀ k' ≤ w.length, k < k' → ∀ a', ¬ ActsFrom d q (w.take k') a'

def NoneFrom (d : DFA C) (q : Nat) (w : List Nat) : Prop := ∀ k ≤ w.length, ∀ a, ¬ ActsFrom d q (w.take k) a

theorem actsFrom_nil {d : DFA C} (hd : d.Wf) {q a b : Nat} (h : d.accept[q]? = some a) : ActsFrom d q [] b ↔ b = a ∧ a ≠ 0 := by
  constructor
  · rintro ⟨hb, k, hk, hka⟩
    rw [run_nil_iff hd.noEps] at hk
    subst hk
    rw [h] at hka; cases hka; exact ⟨rfl, hb⟩
  · rintro ⟨rfl, hb⟩; exact ⟨hb, q, .nil, h⟩

theorem actsFrom_cons {d : DFA C} (hd : d.Wf) {q j x : Nat} {c : C} (he : HasEdge d.rules q c j) (hx : CharSetLike.accepts c x = true)
    {w : List Nat} {a : Nat} : ActsFrom d q (x :: w) a ↔ ActsFrom d j w a := by
  constructor
  · rintro ⟨ha, k, hk, hka⟩
    rw [run_cons_iff hd.noEps] at hk
    obtain ⟨c', j', he', hx', hr⟩ := hk
    rw [hd.det _ _ _ _ _ _ he he' hx hx']
    exact ⟨ha, k, hr, hka⟩
  · rintro ⟨ha, k, hk, hka⟩
    exact ⟨ha, k, .chr he (hd.noEps _ _ _ he) hx hk, hka⟩

theorem actsFrom_stuck {d : DFA C} (hd : d.Wf) {q x : Nat} {es : List (C × Nat)} (h : d.rules[q]? = some es)
    (hs : ∀ c j, (c, j) ∈ es → CharSetLike.accepts c x = false) {w : List Nat} {a : Nat} : ¬ ActsFrom d q (x :: w) a := by
  rintro ⟨_, k, hk, _⟩
  rw [run_cons_iff hd.noEps] at hk
  obtain ⟨c', j', ⟨es', he', hm⟩, hx', _⟩ := hk
  rw [h] at he'; cases he'
  rw [hs _ _ hm] at hx'; cases hx'

/-- How the result from the next state carries over: the match found one character later. -/
theorem longest_shift {d : DFA C} (hd : d.Wf) {q j x : Nat} {c : C} (he : HasEdge d.rules q c j) (hx : CharSetLike.accepts c x = true)
    {w : List Nat} {k a : Nat} (h : LongestFrom d j w k a) : LongestFrom d q (x :: w) (k + 1) a := by
  refine ⟨by simp; exact h.le, by rw [List.take_succ_cons, actsFrom_cons hd he hx]; exact h.acts, ?_⟩
  intro k' hk' hlt a'
  obtain ⟨k', rfl⟩ : ∃ m, k' = m + 1 := ⟨k' - 1, by omega⟩
  rw [List.take_succ_cons, actsFrom_cons hd he hx]
  exact h.max k' (by simpa using hk') (by omega) a'

theorem none_shift {d : DFA C} (hd : d.Wf) {q j x b : Nat} {c : C} (he : HasEdge d.rules q c j) (hx : CharSetLike.accepts c x = true)
    {w : List Nat} (h : NoneFrom d j w) (hb : d.accept[q]? = some b) :
    (b ≠ 0 → LongestFrom d q (x :: w) 0 b) ∧ (b = 0 → NoneFrom d q (x :: w)) := by
  have key : ∀ k' ≤ (x :: w).length, 0 < k' → ∀ a', ¬ ActsFrom d q ((x :: w).take k') a' := by
    intro k' hk' hlt a'
    obtain ⟨k', rfl⟩ : ∃ m, k' = m + 1 := ⟨k' - 1, by omega⟩
    rw [List.take_succ_cons, actsFrom_cons hd he hx]
    exact h k' (by simpa using hk') a'
  constructor
  · intro hb0
    exact ⟨by omega, by rw [List.take_zero, actsFrom_nil hd hb]; exact ⟨rfl, hb0⟩, key⟩
  · intro hb0 k' hk' a'
    rcases Nat.eq_zero_or_pos k' with rfl | hp
    · rw [List.take_zero, actsFrom_nil hd hb]; exact fun h => h.2 hb0
    · exact key k' hk' hp a'

theorem stuck_here {d : DFA C} (hd : d.Wf) {q b : Nat} {w : List Nat} (hb : d.accept[q]? = some b)
    (hs : ∀ x v, w = x :: v → ∃ es, d.rules[q]? = some es ∧ ∀ c j, (c, j) ∈ es → CharSetLike.accepts c x = false) :
    (b ≠ 0 → LongestFrom d q w 0 b) ∧ (b = 0 → NoneFrom d q w) := by
  have key : ∀ k' ≤ w.length, 0 < k' → ∀ a', ¬ ActsFrom d q (w.take k') a' := by
    intro k' hk' hlt a'
    cases w with
    | nil => simp at hk'; omega
    | cons x v =>
      obtain ⟨es, h1, h2⟩ := hs x v rfl
      obtain ⟨k', rfl⟩ : ∃ m, k' = m + 1 := ⟨k' - 1, by omega⟩
      rw [List.take_succ_cons]
      exact actsFrom_stuck hd h1 h2
  constructor
  · intro hb0
    exact ⟨by omega, by rw [List.take_zero, actsFrom_nil hd hb]; exact ⟨rfl, hb0⟩, key⟩
  · intro hb0 k' hk' a'
    rcases Nat.eq_zero_or_pos k' with rfl | hp
    · rw [List.take_zero, actsFrom_nil hd hb]; exact fun h => h.2 hb0
    · exact key k' hk' hp a'

theorem run_spec {it : Iter S P} {step : List (C × Nat) → Nat → Option Nat} {d : DFA C} (hd : d.Wf) (hstep : StepOk step d) (w : List Nat) :
    ∀ (fuel q : Nat) (s : S) (lpos : P) (lstate : Nat), q < d.nstates → Stream it s w → (∀ x ∈ w, x < CharSetLike.size C) → w.length < fuel →
      ∃ r, run it step d fuel q s lpos lstate = some r ∧
        ((∃ k s', Reads it s (w.take k) s' ∧ r.lpos = it.plain s' ∧ LongestFrom d q w k r.lstate) ∨
         (r.lpos = lpos ∧ r.lstate = lstate ∧ NoneFrom d q w)) := by
  induction w with
  | nil =>
    intro fuel q s lpos lstate hq ⟨e, hr, he⟩ _ hf
    obtain ⟨fuel, rfl⟩ : ∃ m, fuel = m + 1 := ⟨fuel - 1, by omega⟩
    cases hr
    have ha : d.accept[q]? = some (d.accept[q]'(by rw [hd.accept]; exact hq)) := List.getElem?_eq_getElem _
    have hes : d.rules[q]? = some (d.rules[q]'(by rw [hd.rules]; exact hq)) := List.getElem?_eq_getElem _
    generalize d.accept[q]'(by rw [hd.accept]; exact hq) = a at ha
    generalize d.rules[q]'(by rw [hd.rules]; exact hq) = es at hes
    obtain ⟨k1, k2⟩ := stuck_here hd (w := []) ha (by simp)
    refine ⟨⟨s, if a ≠ 0 then it.plain s else lpos, if a ≠ 0 then a else lstate⟩, by simp [run, ha, hes, he], ?_⟩
    by_cases h0 : a = 0
    · exact Or.inr ⟨by simp [h0], by simp [h0], k2 h0⟩
    · simp only [ne_eq, h0, not_false_eq_true, if_true]; exact Or.inl ⟨0, s, .nil, rfl, k1 h0⟩
  | cons x w ih =>
    intro fuel q s lpos lstate hq ⟨e, hr, he⟩ hw hf
    obtain ⟨fuel, rfl⟩ : ∃ m, fuel = m + 1 := ⟨fuel - 1, by omega⟩
    cases hr with
    | @cons _ _ s' _ _ hn hx hr =>
      have ha : d.accept[q]? = some (d.accept[q]'(by rw [hd.accept]; exact hq)) := List.getElem?_eq_getElem _
      have hes : d.rules[q]? = some (d.rules[q]'(by rw [hd.rules]; exact hq)) := List.getElem?_eq_getElem _
      generalize d.accept[q]'(by rw [hd.accept]; exact hq) = a at ha
      generalize d.rules[q]'(by rw [hd.rules]; exact hq) = es at hes
      have hst := hstep es (List.mem_of_getElem? hes) x (hw x List.mem_cons_self)
      cases hj : step es x with
      | none =>
        have hs : ∀ c j, (c, j) ∈ es → CharSetLike.accepts c x = false := by
          intro c j hm
          cases hc : CharSetLike.accepts c x
          · rfl
          · have := (hst j).mpr ⟨c, hm, hc⟩; rw [hj] at this; cases this
        obtain ⟨k1, k2⟩ := stuck_here hd (w := x :: w) ha (by
          intro y v hy; cases hy; exact ⟨es, hes, hs⟩)
        refine ⟨⟨s', if a ≠ 0 then it.plain s else lpos, if a ≠ 0 then a else lstate⟩, by simp [run, ha, hes, hn, hx, hj], ?_⟩
        by_cases h0 : a = 0
        · exact Or.inr ⟨by simp [h0], by simp [h0], k2 h0⟩
        · simp only [ne_eq, h0, not_false_eq_true, if_true]; exact Or.inl ⟨0, s, .nil, rfl, k1 h0⟩
      | some j =>
        obtain ⟨c, hm, hc⟩ := (hst j).mp hj
        have hedge : HasEdge d.rules q c j := ⟨es, hes, hm⟩
        obtain ⟨r, r1, r2⟩ := ih fuel j s' (if a ≠ 0 then it.plain s else lpos) (if a ≠ 0 then a else lstate)
          (hd.target _ _ _ hedge) ⟨e, hr, he⟩ (fun y hy => hw y (List.mem_cons_of_mem _ hy)) (by simp at hf; omega)
        refine ⟨r, by simp [run, ha, hes, hn, hx, hj] at r1 ⊢; exact r1, ?_⟩
        rcases r2 with ⟨k, s2, h1, h2, h3⟩ | ⟨h1, h2, h3⟩
        · exact Or.inl ⟨k + 1, s2, by rw [List.take_succ_cons]; exact .cons hn hx h1, h2, longest_shift hd hedge hc h3⟩
        · obtain ⟨k1, k2⟩ := none_shift hd hedge hc h3 ha
          by_cases h0 : a = 0
          · simp only [h0, ne_eq, not_true_eq_false, if_false] at h1 h2; exact Or.inr ⟨h1, h2, k2 h0⟩
          · simp only [ne_eq, h0, not_false_eq_true, if_true] at h1 h2
            exact Or.inl ⟨0, s, .nil, h1, by rw [h2]; exact k1 h0⟩

theorem stepRules_ok {d : DFA C} (hd : d.Wf) : StepOk stepRules d := by
  intro es hes x _ j
  obtain ⟨i, hi⟩ := List.mem_iff_getElem?.mp hes
  have key : ∀ l : List (C × Nat), (∀ e ∈ l, e ∈ es) → (stepRules l x = some j ↔ ∃ c, (c, j) ∈ l ∧ CharSetLike.accepts c x = true) := by
    intro l
    induction l with
    | nil => intro _; simp [stepRules]
    | cons e l ih =>
      intro hsub
      obtain ⟨c, k⟩ := e
      have ih := ih fun e he => hsub e (List.mem_cons_of_mem _ he)
      simp only [stepRules]
      split
      · rename_i hc
        constructor
        · intro h; cases h; exact ⟨c, List.mem_cons_self, hc⟩
        · rintro ⟨c', hm, hc'⟩
          rw [hd.det i c k c' j x ⟨es, hi, hsub _ List.mem_cons_self⟩ ⟨es, hi, hsub _ hm⟩ hc hc']
      · rename_i hc
        rw [ih]
        constructor
        · rintro ⟨c', hm, hc'⟩; exact ⟨c', List.mem_cons_of_mem _ hm, hc'⟩
        · rintro ⟨c', hm, hc'⟩
          rcases List.mem_cons.mp hm with heq | hm
          · cases heq; exact absurd hc' hc
          · exact ⟨c', hm, hc'⟩
  exact key es fun _ h => h

theorem pairwise_eq {α β : Type} {f : α → β} {l : List α} (h : l.Pairwise fun a b => f a ≠ f b) {a b : α} (ha : a ∈ l) (hb : b ∈ l)
    (hab : f a = f b) : a = b := by
  induction l with
  | nil => cases ha
  | cons x l ih =>
    obtain ⟨h1, h2⟩ := List.pairwise_cons.mp h
    rcases List.mem_cons.mp ha with e1 | ha' <;> rcases List.mem_cons.mp hb with e2 | hb'
    · rw [e1, e2]
    · rw [e1] at hab; exact absurd hab (h1 b hb')
    · rw [e2] at hab; exact absurd hab.symm (h1 a ha')
    · exact ih h2 ha' hb'

open Verif.CharSet in
theorem seqStep_ok {N : Nat} [NeZero N] {d : DFA (SeqCS N)} (hd : d.Wf) (ho : OnePer d.rules) : StepOk (seqStep N) d := by
  intro es hes x hx j
  obtain ⟨i, hi⟩ := List.mem_iff_getElem?.mp hes
  have ht : Transitions N (es.map fun e => (e.1.s, e.2)) := by
    refine ⟨?_, ?_⟩
    · intro p hp
      obtain ⟨e, _, rfl⟩ := List.mem_map.mp hp
      exact e.1.wf
    · intro p hp q hq y h1 h2
      obtain ⟨a, ha, rfl⟩ := List.mem_map.mp hp
      obtain ⟨b, hb, rfl⟩ := List.mem_map.mp hq
      have := hd.det i a.1 a.2 b.1 b.2 y ⟨es, hi, ha⟩ ⟨es, hi, hb⟩ ((seqCS_accepts a.1 y).mpr h1) ((seqCS_accepts b.1 y).mpr h2)
      rw [pairwise_eq (ho es hes) ha hb this]
  rw [seqStep, (C12_seq_dispatch _ ht x hx).1 j]
  constructor
  · rintro ⟨p, hp, h1, h2⟩
    obtain ⟨e, he, rfl⟩ := List.mem_map.mp hp
    exact ⟨e.1, by cases h2; exact he, h1⟩
  · rintro ⟨c, hm, hc⟩
    exact ⟨(c.s, j), List.mem_map.mpr ⟨(c, j), hm, rfl⟩, hc, rfl⟩

open Verif.CharSet in
theorem table_disjoint {N : Nat} {d : DFA (Table N)} (hd : d.Wf) (ho : OnePer d.rules) {es : List (Table N × Nat)} (hes : es ∈ d.rules) :
    es.Pairwise fun p q => ∀ i, ¬ (p.1.data i = true ∧ q.1.data i = true) := by
  obtain ⟨i, hi⟩ := List.mem_iff_getElem?.mp hes
  have hsub : ∀ e ∈ es, e ∈ es := fun _ h => h
  have acc : ∀ (c : Table N) (k : Fin N), c.data k = true → CharSetLike.accepts c k.val = true := by
    intro c k h
    show (c.accepts k.val == some true) = true
    simp [Table.accepts, h]
  refine (List.Pairwise.and_mem.mp (ho es hes)).imp ?_
  rintro p q ⟨hp, hq, hne⟩ k ⟨h1, h2⟩
  exact hne (hd.det i p.1 p.2 q.1 q.2 k.val ⟨es, hi, hp⟩ ⟨es, hi, hq⟩ (acc _ _ h1) (acc _ _ h2))

open Verif.CharSet in
theorem tableStep_ok {N : Nat} {d : DFA (Table N)} (hd : d.Wf) (ho : OnePer d.rules) : StepOk tableStep d := by
  intro es hes x hx j
  rw [tableStep, ((C12_table_dispatch es (table_disjoint hd ho hes)).2 x hx).1 j]
  constructor
  · rintro ⟨p, hp, h1, rfl⟩
    exact ⟨p.1, hp, by show (p.1.accepts x == some true) = true; simp [h1]⟩
  · rintro ⟨c, hm, hc⟩
    exact ⟨(c, j), hm, by simpa [CharSetLike.accepts] using hc, rfl⟩

/-- The iterator remembered whole. -/
def whole (it : Iter S P) : Iter S S := ⟨it.hasNext, it.next, id, fun _ p => p⟩

theorem whole_reads {it : Iter S P} {s e : S} {w : List Nat} : Reads (whole it) s w e ↔ Reads it s w e := by
  constructor
  · intro h
    induction h with
    | nil => exact .nil
    | cons a b _ ih => exact .cons a b ih
  · intro h
    induction h with
    | nil => exact .nil
    | cons a b _ ih => exact .cons (it := whole it) a b ih

theorem nextLoop_eq {it : Iter S P} {d : DFA C} (fuel : Nat) :
    ∀ (q : Nat) (s npos : S) (l : Nat) (r : Stop S S), run (whole it) stepRules d fuel q s npos l = some r →
      nextLoop it d fuel q s npos (if l = 0 then none else some l) = some (r.lpos, if r.lstate = 0 then none else some r.lstate) := by
  induction fuel with
  | zero => intro q s npos l r h; simp [run] at h
  | succ fuel ih =>
    intro q s npos l r h
    simp only [run, Option.bind_eq_bind, Option.bind_eq_some_iff] at h
    obtain ⟨a, ha, es, hes, h⟩ := h
    have eqa : (if a ≠ 0 then some a else if l = 0 then none else some l) =
        if (if a ≠ 0 then a else l) = 0 then none else some (if a ≠ 0 then a else l) := by
      by_cases h0 : a = 0 <;> simp [h0]
    simp only [nextLoop, ha, hes, Option.bind_eq_bind, Option.bind_some, eqa]
    by_cases hn : it.hasNext s = true
    · have hn' : (whole it).hasNext s = true := hn
      rw [if_pos hn'] at h
      rw [if_pos hn]
      have e2 : (whole it).next = it.next := rfl
      simp only [e2, Option.bind_eq_some_iff] at h
      obtain ⟨⟨chr, s'⟩, hx, h⟩ := h
      simp only [hx, Option.bind_some]
      cases hj : stepRules es chr with
      | none =>
        rw [hj] at h
        simp only [Option.pure_def, Option.some.injEq] at h ⊢
        subst h
        rfl
      | some j =>
        rw [hj] at h
        exact ih j s' _ _ r h
    · have hn' : ¬ (whole it).hasNext s = true := hn
      rw [if_neg hn'] at h
      rw [if_neg hn]
      simp only [Option.pure_def, Option.some.injEq] at h ⊢
      subst h
      rfl

theorem longest_of_from {d : DFA C} {w : List Nat} {k a : Nat} (h : LongestFrom d 0 w k a) : Longest d w k a :=
  ⟨h.le, h.acts, fun k' h1 h2 ⟨a', h3⟩ => h.max k' h1 h2 a' h3⟩

theorem noMatch_of_from {d : DFA C} {w : List Nat} (h : NoneFrom d 0 w) : NoMatch d w := fun k hk ⟨a, ha⟩ => h k hk a ha

end Verif.Lexer
