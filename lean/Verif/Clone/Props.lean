import Verif.Clone.Lemmas

/-!
# C51: copies and separated lists
-/

namespace Verif.Clone

open Verif.Grammar

variable {W : World}

/-- The rules are nodes. -/
def RulesOk (W : World) : Prop := ∀ r ∈ W.rules, r < W.heap.length

/-- Nodes that were there before derive the same. -/
theorem der_old (hc : Closed W) (hr : RulesOk W) {h : List Item} (hp : W.heap <+: h) {n : Nat} (hn : n < W.heap.length) {α : List Nat} :
    Der (on W h) n α ↔ Der W n α :=
  Der.transfer (W := W) (V := on W h) rfl hc (fun m hm => by
    obtain ⟨t, rfl⟩ := hp
    exact List.getElem?_append_left hm) hr hn

section inversion

variable {V : World} {n : Nat} {α : List Nat}

theorem alt_iff {l r} (hn : V.node n = some (.alt l r)) : Der V n α ↔ Der V l α ∨ Der V r α :=
  ⟨fun h => by cases h <;> simp_all, fun h => h.elim (.altL hn) (.altR hn)⟩

theorem cons_iff {l r} (hn : V.node n = some (.cons l r)) : Der V n α ↔ ∃ β γ, α = β ++ γ ∧ Der V l β ∧ Der V r γ := by
  constructor
  · intro h
    cases h
    case cons l' r' β γ h1 h2 h => rw [hn] at h; cases h; exact ⟨β, γ, rfl, h1, h2⟩
    all_goals simp_all
  · rintro ⟨β, γ, rfl, h1, h2⟩
    exact .cons hn h1 h2

theorem action_iff {i} (hn : V.node n = some (.action (some i))) : Der V n α ↔ Der V i α := ⟨fun h => by cases h <;> simp_all, .action hn⟩

theorem evolve_iff {i s} (hn : V.node n = some (.evolve i s)) : Der V n α ↔ Der V i α := ⟨fun h => by cases h <;> simp_all, .evolve hn⟩

theorem annot_iff {i} (hn : V.node n = some (.annot i)) : Der V n α ↔ Der V i α := ⟨fun h => by cases h <;> simp_all, .annot hn⟩

theorem cond_iff {i} (hn : V.node n = some (.cond i)) : Der V n α ↔ Der V i α := ⟨fun h => by cases h <;> simp_all, .cond hn⟩

theorem nonterm_iff {s} (hn : V.node n = some (.nonterm s)) : Der V n α ↔ Der V s α := ⟨fun h => by cases h <;> simp_all, .nonterm hn⟩

theorem inlined_iff {s} (hn : V.node n = some (.inlined (some s))) : Der V n α ↔ Der V s α := ⟨fun h => by cases h <;> simp_all, .inlined hn⟩

theorem not_inlined (hn : V.node n = some (.inlined none)) : ¬ Der V n α := fun h => by cases h <;> simp_all

theorem try0_iff {i} (hn : V.node n = some (.tryc i none)) : Der V n α ↔ Der V i α := ⟨fun h => by cases h <;> simp_all, .tryL hn⟩

theorem tryc_iff {l r} (hn : V.node n = some (.tryc l (some r))) : Der V n α ↔ Der V l α ∨ Der V r α :=
  ⟨fun h => by cases h <;> simp_all, fun h => h.elim (.tryL hn) (.tryR hn)⟩

end inversion

theorem Near.der (hc : Closed W) (hr : RulesOk W) {h : List Item} (hp : W.heap <+: h) {n c : Nat} (hn : Near W (on W h) n c) :
    ∀ α, Der (on W h) c α ↔ Der W n α := by
  induction hn with
  | single _ h2 _ => exact fun α => der_old hc hr hp (lt_of_node h2)
  | @nonterm n c s h1 h2 _ =>
    intro α
    rw [nonterm_iff h1, nonterm_iff h2]
    exact der_old hc hr hp (hc.sym _ _ (.inl h1))
  | @inlined n c s h1 h2 _ =>
    intro α
    cases s with
    | none => exact ⟨fun h => absurd h (not_inlined h2), fun h => absurd h (not_inlined h1)⟩
    | some s =>
      rw [inlined_iff h1, inlined_iff h2]
      exact der_old hc hr hp (hc.sym _ _ (.inr h1))
  | plus h1 h2 _ _ ih => intro α; simp only [plus_iff h1, plus_iff h2, ih]
  | star h1 h2 _ _ ih => intro α; simp only [star_iff h1, star_iff h2, ih]
  | action h1 h2 _ _ ih => intro α; rw [action_iff h1, action_iff h2, ih]
  | alt h1 h2 _ _ _ ih1 ih2 => intro α; rw [alt_iff h1, alt_iff h2, ih1, ih2]
  | cons h1 h2 _ _ _ ih1 ih2 => intro α; simp only [cons_iff h1, cons_iff h2, ih1, ih2]
  | evolve h1 h2 _ _ ih => intro α; rw [evolve_iff h1, evolve_iff h2, ih]
  | try0 h1 h2 _ _ ih => intro α; rw [try0_iff h1, try0_iff h2, ih]
  | tryc h1 h2 _ _ _ ih1 ih2 => intro α; rw [tryc_iff h1, tryc_iff h2, ih1, ih2]
  | annot h1 h2 _ _ ih => intro α; rw [annot_iff h1, annot_iff h2, ih]
  | cond h1 _ ih => intro α; rw [cond_iff h1, ih]

/-- C51: the copy derives the same as the item; what was there is not changed. -/
theorem C51_language (hc : Closed W) (hr : RulesOk W) {n c : Nat} {h : List Item} (hn : n < W.heap.length) (e : clone W.heap n = some (h, c)) :
    W.heap <+: h ∧ ∀ α, Der (on W h) c α ↔ Der W n α := by
  obtain ⟨h1, h2⟩ := visit_near hc _ (List.prefix_refl _) hn e
  exact ⟨h1, h2.der hc hr h1⟩

/-- C51, in part: the copy has nodes of the same kinds, and its nodes are new but for those that there is one each of.  Missing: conditions are lost
(`C51_fails_condition`). -/
theorem C51_copy_partial (hc : Closed W) {n c : Nat} {h : List Item} (hn : n < W.heap.length) (hcond : ¬ Conditional W n) (e : clone W.heap n = some (h, c)) :
    Copy W (on W h) n c := (visit_near hc _ (List.prefix_refl _) hn e).2.copy hcond

theorem Ordered.sub {n m : Nat} (ho : Ordered W n) (h : Part W n m) : Ordered W m := fun k l h1 h2 => ho k l (.head h h1) h2

theorem bare_sub {n m : Nat} (h : Part W n m) (hb : ¬ Bare W n) : ¬ Bare W m := fun ⟨k, h1, h2⟩ => hb ⟨k, .head h h1, h2⟩

theorem visit_total (hc : Closed W) (f : Nat) : ∀ {h : List Item} {n : Nat}, W.heap <+: h → n < W.heap.length → n < f → Ordered W n → ¬ Bare W n →
    ∃ h' c, visit h f n = some (h', c) := by
  induction f with
  | zero => intro h n _ _ hf; omega
  | succ f ih =>
    intro h n hp hn hf ho hb
    obtain ⟨it, hit⟩ : ∃ it, W.node n = some it := ⟨_, List.getElem?_eq_getElem hn⟩
    have hg : h[n]? = some it := get_pre hp hit
    have one : ∀ {g : List Item} {i : Nat}, W.heap <+: g → (∀ o, it ≠ .op o) → Part W n i → ∃ h' c, visit g f i = some (h', c) := by
      intro g i hq hno hi
      refine ih hq (hc.part _ _ hi) ?_ (ho.sub hi) (bare_sub hi hb)
      rcases ho n i .self hi with ⟨o, h1⟩ | h1
      · rw [hit] at h1; cases h1; exact absurd rfl (hno o)
      · omega
    have two : ∀ {l r : Nat}, (∀ o, it ≠ .op o) → Part W n l → Part W n r → ∃ g l' g' r', visit h f l = some (g, l') ∧ visit g f r = some (g', r') := by
      intro l r hno hl hr
      obtain ⟨g, l', h1⟩ := one hp hno hl
      obtain ⟨p, -⟩ := visit_near hc f hp (hc.part _ _ hl) h1
      obtain ⟨g', r', h2⟩ := one (hp.trans p) hno hr
      exact ⟨g, l', g', r', h1, h2⟩
    unfold visit
    rw [hg]
    cases it with
    | zero => exact ⟨_, _, rfl⟩
    | sym => exact ⟨_, _, rfl⟩
    | term => exact ⟨_, _, rfl⟩
    | op o => exact ⟨_, _, rfl⟩
    | nonterm s => exact ⟨_, _, rfl⟩
    | inlined s => exact ⟨_, _, rfl⟩
    | plus i => obtain ⟨g, j, e⟩ := one hp (by simp) (.plus hit); simp [e, alloc]
    | star i => obtain ⟨g, j, e⟩ := one hp (by simp) (.star hit); simp [e, alloc]
    | action i =>
      cases i with
      | none => exact absurd ⟨n, .self, hit⟩ hb
      | some i => obtain ⟨g, j, e⟩ := one hp (by simp) (.action hit); simp [e, alloc]
    | alt l r => obtain ⟨g, l', g', r', e, e'⟩ := two (by simp) (.altL hit) (.altR hit); simp [e, e', alloc]
    | cons l r => obtain ⟨g, l', g', r', e, e'⟩ := two (by simp) (.consL hit) (.consR hit); simp [e, e', alloc]
    | evolve i s => obtain ⟨g, j, e⟩ := one hp (by simp) (.evolve hit); simp [e, alloc]
    | tryc l r =>
      cases r with
      | none => obtain ⟨g, j, e⟩ := one hp (by simp) (.tryL hit); simp [e, alloc]
      | some r => obtain ⟨g, l', g', r', e, e'⟩ := two (by simp) (.tryL hit) (.tryR hit); simp [e, e', alloc]
    | annot i => obtain ⟨g, j, e⟩ := one hp (by simp) (.annot hit); simp [e, alloc]
    | cond i => exact one hp (by simp) (.cond hit)

/-- C51: there is a copy of each item without bare actions. -/
theorem C51_total_partial (hc : Closed W) {n : Nat} (hn : n < W.heap.length) (ho : Ordered W n) (hb : ¬ Bare W n) : ∃ h c, clone W.heap n = some (h, c) :=
  visit_total hc _ (List.prefix_refl _) hn (by omega) ho hb

theorem separated_iff {item sep : Nat} {α : List Nat} : Separated W item sep α ↔
    ∃ a, ∃ l : List (List Nat), Der W item a ∧ (∀ x ∈ l, ∃ s b, x = s ++ b ∧ Der W sep s ∧ Der W item b) ∧ α = a ++ l.flatten := by
  constructor
  · intro h
    induction h with
    | one h => exact ⟨_, [], h, by simp, by simp⟩
    | @more α β γ _ h2 h3 ih =>
      obtain ⟨a, l, h4, h5, rfl⟩ := ih
      refine ⟨a, l ++ [β ++ γ], h4, fun x hx => ?_, by simp⟩
      rcases List.mem_append.1 hx with hx | hx
      · exact h5 x hx
      · rw [List.mem_singleton] at hx
        exact ⟨β, γ, hx, h2, h3⟩
  · rintro ⟨a, l, h1, h2, rfl⟩
    have : ∀ l' : List (List Nat), (∀ x ∈ l', ∃ s b, x = s ++ b ∧ Der W sep s ∧ Der W item b) → ∀ w, Separated W item sep w → Separated W item sep (w ++ l'.flatten) := by
      intro l'
      induction l' with
      | nil => intro _ w hw; simpa using hw
      | cons x l' ih =>
        intro hx w hw
        obtain ⟨s, b, rfl, h3, h4⟩ := hx x (by simp)
        have := ih (fun y hy => hx y (by simp [hy])) (w ++ s ++ b) (.more hw h3 h4)
        simpa using this
    exact this l h2 a (.one h1)

/-- C51: `item @ sep` derives the sequences of items with separators between them; other items derive what they did. -/
theorem C51_separated (hc : Closed W) (hr : RulesOk W) {item sep k : Nat} {h : List Item} (hi : item < W.heap.length) (hs : sep < W.heap.length)
    (e : sepList W.heap item sep = some (h, k)) :
    (∀ α, Der (on W h) k α ↔ Separated W item sep α) ∧ ∀ n < W.heap.length, ∀ α, Der (on W h) n α ↔ Der W n α := by
  unfold sepList clone at e
  simp only [Option.bind_eq_bind, Option.bind_eq_some_iff, Option.pure_def, Option.some.injEq, Prod.exists] at e
  obtain ⟨g, s', h1, g', i', h2, h3⟩ := e
  obtain ⟨p1, n1⟩ := visit_near hc _ (List.prefix_refl _) hs h1
  obtain ⟨p2, n2⟩ := visit_near hc _ p1 hi h2
  simp only [alloc, List.append_assoc, List.cons_append, List.nil_append, Prod.mk.injEq] at h3
  obtain ⟨rfl, rfl⟩ := h3
  have hp : g' <+: g' ++ [.cons s' i', .star g'.length, .cons item (g' ++ [Item.cons s' i']).length] := List.prefix_append _ _
  have hp' : W.heap <+: g' ++ [.cons s' i', .star g'.length, .cons item (g' ++ [Item.cons s' i']).length] := (p1.trans p2).trans hp
  have d1 := (n1.mono (p2.trans hp)).der hc hr hp'
  have d2 := (n2.mono hp).der hc hr hp'
  have hk : (on W (g' ++ [.cons s' i', .star g'.length, .cons item (g' ++ [Item.cons s' i']).length])).node (g' ++ [Item.cons s' i', .star g'.length]).length =
      some (.cons item (g'.length + 1)) := by simp [node_on]
  have hst : (on W (g' ++ [.cons s' i', .star g'.length, .cons item (g' ++ [Item.cons s' i']).length])).node (g'.length + 1) = some (.star g'.length) := by
    simp [node_on]
  have hcs : (on W (g' ++ [.cons s' i', .star g'.length, .cons item (g' ++ [Item.cons s' i']).length])).node g'.length = some (.cons s' i') := by
    simp [node_on]
  refine ⟨fun α => ?_, fun n hn α => der_old hc hr hp' hn⟩
  rw [cons_iff hk, separated_iff]
  simp only [star_iff hst, cons_iff hcs, d1, d2, der_old hc hr hp' hi]
  constructor
  · rintro ⟨a, b, rfl, ha, l, hl, rfl⟩
    exact ⟨a, l, ha, hl, rfl⟩
  · rintro ⟨a, l, ha, hl, rfl⟩
    exact ⟨a, _, rfl, ha, l, hl, rfl⟩

/-! ### Examples -/

/-- The parts of an item. -/
def partsOf : Item → List Nat
  | .plus i => [i]
  | .star i => [i]
  | .action (some i) => [i]
  | .alt l r => [l, r]
  | .cons l r => [l, r]
  | .evolve i _ => [i]
  | .tryc t none => [t]
  | .tryc t (some c) => [t, c]
  | .annot i => [i]
  | .cond i => [i]
  | .op o => [o.base]
  | _ => []

theorem part_partsOf {n m : Nat} (h : Part W n m) : ∃ it, W.node n = some it ∧ m ∈ partsOf it := by
  cases h with
  | tryL h => rename_i r; cases r <;> exact ⟨_, h, by simp [partsOf]⟩
  | evolve h => exact ⟨_, h, by simp [partsOf]⟩
  | consL h => exact ⟨_, h, by simp [partsOf]⟩
  | consR h => exact ⟨_, h, by simp [partsOf]⟩
  | altL h => exact ⟨_, h, by simp [partsOf]⟩
  | altR h => exact ⟨_, h, by simp [partsOf]⟩
  | action h => exact ⟨_, h, by simp [partsOf]⟩
  | cond h => exact ⟨_, h, by simp [partsOf]⟩
  | annot h => exact ⟨_, h, by simp [partsOf]⟩
  | tryR h => exact ⟨_, h, by simp [partsOf]⟩
  | plus h => exact ⟨_, h, by simp [partsOf]⟩
  | star h => exact ⟨_, h, by simp [partsOf]⟩
  | opBase h => exact ⟨_, h, by simp [partsOf]⟩

/-- All parts and symbols come before the item. -/
def closedB (h : List Item) : Bool := (List.range h.length).all fun n => match h[n]? with
  | none => true
  | some (.nonterm s) => s < n
  | some (.inlined (some s)) => s < n
  | some it => (partsOf it).all (· < n)

theorem of_closedB (h : closedB W.heap = true) : Closed W ∧ ∀ n, Ordered W n := by
  have key : ∀ n m, Part W n m → m < n ∧ n < W.heap.length := by
    intro n m hp
    obtain ⟨it, h1, h2⟩ := part_partsOf hp
    have hn := lt_of_node h1
    have := List.all_eq_true.1 h n (List.mem_range.2 hn)
    unfold World.node at h1
    rw [h1] at this
    cases it <;> simp only [partsOf, List.not_mem_nil] at h2 <;> first | (simp at this; simp at h2; omega) | skip
    all_goals
      simp only [List.all_eq_true] at this
      exact ⟨by simpa using this m h2, hn⟩
  refine ⟨⟨fun n m hp => by have := key n m hp; omega, fun n s hs => ?_⟩, fun n m k _ hp => .inr (key m k hp).1⟩
  have hn : n < W.heap.length := hs.elim lt_of_node lt_of_node
  have := List.all_eq_true.1 h n (List.mem_range.2 hn)
  unfold World.node at hs
  rcases hs with hs | hs <;> rw [hs] at this <;> simp at this <;> omega

/-- Tokens A (1), B (2) and COMMA (3); `A [: .. :] | B+` (6), `COMMA` with a name (7); a condition (8), a bare action and A (10). -/
def sample : World where
  heap := [.zero, .term, .term, .term, .action (some 1), .plus 2, .alt 4 5, .annot 3, .cond 6, .action none, .cons 9 1]
  parsed := 11
  rules := []
  zero := 0
  terminals := [1, 2, 3]
  start := []
  bnf := fun _ => none

theorem sample_closed : Closed sample ∧ ∀ n, Ordered sample n := of_closedB (by decide +kernel)

theorem sample_rules : RulesOk sample := fun r hr => by simp [sample] at hr

example : clone sample.heap 6 = some (sample.heap ++ [.action (some 1), .plus 2, .alt 11 12], 13) := by decide +kernel

theorem in_le {n m : Nat} (h : closedB W.heap = true) (hi : In W n m) : m ≤ n := by
  induction hi with
  | self => exact Nat.le_refl _
  | @part m k _ hp ih => rcases (of_closedB h).2 m m k .self hp with ⟨o, ho⟩ | h1
                         · obtain ⟨it, h2, h3⟩ := part_partsOf hp
                           have := List.all_eq_true.1 h m (List.mem_range.2 (lt_of_node h2))
                           unfold World.node at ho
                           rw [ho] at this
                           simp only [List.all_eq_true] at this
                           unfold World.node at h2
                           rw [ho] at h2; cases h2
                           have := this k h3
                           simp at this
                           omega
                         · omega

theorem sample_plain : ¬ Conditional sample 6 ∧ ¬ Bare sample 6 := by
  refine ⟨fun ⟨m, i, h1, h2⟩ => ?_, fun ⟨m, h1, h2⟩ => ?_⟩
  · have := in_le (by decide +kernel) h1
    match m, this with
    | 0, _ | 1, _ | 2, _ | 3, _ | 4, _ | 5, _ | 6, _ => simp [World.node, sample] at h2
  · have := in_le (by decide +kernel) h1
    match m, this with
    | 0, _ | 1, _ | 2, _ | 3, _ | 4, _ | 5, _ | 6, _ => simp [World.node, sample] at h2

example : Copy sample (on sample (sample.heap ++ [.action (some 1), .plus 2, .alt 11 12])) 6 13 :=
  C51_copy_partial sample_closed.1 (by decide) sample_plain.1 (by decide +kernel)

example : ∃ h c, clone sample.heap 6 = some (h, c) := C51_total_partial sample_closed.1 (by decide) (sample_closed.2 6) sample_plain.2

/-- `(A [: .. :] | B+) @ COMMA` derives `A , B B`. -/
example : ∃ h k, sepList sample.heap 6 7 = some (h, k) ∧ Der (on sample h) k [1, 3, 2, 2] := by
  have e : sepList sample.heap 6 7 = some (sample.heap ++ [.annot 3, .action (some 1), .plus 2, .alt 12 13, .cons 11 14, .star 15, .cons 6 16], 17) := by decide +kernel
  refine ⟨_, _, e, ((C51_separated sample_closed.1 sample_rules (by decide) (by decide) e).1 _).2 ?_⟩
  have hA : Der sample 6 [1] := .altL (n := 6) (l := 4) (r := 5) rfl (.action (i := 1) rfl (.term rfl))
  have hB : Der sample 6 [2, 2] := .altR (n := 6) (l := 4) (r := 5) rfl (.plusS (α := [2]) (β := [2]) (i := 2) rfl (.term rfl) (.plus1 (i := 2) rfl (.term rfl)))
  have hC : Der sample 7 [3] := .annot (i := 3) rfl (.term rfl)
  exact .more (.one hA) hC hB

theorem copy_cond {V : World} {n c i : Nat} (h : Copy W V n c) (hn : W.node n = some (.cond i)) : ∃ j, V.node c = some (.cond j) := by
  cases h
  case cond => exact ⟨_, by assumption⟩
  case single it h1 h2 h3 => rw [hn] at h2; cases h2; cases h1
  all_goals simp_all

/-- The condition of `?[: .. :] (A [: .. :] | B+)` is not in the copy. -/
theorem C51_fails_condition : (∃ i, sample.node 8 = some (.cond i)) ∧ ∃ h c, clone sample.heap 8 = some (h, c) ∧ h = sample.heap ++ [.action (some 1), .plus 2, .alt 11 12] ∧
    c = 13 ∧ ¬ Copy sample (on sample h) 8 c := by
  refine ⟨⟨6, rfl⟩, _, _, by decide +kernel, rfl, rfl, fun h => ?_⟩
  obtain ⟨j, hj⟩ := copy_cond h (i := 6) rfl
  exact absurd hj (by simp [World.node, sample])

/-- No copy of `[: .. :] A`: the generator takes the top of an empty stack. -/
theorem C51_fails_bare_action : Closed sample ∧ Ordered sample 10 ∧ Der sample 10 [1] ∧ clone sample.heap 10 = none :=
  ⟨sample_closed.1, sample_closed.2 10, .cons (n := 10) (l := 9) (r := 1) (α := []) (β := [1]) rfl (.action0 rfl) (.term rfl), by decide +kernel⟩

end Verif.Clone
