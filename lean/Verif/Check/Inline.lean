import Verif.Check.Model
import Verif.Check.Spec
import Verif.Gen.Total
import Verif.Grammar.WfCheck
import Verif.Grammar.BnfProps
import Verif.Grammar.FirstSound

/-! # Lemmas about `InlineChecker` (for C42) -/

namespace Verif.Check

open Verif.Grammar

variable {W : World}

/-- The state in which the rule of an inlined symbol is visited. -/
def Inl.into (c : Inl) (W : World) (n s : Nat) : Inl :=
  { c with visited := n :: c.visited, visiting := s :: c.visiting, errors := c.errors + if isOpSym W s then 1 else 0 }

theorem inl_inv {f n : Nat} {c c' : Inl} {t : Option Nat} (h : inl W (f + 1) n c = some (t, c')) :
    (t = none ∧ c' = c ∧ (∀ m, Part W n m → ∃ o, W.node n = some (.op o)) ∧ ∀ s, W.node n = some (.inlined (some s)) → n ∈ c.cut) ∨
    ((∀ s, W.node n ≠ some (.inlined s)) ∧ ((∃ i, Part W n i ∧ (∀ m, Part W n m → m = i) ∧ inl W f i c = some (t, c')) ∨
      ∃ l r, Part W n l ∧ Part W n r ∧ (∀ m, Part W n m → m = l ∨ m = r) ∧
        ((∃ c1, inl W f l c = some (none, c1) ∧ inl W f r c1 = some (t, c')) ∨ ∃ x, t = some x ∧ inl W f l c = some (some x, c')))) ∨
    ∃ s, W.node n = some (.inlined (some s)) ∧ n ∉ c.cut ∧
      ((s ∈ c.visiting ∧ t = some s ∧ c' = { c with errors := c.errors + 1 }) ∨
      (s ∉ c.visiting ∧ n ∈ c.visited ∧ t = none ∧ c' = c) ∨
      (s ∉ c.visiting ∧ n ∉ c.visited ∧ ∃ t1 c2, (t, c') = leave n s (t1, c2) ∧
        ((W.searchRule s = none ∧ t1 = none ∧ c2 = c.into W n s) ∨ ∃ r, W.searchRule s = some r ∧ inl W f r (c.into W n s) = some (t1, c2)))) := by
  have leafA : ∀ it, W.node n = some it → it.parts = [] → some (none, c) = some (t, c') → (∀ s, it = .inlined (some s) → n ∈ c.cut) →
      (t = none ∧ c' = c ∧ (∀ m, Part W n m → ∃ o, W.node n = some (.op o)) ∧ ∀ s, W.node n = some (.inlined (some s)) → n ∈ c.cut) := by
    intro it hn hp he hc
    simp only [Option.some.injEq, Prod.mk.injEq] at he
    refine ⟨he.1.symm, he.2.symm, fun m hm => ?_, fun s hs => hc s (by rw [hn] at hs; cases hs; rfl)⟩
    obtain ⟨it', h', hm⟩ := part_iff.mp hm
    rw [hn] at h'; cases h'
    rw [hp] at hm; cases hm
  have oneB : ∀ it i, W.node n = some it → it.parts = [i] → (∀ s, it ≠ .inlined s) → inl W f i c = some (t, c') →
      (∀ s, W.node n ≠ some (.inlined s)) ∧ ∃ i, Part W n i ∧ (∀ m, Part W n m → m = i) ∧ inl W f i c = some (t, c') := by
    intro it i hn hp hs he
    refine ⟨fun s h => by rw [hn] at h; cases h; exact hs _ rfl, i, part_iff.mpr ⟨it, hn, by rw [hp]; simp⟩, fun m hm => ?_, he⟩
    obtain ⟨it', h', hm⟩ := part_iff.mp hm
    rw [hn] at h'; cases h'
    rw [hp] at hm; simpa using hm
  have twoC : ∀ it l r, W.node n = some it → it.parts = [l, r] → (∀ s, it ≠ .inlined s) → both (inl W f r) (inl W f l c) = some (t, c') →
      (∀ s, W.node n ≠ some (.inlined s)) ∧ ∃ l r, Part W n l ∧ Part W n r ∧ (∀ m, Part W n m → m = l ∨ m = r) ∧
        ((∃ c1, inl W f l c = some (none, c1) ∧ inl W f r c1 = some (t, c')) ∨ ∃ x, t = some x ∧ inl W f l c = some (some x, c')) := by
    intro it l r hn hp hs he
    refine ⟨fun s h => by rw [hn] at h; cases h; exact hs _ rfl, l, r, part_iff.mpr ⟨it, hn, by rw [hp]; simp⟩,
      part_iff.mpr ⟨it, hn, by rw [hp]; simp⟩, fun m hm => ?_, ?_⟩
    · obtain ⟨it', h', hm⟩ := part_iff.mp hm
      rw [hn] at h'; cases h'
      rw [hp] at hm; simpa using hm
    · unfold both at he
      split at he
      · cases he
      · next c1 e => exact .inl ⟨c1, e, he⟩
      · next x c1 e =>
        simp only [Option.some.injEq, Prod.mk.injEq] at he
        exact .inr ⟨x, he.1.symm, by rw [e, he.2]⟩
  unfold inl at h
  split at h
  · cases h
  · next hn => exact .inl (leafA _ hn rfl h (by simp))
  · next hn => exact .inl (leafA _ hn rfl h (by simp))
  · next hn => exact .inl (leafA _ hn rfl h (by simp))
  · next hn => exact .inl (leafA _ hn rfl h (by simp))
  · next o hn =>
    simp only [Option.some.injEq, Prod.mk.injEq] at h
    exact .inl ⟨h.1.symm, h.2.symm, fun m _ => ⟨o, hn⟩, fun s hs => by rw [hn] at hs; cases hs⟩
  · next hn => exact .inr (.inl ⟨(oneB _ _ hn rfl (by simp) h).1, .inl (oneB _ _ hn rfl (by simp) h).2⟩)
  · next hn => exact .inr (.inl ⟨(oneB _ _ hn rfl (by simp) h).1, .inl (oneB _ _ hn rfl (by simp) h).2⟩)
  · next hn => exact .inl (leafA _ hn rfl h (by simp))
  · next hn => exact .inr (.inl ⟨(oneB _ _ hn rfl (by simp) h).1, .inl (oneB _ _ hn rfl (by simp) h).2⟩)
  · next hn => exact .inr (.inl ⟨(oneB _ _ hn rfl (by simp) h).1, .inl (oneB _ _ hn rfl (by simp) h).2⟩)
  · next hn => exact .inr (.inl ⟨(oneB _ _ hn rfl (by simp) h).1, .inl (oneB _ _ hn rfl (by simp) h).2⟩)
  · next hn => exact .inr (.inl ⟨(oneB _ _ hn rfl (by simp) h).1, .inl (oneB _ _ hn rfl (by simp) h).2⟩)
  · next hn => exact .inr (.inl ⟨(oneB _ _ hn rfl (by simp) h).1, .inl (oneB _ _ hn rfl (by simp) h).2⟩)
  · next hn => exact .inr (.inl ⟨(twoC _ _ _ hn rfl (by simp) h).1, .inr (twoC _ _ _ hn rfl (by simp) h).2⟩)
  · next hn => exact .inr (.inl ⟨(twoC _ _ _ hn rfl (by simp) h).1, .inr (twoC _ _ _ hn rfl (by simp) h).2⟩)
  · next hn => exact .inr (.inl ⟨(twoC _ _ _ hn rfl (by simp) h).1, .inr (twoC _ _ _ hn rfl (by simp) h).2⟩)
  · next hn => exact .inl (leafA _ hn rfl h (by simp))
  · next s hn =>
    split at h
    · next hc => exact .inl (leafA _ hn rfl h (fun _ _ => hc))
    · next hc =>
      refine .inr (.inr ⟨s, hn, hc, ?_⟩)
      split at h
      · next hv =>
        simp only [Option.some.injEq, Prod.mk.injEq] at h
        exact .inl ⟨hv, h.1.symm, h.2.symm⟩
      · next hv =>
        split at h
        · next hv' =>
          simp only [Option.some.injEq, Prod.mk.injEq] at h
          exact .inr (.inl ⟨hv, hv', h.1.symm, h.2.symm⟩)
        · next hv' =>
          refine .inr (.inr ⟨hv, hv', ?_⟩)
          dsimp only at h
          split at h
          · next hr =>
            simp only [Option.some.injEq] at h
            exact ⟨none, _, h.symm, .inl ⟨hr, rfl, rfl⟩⟩
          · next r hr =>
            simp only [Option.map_eq_some_iff] at h
            obtain ⟨⟨t1, c2⟩, h1, h2⟩ := h
            exact ⟨t1, c2, h2.symm, .inr ⟨r, hr, h1⟩⟩

theorem leave_none {n s : Nat} {t1 : Option Nat} {c2 c' : Inl} {t : Option Nat} (h : (t, c') = leave n s (t1, c2)) :
    c'.visiting = c2.visiting.filter (· ≠ s) ∧ c'.visited = c2.visited ∧ c'.errors = c2.errors ∧ (∀ x ∈ c2.cut, x ∈ c'.cut) ∧
    ((t1 = none ∧ t = none ∧ c'.cut = c2.cut) ∨ (t1 = some s ∧ t = none ∧ c'.cut = n :: c2.cut) ∨ ∃ x, x ≠ s ∧ t1 = some x ∧ t = some x ∧ c'.cut = c2.cut) := by
  cases t1 with
  | none =>
    simp only [leave, Prod.mk.injEq] at h
    obtain ⟨rfl, rfl⟩ := h
    simp
  | some y =>
    rcases Nat.decEq s y with hx | rfl
    · simp only [leave, ne_eq, hx, not_false_eq_true, if_true, Prod.mk.injEq] at h
      obtain ⟨rfl, rfl⟩ := h
      simp
      exact fun e => hx e.symm
    · simp only [leave, ne_eq, not_true_eq_false, if_false, Prod.mk.injEq] at h
      obtain ⟨rfl, rfl⟩ := h
      simp
      exact fun x hx => .inr hx

/-- What every visit guarantees. -/
theorem inl_frame : ∀ {f n : Nat} {c c' : Inl} {t : Option Nat}, inl W f n c = some (t, c') →
    c'.visiting = c.visiting ∧ c.errors ≤ c'.errors ∧ (∀ x, t = some x → x ∈ c.visiting ∧ c.errors < c'.errors) ∧
    (∀ x ∈ c.visited, x ∈ c'.visited) ∧ (∀ x ∈ c.cut, x ∈ c'.cut) ∧ (c'.errors = c.errors → c'.cut = c.cut)
  | 0, _, _, _, _, h => by cases h
  | f + 1, n, c, c', t, h => by
    rcases inl_inv h with ⟨rfl, rfl, -, -⟩ | ⟨-, h⟩ | ⟨s, hn, hc, h⟩
    · simp
    · rcases h with ⟨i, -, -, h⟩ | ⟨l, r, -, -, -, h⟩
      · exact inl_frame h
      · rcases h with ⟨c1, h1, h2⟩ | ⟨x, rfl, h1⟩
        · obtain ⟨a1, a2, a3, a4, a5, a6⟩ := inl_frame h1
          obtain ⟨b1, b2, b3, b4, b5, b6⟩ := inl_frame h2
          refine ⟨b1.trans a1, by omega, fun x hx => ?_, fun x hx => b4 x (a4 x hx), fun x hx => b5 x (a5 x hx), fun e => ?_⟩
          · obtain ⟨q1, q2⟩ := b3 x hx
            exact ⟨a1 ▸ q1, by omega⟩
          · rw [b6 (by omega), a6 (by omega)]
        · exact inl_frame h1
    · rcases h with ⟨h1, rfl, rfl⟩ | ⟨h1, h2, rfl, rfl⟩ | ⟨h1, h2, t1, c2, h3, h4⟩
      · simp [h1]
      · simp
      · have key : c2.visiting = s :: c.visiting ∧ (c.into W n s).errors ≤ c2.errors ∧ (∀ x, t1 = some x → x ∈ s :: c.visiting ∧ c.errors < c2.errors) ∧
            (∀ x ∈ c.visited, x ∈ c2.visited) ∧ (∀ x ∈ c.cut, x ∈ c2.cut) ∧ (c2.errors = c.errors → c2.cut = c.cut) := by
          rcases h4 with ⟨-, rfl, rfl⟩ | ⟨r, -, h4⟩
          · simp [Inl.into]
            exact fun x hx => .inr hx
          · obtain ⟨a1, a2, a3, a4, a5, a6⟩ := inl_frame h4
            refine ⟨a1, a2, fun x hx => ?_, fun x hx => a4 x (by simp [Inl.into, hx]), a5, fun e => ?_⟩
            · obtain ⟨q1, q2⟩ := a3 x hx
              simp only [Inl.into] at q1 q2
              exact ⟨q1, by omega⟩
            · refine a6 ?_
              simp only [Inl.into] at a2 ⊢
              omega
        obtain ⟨a1, a2, a3, a4, a5, a6⟩ := key
        obtain ⟨b1, b2, b3, b4, b5⟩ := leave_none h3
        simp only [Inl.into] at a2
        have hv : c'.visiting = c.visiting := by
          rw [b1, a1]
          simp only [ne_eq, decide_not, List.filter_cons, decide_true, Bool.not_true, Bool.false_eq_true, if_false]
          exact List.filter_eq_self.2 fun x hx => by simp; rintro rfl; exact h1 hx
        refine ⟨hv, by omega, fun x hx => ?_, fun x hx => b2 ▸ a4 x hx, fun x hx => b4 x (a5 x hx), fun e => ?_⟩
        · rcases b5 with ⟨-, h, -⟩ | ⟨-, h, -⟩ | ⟨y, h5, h6, h7, -⟩
          · rw [h] at hx; cases hx
          · rw [h] at hx; cases hx
          · rw [h7] at hx; cases hx
            obtain ⟨q1, q2⟩ := a3 x h6
            simp only [List.mem_cons] at q1
            exact ⟨q1.resolve_left h5, by omega⟩
        · rcases b5 with ⟨-, -, h⟩ | ⟨h, -, -⟩ | ⟨y, -, h, -, -⟩
          · rw [h]; exact a6 (by omega)
          · have := (a3 s h).2; omega
          · have := (a3 y h).2; omega

theorem Below.trans {a b c : Nat} (h1 : Below W a b) (h2 : Below W b c) : Below W a c := by
  induction h2 with
  | refl => exact h1
  | part _ hp ih => exact .part ih hp

/-- `Below`, from the top. -/
theorem below_cases {n m : Nat} (h : Below W n m) : m = n ∨ ∃ k, Part W n k ∧ Below W k m := by
  induction h with
  | refl => exact .inl rfl
  | part _ hp ih =>
    rcases ih with rfl | ⟨k, h1, h2⟩
    · exact .inr ⟨_, hp, .refl⟩
    · exact .inr ⟨k, h1, .part h2 hp⟩

/-- Nothing is inlined below an operator item. -/
theorem below_op (hw : Wf W) {n m : Nat} {o : OpItem} {s : Option Nat} (hn : W.node n = some (.op o)) (h : Below W n m) : W.node m ≠ some (.inlined s) := by
  rcases below_cases h with rfl | ⟨k, h1, h2⟩
  · rw [hn]; simp
  · obtain ⟨it, h', hk⟩ := part_iff.mp h1
    rw [hn] at h'; cases h'
    simp only [Item.parts, List.mem_singleton] at hk
    subst hk
    obtain ⟨b, hb⟩ := hw.opBase n o hn
    rcases below_cases h2 with rfl | ⟨k, h1, h2⟩
    · rw [hb]; simp
    · obtain ⟨it, h', hk⟩ := part_iff.mp h1
      rw [hb] at h'; cases h'
      simp [Item.parts] at hk

/-- A symbol whose inlining ends. -/
abbrev Fin (W : World) (s : Nat) : Prop := Acc (fun t s => Inlines W s t) s

/-- Symbols that were visited and are not being visited are fine. -/
def Sane (W : World) (c : Inl) : Prop := ∀ m ∈ c.visited, ∀ s, W.node m = some (.inlined (some s)) → s ∉ c.visiting → Fin W s

/-- Without errors, what is inlined below the node ends. -/
theorem inl_fin (hw : Wf W) : ∀ {f n : Nat} {c c' : Inl} {t : Option Nat}, inl W f n c = some (t, c') → c'.errors = c.errors → c.cut = [] → Sane W c →
    Sane W c' ∧ ∀ m s, Below W n m → W.node m = some (.inlined (some s)) → Fin W s
  | 0, _, _, _, _, h => by cases h
  | f + 1, n, c, c', t, h => by
    intro he hcut hs
    have hfr := inl_frame h
    rcases inl_inv h with ⟨rfl, rfl, hp, hq⟩ | ⟨hni, h⟩ | ⟨s, hn, hc, h⟩
    · refine ⟨hs, fun m s hm hms => ?_⟩
      rcases below_cases hm with rfl | ⟨k, h1, h2⟩
      · have := hq s hms; rw [hcut] at this; cases this
      · obtain ⟨o, ho⟩ := hp k h1
        exact absurd hms (below_op hw ho hm)
    · rcases h with ⟨i, -, hu, h⟩ | ⟨l, r, -, -, hu, h⟩
      · obtain ⟨h1, h2⟩ := inl_fin hw h he hcut hs
        refine ⟨h1, fun m s hm hms => ?_⟩
        rcases below_cases hm with rfl | ⟨k, h3, h4⟩
        · exact absurd hms (hni _)
        · rw [hu k h3] at h4; exact h2 m s h4 hms
      · rcases h with ⟨c1, h1, h2⟩ | ⟨x, rfl, h1⟩
        · have f1 := inl_frame h1
          have f2 := inl_frame h2
          have e1 : c1.errors = c.errors := by have := f1.2.1; have := f2.2.1; omega
          have cut1 : c1.cut = [] := by rw [f1.2.2.2.2.2 e1, hcut]
          obtain ⟨g1, g2⟩ := inl_fin hw h1 e1 hcut hs
          obtain ⟨g3, g4⟩ := inl_fin hw h2 (by omega) cut1 g1
          refine ⟨g3, fun m s hm hms => ?_⟩
          rcases below_cases hm with rfl | ⟨k, h3, h4⟩
          · exact absurd hms (hni _)
          · rcases hu k h3 with rfl | rfl
            · exact g2 m s h4 hms
            · exact g4 m s h4 hms
        · have := ((inl_frame h1).2.2.1 x rfl).2
          omega
    · have self : ∀ {P : Prop}, (Fin W s → P) → Fin W s → ∀ m s', Below W n m → W.node m = some (.inlined (some s')) → Fin W s' := by
        intro _ _ hf m s' hm hms
        rcases below_cases hm with rfl | ⟨k, h1, h2⟩
        · rw [hn] at hms; cases hms; exact hf
        · obtain ⟨it, h', hk⟩ := part_iff.mp h1
          rw [hn] at h'; cases h'
          simp [Item.parts] at hk
      rcases h with ⟨h1, rfl, rfl⟩ | ⟨h1, h2, rfl, rfl⟩ | ⟨h1, h2, t1, c2, h3, h4⟩
      · simp at he
      · exact ⟨hs, self (P := True) (fun _ => trivial) (hs n h2 s hn h1)⟩
      · obtain ⟨b1, b2, b3, b4, b5⟩ := leave_none h3
        have hs1 : Sane W (c.into W n s) := by
          intro m hm s' hms hv
          simp only [Inl.into, List.mem_cons, not_or] at hm hv
          rcases hm with rfl | hm
          · rw [hn] at hms; cases hms; exact absurd rfl hv.1
          · exact hs m hm s' hms hv.2
        have key : Sane W c2 ∧ Fin W s ∧ c2.visiting = s :: c.visiting := by
          rcases h4 with ⟨hr, -, rfl⟩ | ⟨r, hr, h4⟩
          · refine ⟨hs1, .intro s ?_, rfl⟩
            rintro t ⟨r, n, h, -⟩
            rw [hr] at h; cases h
          · have f4 := inl_frame h4
            have q := f4.2.1
            simp only [Inl.into] at q
            obtain ⟨g1, g2⟩ := inl_fin hw h4 (by simp only [Inl.into]; omega) hcut hs1
            refine ⟨g1, .intro s ?_, f4.1⟩
            rintro t ⟨r', n', h, hb, hn', -⟩
            rw [hr] at h; cases h
            exact g2 n' t hb hn'
        obtain ⟨g1, g2, g3⟩ := key
        refine ⟨?_, self (P := True) (fun _ => trivial) g2⟩
        intro m hm s' hms hv
        rcases Nat.decEq s' s with hss | hss
        · rw [b2] at hm
          refine g1 m hm s' hms ?_
          rw [g3]
          simp only [List.mem_cons, not_or]
          exact ⟨hss, by rw [hfr.1] at hv; exact hv⟩
        · rw [hss]; exact g2

/-- Without cycles and inlined operator expressions there are no errors. -/
theorem inl_noerr (ha : InlineAcyclic W) (ho : NoInlinedOp W) (hr : ∀ s r, W.searchRule s = some r → r ∈ W.rules) :
    ∀ {f n : Nat} {c c' : Inl} {t : Option Nat}, inl W f n c = some (t, c') → Occurs W n →
    (∀ v ∈ c.visiting, ∀ m s, Below W n m → W.node m = some (.inlined (some s)) → Relation.TransGen (Inlines W) v s) → t = none ∧ c'.errors = c.errors
  | 0, _, _, _, _, h => by cases h
  | f + 1, n, c, c', t, h => by
    intro hn0 hv
    rcases inl_inv h with ⟨rfl, rfl, hp, hq⟩ | ⟨hni, h⟩ | ⟨s, hn, hc, h⟩
    · exact ⟨rfl, rfl⟩
    · rcases h with ⟨i, hi, -, h⟩ | ⟨l, r, hl, hr', -, h⟩
      · exact inl_noerr ha ho hr h (hn0.part hi) fun v hv' m s hm => hv v hv' m s (Below.trans (.part .refl hi) hm)
      · have kl := fun v hv' m s hm => hv v hv' m s (Below.trans (.part .refl hl) hm)
        have kr := fun v hv' m s hm => hv v hv' m s (Below.trans (.part .refl hr') hm)
        rcases h with ⟨c1, h1, h2⟩ | ⟨x, rfl, h1⟩
        · obtain ⟨-, e1⟩ := inl_noerr ha ho hr h1 (hn0.part hl) kl
          obtain ⟨e2, e3⟩ := inl_noerr ha ho hr h2 (hn0.part hr') (by rw [(inl_frame h1).1]; exact kr)
          exact ⟨e2, by omega⟩
        · have := (inl_noerr ha ho hr h1 (hn0.part hl) kl).1
          cases this
    · rcases h with ⟨h1, rfl, rfl⟩ | ⟨h1, h2, rfl, rfl⟩ | ⟨h1, h2, t1, c2, h3, h4⟩
      · exact absurd (hv s h1 n s .refl hn) (ha s)
      · exact ⟨rfl, rfl⟩
      · obtain ⟨b1, b2, b3, b4, b5⟩ := leave_none h3
        have hop : isOpSym W s = false := by
          have := ho n s hn0 hn
          unfold isOpSym
          split
          · rfl
          · next r hr' =>
            split
            · next i s' hr'' =>
              split
              · next o ho' => exact absurd ⟨r, i, s', o, hr', hr'', ho'⟩ this
              · rfl
            · rfl
        have e0 : (c.into W n s).errors = c.errors := by simp [Inl.into, hop]
        have key : t1 = none ∧ c2.errors = c.errors := by
          rcases h4 with ⟨-, rfl, rfl⟩ | ⟨r, hr', h4⟩
          · exact ⟨rfl, e0⟩
          · obtain ⟨g1, g2⟩ := inl_noerr ha ho hr h4 (.rule (hr s r hr')) (by
              intro v hv' m s' hm hms
              simp only [Inl.into, List.mem_cons] at hv'
              have hstep : Inlines W s s' := ⟨r, m, hr', hm, hms, by simp⟩
              rcases hv' with rfl | hv'
              · exact .single hstep
              · exact .tail (hv v hv' n s .refl hn) hstep)
            exact ⟨g1, g2.trans e0⟩
        obtain ⟨rfl, e2⟩ := key
        rcases b5 with ⟨-, h, -⟩ | ⟨h, -, -⟩ | ⟨y, -, h, -, -⟩
        · exact ⟨h, by omega⟩
        · cases h
        · cases h

/-! ### Termination -/

/-- The nodes not visited yet. -/
def left (W : World) (c : Inl) : Nat := ((List.range W.heap.length).filter (· ∉ c.visited)).length

theorem left_le {c c' : Inl} (h : ∀ x ∈ c.visited, x ∈ c'.visited) : left W c' ≤ left W c := by
  refine (List.Sublist.length_le ?_)
  have : (List.range W.heap.length).filter (· ∉ c'.visited) = ((List.range W.heap.length).filter (· ∉ c.visited)).filter (· ∉ c'.visited) := by
    rw [List.filter_filter]
    refine List.filter_congr fun x _ => ?_
    by_cases hx : x ∈ c'.visited
    · simp [hx]
    · simp [hx]; exact fun h' => hx (h x h')
  rw [this]
  exact List.filter_sublist

theorem left_into {n s : Nat} {c : Inl} (hn : n < W.heap.length) (hv : n ∉ c.visited) : left W (c.into W n s) < left W c := by
  unfold left
  have : (List.range W.heap.length).filter (· ∉ (c.into W n s).visited) = ((List.range W.heap.length).filter (· ∉ c.visited)).filter (· ≠ n) := by
    rw [List.filter_filter]
    refine List.filter_congr fun x _ => ?_
    simp [Inl.into]
  rw [this]
  exact List.length_filter_lt_length_iff_exists.2 ⟨n, List.mem_filter.2 ⟨List.mem_range.2 hn, by simpa using hv⟩, by simp⟩

theorem inl_total (hw : Wf W) (hr : ∀ s r, W.searchRule s = some r → r ∈ W.rules) : ∀ k f n c, left W c ≤ k → n < W.parsed → (∃ it, W.node n = some it) →
    k * (W.parsed + 1) + n + 1 ≤ f → ∃ x, inl W f n c = some x := by
  intro k
  induction k using Nat.strongRecOn with
  | ind k ihk =>
  intro f n
  induction n using Nat.strongRecOn generalizing f with
  | ind n ih =>
  rintro c hc hn ⟨it, hit⟩ hf
  obtain ⟨f, rfl⟩ := Nat.exists_eq_add_of_le' (show 1 ≤ f by omega)
  have one : ∀ i, Part W n i → (∀ o, it ≠ .op o) → ∀ c, left W c ≤ k → ∃ x, inl W f i c = some x := by
    intro i hi ho c hc
    have hlt : i < n := by
      rcases hw.order n i hn hi with h | ⟨o, h⟩
      · exact h
      · rw [hit] at h; cases h; exact absurd rfl (ho o)
    exact ih i hlt f c hc (by omega) (hw.valid n i hi) (by omega)
  have two : ∀ l r, Part W n l → Part W n r → (∀ o, it ≠ .op o) → ∃ x, both (inl W f r) (inl W f l c) = some x := by
    intro l r hl hr' ho
    obtain ⟨⟨t, c1⟩, h1⟩ := one l hl ho c hc
    rw [h1]
    cases t with
    | none =>
      simp only [both]
      exact one r hr' ho c1 (Nat.le_trans (left_le (inl_frame h1).2.2.2.1) hc)
    | some x => exact ⟨_, rfl⟩
  unfold inl
  rw [hit]
  cases it with
  | zero => exact ⟨_, rfl⟩
  | sym => exact ⟨_, rfl⟩
  | term => exact ⟨_, rfl⟩
  | nonterm s => exact ⟨_, rfl⟩
  | op o => exact ⟨_, rfl⟩
  | plus i => exact one i (.plus hit) (by simp) c hc
  | star i => exact one i (.star hit) (by simp) c hc
  | cond i => exact one i (.cond hit) (by simp) c hc
  | annot i => exact one i (.annot hit) (by simp) c hc
  | evolve i s => exact one i (.evolve hit) (by simp) c hc
  | action i =>
    cases i with
    | none => exact ⟨_, rfl⟩
    | some i => exact one i (.action hit) (by simp) c hc
  | alt l r => exact two l r (.altL hit) (.altR hit) (by simp)
  | cons l r => exact two l r (.consL hit) (.consR hit) (by simp)
  | tryc l r =>
    cases r with
    | none => exact one l (.tryL hit) (by simp) c hc
    | some r => exact two l r (.tryL hit) (.tryR hit) (by simp)
  | inlined s =>
    cases s with
    | none => exact ⟨_, rfl⟩
    | some s =>
      dsimp only
      split
      · exact ⟨_, rfl⟩
      · split
        · exact ⟨_, rfl⟩
        · split
          · exact ⟨_, rfl⟩
          · next hv =>
            split
            · exact ⟨_, rfl⟩
            · next r hsr =>
              have hlt := left_into (s := s) (lt_of_node hit) hv
              have hrr := hr s r hsr
              obtain ⟨hrp, i, s', hri⟩ := hw.rules r hrr
              obtain ⟨k', rfl⟩ := Nat.exists_eq_add_of_le' (show 1 ≤ k by omega)
              obtain ⟨x, hx⟩ := ihk k' (by omega) f r (c.into W n s) (by omega) hrp ⟨_, hri⟩ (by
                have : (k' + 1) * (W.parsed + 1) = k' * (W.parsed + 1) + (W.parsed + 1) := by rw [Nat.succ_mul]
                omega)
              exact ⟨leave n s x, by unfold Inl.into at hx; rw [hx]; rfl⟩

/-! ### From symbols to nodes -/

/-- If all symbols inlined in an item end, so does the code generator on it. -/
theorem acc_of_fin (hw : Wf W) : ∀ n, n < W.parsed →
    (∀ m s r, Below W n m → W.node m = some (.inlined (some s)) → W.searchRule s = some r → Acc (fun m n => Gen.Visits W n m) r) →
    Acc (fun m n => Gen.Visits W n m) n := by
  intro n
  induction n using Nat.strongRecOn with
  | ind n ih =>
    intro hn h
    refine .intro n fun m hm => ?_
    cases hm with
    | part hp ho =>
      have : m < n := by
        rcases hw.order n m hn hp with h | ⟨o, h⟩
        · exact h
        · exact absurd h (ho o)
      exact ih m this (by omega) fun m' s r hb => h m' s r (Below.trans (.part .refl hp) hb)
    | inlined hs hr => exact h n _ _ .refl hs hr

theorem acc_rule (hw : Wf W) {s : Nat} (h : Fin W s) : ∀ r, W.searchRule s = some r → Acc (fun m n => Gen.Visits W n m) r := by
  induction h with
  | intro s _ ih =>
    intro r hr
    have hmem : r ∈ W.rules := (searchRule_some hr).1
    refine acc_of_fin hw r (hw.rules r hmem).1 fun m t r' hb hm hr' => ih t ⟨r, m, hr, hb, hm, by simp⟩ r' hr'

/-! ### Operator expressions -/

theorem opSym_iff {s : Nat} : isOpSym W s = true ↔ OperatorSym W s := by
  unfold isOpSym OperatorSym
  constructor
  · intro h
    split at h
    · cases h
    · next r hr =>
      split at h
      · next i t hi =>
        split at h
        · next o ho => exact ⟨r, i, t, o, hr, hi, ho⟩
        · cases h
      · cases h
  · rintro ⟨r, i, t, o, h1, h2, h3⟩
    simp [h1, h2, h3]

/-- Without errors, no operator expression is inlined below the node. -/
theorem inl_noop (hw : Wf W) : ∀ {f n : Nat} {c c' : Inl} {t : Option Nat}, inl W f n c = some (t, c') → c'.errors = c.errors → c.cut = [] →
    (∀ m ∈ c.visited, ∀ s, W.node m = some (.inlined (some s)) → ¬ OperatorSym W s) →
    (∀ m ∈ c'.visited, ∀ s, W.node m = some (.inlined (some s)) → ¬ OperatorSym W s) ∧
    ∀ m s, Below W n m → W.node m = some (.inlined (some s)) → ¬ OperatorSym W s
  | 0, _, _, _, _, h => by cases h
  | f + 1, n, c, c', t, h => by
    intro he hcut hs
    have hfr := inl_frame h
    rcases inl_inv h with ⟨rfl, rfl, hp, hq⟩ | ⟨hni, h⟩ | ⟨s, hn, hc, h⟩
    · refine ⟨hs, fun m s hm hms => ?_⟩
      rcases below_cases hm with rfl | ⟨k, h1, h2⟩
      · have := hq s hms; rw [hcut] at this; cases this
      · obtain ⟨o, ho⟩ := hp k h1
        exact absurd hms (below_op hw ho hm)
    · rcases h with ⟨i, -, hu, h⟩ | ⟨l, r, -, -, hu, h⟩
      · obtain ⟨h1, h2⟩ := inl_noop hw h he hcut hs
        refine ⟨h1, fun m s hm hms => ?_⟩
        rcases below_cases hm with rfl | ⟨k, h3, h4⟩
        · exact absurd hms (hni _)
        · rw [hu k h3] at h4; exact h2 m s h4 hms
      · rcases h with ⟨c1, h1, h2⟩ | ⟨x, rfl, h1⟩
        · have f1 := inl_frame h1
          have f2 := inl_frame h2
          have e1 : c1.errors = c.errors := by have := f1.2.1; have := f2.2.1; omega
          have cut1 : c1.cut = [] := by rw [f1.2.2.2.2.2 e1, hcut]
          obtain ⟨g1, g2⟩ := inl_noop hw h1 e1 hcut hs
          obtain ⟨g3, g4⟩ := inl_noop hw h2 (by omega) cut1 g1
          refine ⟨g3, fun m s hm hms => ?_⟩
          rcases below_cases hm with rfl | ⟨k, h3, h4⟩
          · exact absurd hms (hni _)
          · rcases hu k h3 with rfl | rfl
            · exact g2 m s h4 hms
            · exact g4 m s h4 hms
        · have := ((inl_frame h1).2.2.1 x rfl).2
          omega
    · have self : ¬ OperatorSym W s → ∀ m s', Below W n m → W.node m = some (.inlined (some s')) → ¬ OperatorSym W s' := by
        intro hf m s' hm hms
        rcases below_cases hm with rfl | ⟨k, h1, h2⟩
        · rw [hn] at hms; cases hms; exact hf
        · obtain ⟨it, h', hk⟩ := part_iff.mp h1
          rw [hn] at h'; cases h'
          simp [Item.parts] at hk
      rcases h with ⟨h1, rfl, rfl⟩ | ⟨h1, h2, rfl, rfl⟩ | ⟨h1, h2, t1, c2, h3, h4⟩
      · simp at he
      · exact ⟨hs, self (hs n h2 s hn)⟩
      · obtain ⟨b1, b2, b3, b4, b5⟩ := leave_none h3
        have hle : (c.into W n s).errors ≤ c2.errors := by
          rcases h4 with ⟨-, -, rfl⟩ | ⟨r, -, h4⟩
          · exact Nat.le_refl _
          · exact (inl_frame h4).2.1
        have hop : ¬ OperatorSym W s := by
          intro h
          simp only [Inl.into, opSym_iff.2 h, if_true] at hle
          omega
        have hs1 : ∀ m ∈ (c.into W n s).visited, ∀ s, W.node m = some (.inlined (some s)) → ¬ OperatorSym W s := by
          intro m hm s' hms
          simp only [Inl.into, List.mem_cons] at hm
          rcases hm with rfl | hm
          · rw [hn] at hms; cases hms; exact hop
          · exact hs m hm s' hms
        refine ⟨?_, self hop⟩
        rw [b2]
        rcases h4 with ⟨-, -, rfl⟩ | ⟨r, -, h4⟩
        · exact hs1
        · have q := (inl_frame h4).2.1
          exact (inl_noop hw h4 (by simp only [Inl.into] at q hle ⊢; omega) hcut hs1).1

end Verif.Check
