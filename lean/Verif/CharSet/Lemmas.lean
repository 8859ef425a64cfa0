import Verif.CharSet.Model

namespace Verif.CharSet

/-- Membership in a list of half-open ranges. -/
def mem (l : Ranges) (x : Nat) : Prop := ∃ p ∈ l, p.1 ≤ x ∧ x < p.2

@[simp] theorem mem_nil (x : Nat) : mem [] x ↔ False := by simp [mem]

@[simp] theorem mem_cons (a b : Nat) (l : Ranges) (x : Nat) :
    mem ((a, b) :: l) x ↔ (a ≤ x ∧ x < b) ∨ mem l x := by simp [mem]

theorem mem_append (l m : Ranges) (x : Nat) : mem (l ++ m) x ↔ mem l x ∨ mem m x := by
  simp only [mem, List.mem_append]
  constructor
  · rintro ⟨p, h | h, h'⟩
    · exact Or.inl ⟨p, h, h'⟩
    · exact Or.inr ⟨p, h, h'⟩
  · rintro (⟨p, h, h'⟩ | ⟨p, h, h'⟩)
    · exact ⟨p, Or.inl h, h'⟩
    · exact ⟨p, Or.inr h, h'⟩

/-- Well-formed range lists over code space `S`, from bound `n` on: sorted with gaps, inside the code
space, each range non-empty (or, if `w`, the degenerate range `(S,S)`, which `negate` produces). -/
inductive WF (S : Nat) (w : Prop) : Nat → Ranges → Prop
  | nil {n} : WF S w n []
  | cons {n a b l} : n ≤ a → b ≤ S → (a < b ∨ (w ∧ a = S ∧ b = S)) → WF S w (b + 1) l → WF S w n ((a, b) :: l)

theorem WF.mono {S : Nat} {w : Prop} {n m : Nat} {l : Ranges} (h : WF S w n l) (hm : m ≤ n) : WF S w m l := by
  cases h with
  | nil => exact .nil
  | cons h1 h2 h3 h4 => exact .cons (by omega) h2 h3 h4

theorem WF.weaken {S : Nat} {w : Prop} {n : Nat} {l : Ranges} (h : WF S w n l) : WF S True n l := by
  induction h with
  | nil => exact .nil
  | cons h1 h2 h3 _ ih => exact .cons h1 h2 (h3.imp id fun h => ⟨trivial, h.2⟩) ih

/-- Elements of a well-formed list lie above its bound and inside the code space. -/
theorem WF.bounds {S : Nat} {w : Prop} {n : Nat} {l : Ranges} (h : WF S w n l) {x : Nat} (hx : mem l x) :
    n ≤ x ∧ x < S := by
  induction h with
  | nil => simp at hx
  | cons h1 h2 h3 _ ih =>
    rw [mem_cons] at hx
    rcases hx with hx | hx
    · omega
    · have := ih hx; omega

/-- Ranges at higher positions lie higher. -/
theorem WF.get_lt {S : Nat} {w : Prop} {n : Nat} {l : Ranges} (h : WF S w n l) :
    ∀ {i j : Nat} {p q : Nat × Nat}, i < j → l[i]? = some p → l[j]? = some q → p.2 < q.1 := by
  have lower : ∀ {n : Nat} {l : Ranges}, WF S w n l → ∀ {j : Nat} {q : Nat × Nat}, l[j]? = some q → n ≤ q.1 := by
    intro n l h
    induction h with
    | nil => intro j q hq; simp at hq
    | cons h1 h2 h3 _ ih =>
      intro j q hq
      cases j with
      | zero => simp at hq; subst hq; exact h1
      | succ j => have := ih (by simpa using hq); omega
  induction h with
  | nil => intro i j p q _ hp; simp at hp
  | cons h1 h2 h3 h4 ih =>
    intro i j p q hij hp hq
    cases j with
    | zero => omega
    | succ j =>
      cases i with
      | zero =>
        simp at hp; subst hp
        have := lower h4 (by simpa using hq)
        simp only; omega
      | succ i => exact ih (i := i) (j := j) (by omega) (by simpa using hp) (by simpa using hq)

theorem WF.le {S : Nat} {w : Prop} {n : Nat} {l : Ranges} (h : WF S w n l) :
    ∀ {p : Nat × Nat}, p ∈ l → p.1 ≤ p.2 := by
  induction h with
  | nil => intro p hp; simp at hp
  | cons h1 h2 h3 _ ih =>
    intro p hp
    rcases List.mem_cons.mp hp with rfl | hp
    · simp only; omega
    · exact ih hp

/-- The binary search decides membership. -/
theorem acceptsLoop_iff {S : Nat} {w : Prop} {n : Nat} {data : Ranges} (h : WF S w n data) (x : Nat) :
    ∀ (k l r : Nat), r - l ≤ k → r ≤ data.length →
      (∀ (i : Nat) (p : Nat × Nat), data[i]? = some p → p.1 ≤ x → x < p.2 → l ≤ i ∧ i < r) →
      (acceptsLoop data x l r = true ↔ mem data x) := by
  have none_of : (∀ (i : Nat) (p : Nat × Nat), data[i]? = some p → p.1 ≤ x → x < p.2 → False) → ¬ mem data x := by
    rintro H ⟨p, hp, h1, h2⟩
    obtain ⟨i, hi, rfl⟩ := List.getElem_of_mem hp
    exact H i _ (List.getElem?_eq_getElem hi) h1 h2
  intro k
  induction k with
  | zero =>
    intro l r hk hr hin
    rw [acceptsLoop, dif_neg (by omega)]
    simp only [Bool.false_eq_true, false_iff]
    exact none_of fun i p hi h1 h2 => by have := hin i p hi h1 h2; omega
  | succ k ih =>
    intro l r hk hr hin
    rw [acceptsLoop]
    split
    · rename_i hlt
      have hm : (l + r) / 2 < data.length := by omega
      rw [List.getElem?_eq_getElem hm]
      obtain ⟨⟨a, b⟩, hab⟩ : ∃ p, data[(l + r) / 2] = p := ⟨_, rfl⟩
      have hget : data[(l + r) / 2]? = some (a, b) := by rw [List.getElem?_eq_getElem hm, hab]
      simp only [hab]
      split
      · rename_i hax
        split
        · rename_i hxb
          simp only [true_iff]
          exact ⟨(a, b), List.mem_of_getElem? hget, hax, hxb⟩
        · rename_i hxb
          apply ih _ _ (by omega) hr
          intro i p hi h1 h2
          have := hin i p hi h1 h2
          refine ⟨?_, this.2⟩
          apply Decidable.byContradiction
          intro hle
          rcases Nat.lt_or_eq_of_le (show i ≤ (l + r) / 2 by omega) with hlt' | heq
          · have h3 := h.get_lt hlt' hi hget
            have h4 := h.le (List.mem_of_getElem? hget)
            simp only at h3 h4
            omega
          · subst heq; rw [hget] at hi; simp only [Option.some.injEq] at hi; subst hi; simp only at h2; omega
      · rename_i hax
        apply ih _ _ (by omega) (by omega)
        intro i p hi h1 h2
        have := hin i p hi h1 h2
        refine ⟨this.1, ?_⟩
        apply Decidable.byContradiction
        intro hge
        rcases Nat.lt_or_eq_of_le (show (l + r) / 2 ≤ i by omega) with hlt' | heq
        · have h3 := h.get_lt hlt' hget hi
          have h4 := h.le (List.mem_of_getElem? hget)
          simp only at h3 h4
          omega
        · subst heq; rw [hget] at hi; simp only [Option.some.injEq] at hi; subst hi; simp only at h1; omega
    · rename_i hlt
      simp only [Bool.false_eq_true, false_iff]
      exact none_of fun i p hi h1 h2 => by have := hin i p hi h1 h2; omega

theorem accepts_iff {S : Nat} {w : Prop} {n : Nat} {s : Seq} (h : WF S w n s.data) (x : Nat) :
    s.accepts x = true ↔ mem s.data x := by
  apply acceptsLoop_iff h x s.data.length 0 s.data.length (by omega) (Nat.le_refl _)
  intro i p hi _ _
  exact ⟨Nat.zero_le _, (List.getElem?_eq_some_iff.mp hi).1⟩

/-! ### Intersection -/

theorem WF.cons_iff {S : Nat} {w : Prop} {n a b : Nat} {l : Ranges} :
    WF S w n ((a, b) :: l) ↔ n ≤ a ∧ b ≤ S ∧ (a < b ∨ (w ∧ a = S ∧ b = S)) ∧ WF S w (b + 1) l := by
  constructor
  · intro h; cases h; exact ⟨by assumption, by assumption, by assumption, by assumption⟩
  · rintro ⟨h1, h2, h3, h4⟩; exact .cons h1 h2 h3 h4

theorem interLoop_mem {S : Nat} {v w : Prop} : ∀ (t o : Ranges) (n m : Nat), WF S v n t → WF S w m o →
    ∀ x, mem (interLoop t o) x ↔ mem t x ∧ mem o x := by
  intro t o
  induction t, o using interLoop.induct with
  | case1 o => intro n m _ _ x; simp [interLoop]
  | case2 t h => intro n m _ _ x; cases t with
    | nil => simp [interLoop]
    | cons p t => simp [interLoop]
  | case3 a b t c d o h ih =>
    intro n m ht ho x
    rw [WF.cons_iff] at ho
    rw [interLoop, if_pos h, ih n _ ht ho.2.2.2]
    have ht' := ht.mono (m := 0) (Nat.zero_le _)
    rw [WF.cons_iff] at ht
    have b1 := fun h => ht.2.2.2.bounds (x := x) h
    grind [mem_cons]
  | case4 a b t c d o h1 h2 ih =>
    intro n m ht ho x
    rw [WF.cons_iff] at ht
    rw [interLoop, if_neg h1, if_pos h2, ih _ m ht.2.2.2 ho]
    rw [WF.cons_iff] at ho
    have b1 := fun h => ho.2.2.2.bounds (x := x) h
    grind [mem_cons]
  | case5 a b t c d o h1 h2 ih1 ih2 =>
    intro n m ht ho x
    rw [interLoop, if_neg h1, if_neg h2, mem_cons]
    have ht' := ht
    have ho' := ho
    rw [WF.cons_iff] at ht ho
    have b1 := fun h => ht.2.2.2.bounds (x := x) h
    have b2 := fun h => ho.2.2.2.bounds (x := x) h
    split
    · rw [ih1 n _ ht' ho.2.2.2]
      grind [mem_cons]
    · rw [ih2 _ m ht.2.2.2 ho']
      grind [mem_cons]

/-- The result of an intersection is strict, and bounded below by both bounds. -/
theorem interLoop_wf {S : Nat} {v w : Prop} : ∀ (t o : Ranges) (n m k : Nat), WF S v n t → WF S w m o →
    (k ≤ n ∨ k ≤ m) → WF S False k (interLoop t o) := by
  intro t o
  induction t, o using interLoop.induct with
  | case1 o => intro n m k _ _ _; simp only [interLoop]; exact .nil
  | case2 t h => intro n m k _ _ _; cases t with
    | nil => simp only [interLoop]; exact .nil
    | cons p t => simp only [interLoop]; exact .nil
  | case3 a b t c d o h ih =>
    intro n m k ht ho hk
    rw [WF.cons_iff] at ho
    rw [interLoop, if_pos h]
    refine ih n _ k ht ho.2.2.2 ?_
    omega
  | case4 a b t c d o h1 h2 ih =>
    intro n m k ht ho hk
    rw [WF.cons_iff] at ht
    rw [interLoop, if_neg h1, if_pos h2]
    refine ih _ m k ht.2.2.2 ho ?_
    omega
  | case5 a b t c d o h1 h2 ih1 ih2 =>
    intro n m k ht ho hk
    rw [interLoop, if_neg h1, if_neg h2]
    have ht' := ht
    have ho' := ho
    rw [WF.cons_iff] at ht ho
    split
    · refine .cons (by omega) (by omega) (by omega) (ih1 n _ _ ht' ho.2.2.2 (by omega))
    · refine .cons (by omega) (by omega) (by omega) (ih2 _ m _ ht.2.2.2 ho' (by omega))

/-! ### Difference -/

/-- Loop invariant of `difference`, with `k` a lower bound for what is still to be emitted. -/
def DPre (S : Nat) (v : Prop) : Ranges → Ranges → Bool → Bool → Nat → Nat → Nat → Prop
  | _, _, false, false, _, n, k => k ≤ n
  | (_, b) :: _, [], true, false, start, _, k =>
    k ≤ start ∧ (start < b ∨ (v ∧ start = S ∧ b = S))
  | (_, b) :: _, (c, _) :: _, true, false, start, _, k =>
    k ≤ start ∧ (start < b ∨ (v ∧ start = S ∧ b = S)) ∧ start < c
  | [], (_, _) :: _, false, true, _, _, _ => True
  | (a, _) :: _, (c, _) :: _, false, true, _, n, k => c ≤ a ∧ k ≤ n
  | (_, b) :: _, (c, d) :: _, true, true, _, _, k => c ≤ b ∧ k ≤ d ∧ k ≤ b + 1
  | _, _, _, _, _, _, _ => False

/-- What the rest of `difference` emits. -/
def DSem (x : Nat) : Ranges → Ranges → Bool → Bool → Nat → Prop
  | (_, b) :: t, o, true, false, start => ((start ≤ x ∧ x < b) ∨ mem t x) ∧ ¬ mem o x
  | (_, b) :: t, (c, d) :: o, true, true, _ => ((d ≤ x ∧ x < b) ∨ mem t x) ∧ ¬ mem ((c, d) :: o) x
  | t, o, _, _, _ => mem t x ∧ ¬ mem o x

theorem diffLoop_spec {S : Nat} {v w : Prop} : ∀ (t o : Ranges) (inT inO : Bool) (start n m k : Nat),
    WF S v n t → WF S w m o → DPre S v t o inT inO start n k →
    WF S v k (diffLoop t o inT inO start) ∧
    ∀ x, mem (diffLoop t o inT inO start) x ↔ DSem x t o inT inO start := by
  intro t o inT inO start
  induction t, o, inT, inO, start using diffLoop.induct with
  | case1 o inT inO start =>
    intro n m k _ _ hp
    rw [diffLoop]
    refine ⟨.nil, fun x => ?_⟩
    cases inT <;> cases inO <;> simp [DSem]
  | case2 a b t inO start =>
    intro n m k ht ho hp
    rw [diffLoop]
    rw [WF.cons_iff] at ht
    cases inO <;> simp only [DPre] at hp
    rw [if_pos rfl]
    refine ⟨.cons hp.1 ht.2.1 hp.2 ht.2.2.2, fun x => ?_⟩
    simp [DSem]
  | case3 a b t inT inO start h =>
    intro n m k ht ho hp
    rw [diffLoop]
    simp only [Bool.not_eq_true] at h
    subst h
    cases inO <;> simp only [DPre] at hp
    refine ⟨by simpa using ht.mono hp, fun x => ?_⟩
    simp [DSem]
  | case4 a b t c d o start h ih =>
    intro n m k ht ho hp
    simp only [DPre] at hp
    have ho' := ho
    rw [WF.cons_iff] at ht ho
    rw [diffLoop, if_pos h]
    have ih := ih (b + 1) m k ht.2.2.2 ho' (by
      cases t with
      | nil => simp [DPre]
      | cons p t =>
        have := ht.2.2.2
        rw [WF.cons_iff] at this
        simp only [DPre]; omega)
    refine ⟨ih.1, fun x => ?_⟩
    rw [ih.2 x]
    have b1 := fun h => ht.2.2.2.bounds (x := x) h
    grind [mem_cons, DSem]
  | case5 a b t c d o start h ih =>
    intro n m k ht ho hp
    simp only [DPre] at hp
    have ht' := ht
    rw [WF.cons_iff] at ht ho
    rw [diffLoop, if_neg h]
    have ih := ih n (d + 1) k ht' ho.2.2.2 (by
      cases o with
      | nil => simp only [DPre]; omega
      | cons p t =>
        have := ho.2.2.2
        rw [WF.cons_iff] at this
        simp only [DPre]; omega)
    refine ⟨ih.1, fun x => ?_⟩
    rw [ih.2 x]
    have b1 := fun h => ht.2.2.2.bounds (x := x) h
    grind [mem_cons, DSem]
  | case6 a b t c d o start h ih =>
    intro n m k ht ho hp
    simp only [DPre] at hp
    have ho' := ho
    rw [WF.cons_iff] at ht ho
    rw [diffLoop, if_pos h]
    have ih := ih (b + 1) m (b + 1) ht.2.2.2 ho' (by simp [DPre])
    split
    · rename_i hs
      refine ⟨.cons hp.1 ht.2.1 hp.2.1 ih.1, fun x => ?_⟩
      rw [List.singleton_append, mem_cons, ih.2 x]
      have b1 := fun h => ht.2.2.2.bounds (x := x) h
      have b2 := fun h => ho.2.2.2.bounds (x := x) h
      grind [mem_cons, DSem]
    · refine ⟨ih.1.mono (by omega), fun x => ?_⟩
      rw [List.nil_append, ih.2 x]
      have b1 := fun h => ht.2.2.2.bounds (x := x) h
      have b2 := fun h => ho.2.2.2.bounds (x := x) h
      grind [mem_cons, DSem]
  | case7 a b t c d o start h ih =>
    intro n m k ht ho hp
    simp only [DPre] at hp
    have ht' := ht
    have ho' := ho
    rw [WF.cons_iff] at ht ho
    rw [diffLoop, if_neg h]
    have ih := ih n m (c + 1) ht' ho' (by simp only [DPre]; omega)
    rw [if_pos hp.2.2]
    refine ⟨.cons hp.1 (by omega) (by omega) ih.1, fun x => ?_⟩
    rw [List.singleton_append, mem_cons, ih.2 x]
    have b1 := fun h => ht.2.2.2.bounds (x := x) h
    have b2 := fun h => ho.2.2.2.bounds (x := x) h
    grind [mem_cons, DSem]
  | case8 a b t c d o start h ih =>
    intro n m k ht ho hp
    simp only [DPre] at hp
    have ht' := ht
    rw [WF.cons_iff] at ht ho
    rw [diffLoop, if_pos h]
    have ih := ih n (d + 1) k ht' ho.2.2.2 (by simp only [DPre]; omega)
    refine ⟨ih.1, fun x => ?_⟩
    rw [ih.2 x]
    have b1 := fun h => ht.2.2.2.bounds (x := x) h
    grind [mem_cons, DSem]
  | case9 a b t c d o start h ih =>
    intro n m k ht ho hp
    simp only [DPre] at hp
    have ht' := ht
    have ho' := ho
    rw [WF.cons_iff] at ht ho
    rw [diffLoop, if_neg h]
    have ih := ih n m k ht' ho' (by simp only [DPre]; omega)
    refine ⟨ih.1, fun x => ?_⟩
    rw [ih.2 x]
    have b1 := fun h => ht.2.2.2.bounds (x := x) h
    grind [mem_cons, DSem]
  | case10 a b t c d o start h ih =>
    intro n m k ht ho hp
    simp only [DPre] at hp
    have ht' := ht
    have ho' := ho
    rw [WF.cons_iff] at ht ho
    rw [diffLoop, if_pos h]
    have ih := ih n m k ht' ho' (by simp only [DPre]; refine ⟨by omega, ht.2.2.1, h⟩)
    refine ⟨ih.1, fun x => ?_⟩
    rw [ih.2 x]
    grind [mem_cons, DSem]
  | case11 a b t c d o start h ih =>
    intro n m k ht ho hp
    simp only [DPre] at hp
    have ht' := ht
    have ho' := ho
    rw [WF.cons_iff] at ht ho
    rw [diffLoop, if_neg h]
    have ih := ih n m k ht' ho' (by simp only [DPre]; omega)
    refine ⟨ih.1, fun x => ?_⟩
    rw [ih.2 x]
    grind [mem_cons, DSem]

/-! ### Union -/

/-- Loop invariant of `getUnion`. -/
def UPre (S : Nat) (w : Prop) : Ranges → Ranges → Bool → Bool → Nat → Nat → Nat → Nat → Prop
  | _, _, false, false, _, n, m, k => k ≤ n ∧ k ≤ m
  | (_, b) :: _, [], true, false, start, _, _, k => k ≤ start ∧ (start < b ∨ (w ∧ start = S ∧ b = S))
  | (_, b) :: _, (c, _) :: _, true, false, start, _, _, k =>
    k ≤ start ∧ (start < b ∨ (w ∧ start = S ∧ b = S)) ∧ start < c
  | [], (_, d) :: _, false, true, start, _, _, k => k ≤ start ∧ (start < d ∨ (w ∧ start = S ∧ d = S))
  | (a, _) :: _, (_, d) :: _, false, true, start, _, _, k =>
    k ≤ start ∧ (start < d ∨ (w ∧ start = S ∧ d = S)) ∧ start ≤ a
  | (_, b) :: _, (_, d) :: _, true, true, start, _, _, k =>
    k ≤ start ∧ (start < b ∨ (w ∧ start = S ∧ b = S)) ∧ (start < d ∨ (w ∧ start = S ∧ d = S))
  | _, _, _, _, _, _, _, _ => False

/-- What the rest of `getUnion` emits. -/
def USem (x : Nat) : Ranges → Ranges → Bool → Bool → Nat → Prop
  | (_, b) :: t, o, true, false, start => (start ≤ x ∧ x < b) ∨ mem t x ∨ mem o x
  | t, (_, d) :: o, false, true, start => (start ≤ x ∧ x < d) ∨ mem t x ∨ mem o x
  | (_, b) :: t, (_, d) :: o, true, true, start =>
    (start ≤ x ∧ x < b) ∨ (start ≤ x ∧ x < d) ∨ mem t x ∨ mem o x
  | t, o, _, _, _ => mem t x ∨ mem o x

theorem unionLoop_spec {S : Nat} {w : Prop} : ∀ (t o : Ranges) (inT inO : Bool) (start n m k : Nat),
    WF S w n t → WF S w m o → UPre S w t o inT inO start n m k →
    WF S w k (unionLoop t o inT inO start) ∧
    ∀ x, mem (unionLoop t o inT inO start) x ↔ USem x t o inT inO start := by
  intro t o inT inO start
  induction t, o, inT, inO, start using unionLoop.induct with
  | case1 o inT inO start =>
    intro n m k ht ho hp
    rw [unionLoop]
    cases o with
    | nil => refine ⟨by simp [unionEnd]; exact .nil, fun x => ?_⟩; cases inT <;> cases inO <;> simp [USem, unionEnd]
    | cons p o =>
      obtain ⟨c, d⟩ := p
      cases inT <;> cases inO <;> simp only [UPre] at hp
      · refine ⟨by simpa [unionEnd] using ho.mono hp.2, fun x => ?_⟩
        simp [USem, unionEnd]
      · rw [WF.cons_iff] at ho
        refine ⟨by simpa [unionEnd] using WF.cons hp.1 ho.2.1 hp.2 ho.2.2.2, fun x => ?_⟩
        simp [USem, unionEnd]
  | case2 t inT inO start h =>
    intro n m k ht ho hp
    cases t with
    | nil => simp at h
    | cons p t =>
      obtain ⟨a, b⟩ := p
      rw [unionLoop]
      cases inT <;> cases inO <;> simp only [UPre] at hp
      · refine ⟨by simpa [unionEnd] using ht.mono hp.1, fun x => ?_⟩
        simp [USem, unionEnd]
      · rw [WF.cons_iff] at ht
        refine ⟨by simpa [unionEnd] using WF.cons hp.1 ht.2.1 hp.2 ht.2.2.2, fun x => ?_⟩
        simp [USem, unionEnd]
      · simp
  | case3 a b t c d o start h ih =>
    intro n m k ht ho hp
    simp only [UPre] at hp
    have ho' := ho
    rw [WF.cons_iff] at ht ho
    rw [unionLoop, if_pos h]
    have ih := ih (b + 1) m k ht.2.2.2 ho' (by
      cases t with
      | nil => simp only [UPre]; exact ⟨hp.1, hp.2.2⟩
      | cons p t =>
        have := ht.2.2.2
        rw [WF.cons_iff] at this
        simp only [UPre]; exact ⟨hp.1, hp.2.2, by omega⟩)
    refine ⟨ih.1, fun x => ?_⟩
    rw [ih.2 x]
    grind [mem_cons, USem]
  | case4 a b t c d o start h ih =>
    intro n m k ht ho hp
    simp only [UPre] at hp
    have ht' := ht
    rw [WF.cons_iff] at ht ho
    rw [unionLoop, if_neg h]
    have ih := ih n (d + 1) k ht' ho.2.2.2 (by
      cases o with
      | nil => simp only [UPre]; exact ⟨hp.1, hp.2.1⟩
      | cons p t =>
        have := ho.2.2.2
        rw [WF.cons_iff] at this
        simp only [UPre]; exact ⟨hp.1, hp.2.1, by omega⟩)
    refine ⟨ih.1, fun x => ?_⟩
    rw [ih.2 x]
    grind [mem_cons, USem]
  | case5 a b t c d o start h ih =>
    intro n m k ht ho hp
    simp only [UPre] at hp
    have ho' := ho
    rw [WF.cons_iff] at ht ho
    rw [unionLoop, if_pos h]
    have ih := ih (b + 1) c (b + 1) ht.2.2.2 (.cons (Nat.le_refl c) ho.2.1 ho.2.2.1 ho.2.2.2)
      (by simp only [UPre]; omega)
    split
    · refine ⟨.cons hp.1 ht.2.1 hp.2.1 ih.1, fun x => ?_⟩
      rw [List.singleton_append, mem_cons, ih.2 x]
      grind [mem_cons, USem]
    · refine ⟨ih.1.mono (by omega), fun x => ?_⟩
      rw [List.nil_append, ih.2 x]
      grind [mem_cons, USem]
  | case6 a b t c d o start h ih =>
    intro n m k ht ho hp
    simp only [UPre] at hp
    have ht' := ht
    have ho' := ho
    rw [WF.cons_iff] at ht ho
    rw [unionLoop, if_neg h]
    have ih := ih n m k ht' ho' (by simp only [UPre]; refine ⟨hp.1, hp.2.1, by omega⟩)
    refine ⟨ih.1, fun x => ?_⟩
    rw [ih.2 x]
    grind [mem_cons, USem]
  | case7 a b t c d o start h ih =>
    intro n m k ht ho hp
    simp only [UPre] at hp
    have ht' := ht
    rw [WF.cons_iff] at ht ho
    rw [unionLoop, if_pos h]
    have ih := ih a (d + 1) (d + 1) (.cons (Nat.le_refl a) ht.2.1 ht.2.2.1 ht.2.2.2) ho.2.2.2
      (by simp only [UPre]; omega)
    split
    · refine ⟨.cons hp.1 ho.2.1 hp.2.1 ih.1, fun x => ?_⟩
      rw [List.singleton_append, mem_cons, ih.2 x]
      grind [mem_cons, USem]
    · refine ⟨ih.1.mono (by omega), fun x => ?_⟩
      rw [List.nil_append, ih.2 x]
      grind [mem_cons, USem]
  | case8 a b t c d o start h ih =>
    intro n m k ht ho hp
    simp only [UPre] at hp
    have ht' := ht
    have ho' := ho
    rw [WF.cons_iff] at ht ho
    rw [unionLoop, if_neg h]
    have ih := ih n m k ht' ho' (by
      simp only [UPre]; refine ⟨hp.1, ?_, hp.2.1⟩
      rcases ht.2.2.1 with h' | h'
      · left; omega
      · by_cases hs : start = S
        · exact Or.inr ⟨h'.1, hs, h'.2.2⟩
        · left; omega)
    refine ⟨ih.1, fun x => ?_⟩
    rw [ih.2 x]
    grind [mem_cons, USem]
  | case9 a b t c d o start h ih =>
    intro n m k ht ho hp
    simp only [UPre] at hp
    have ht' := ht
    have ho' := ho
    rw [WF.cons_iff] at ht ho
    rw [unionLoop, if_pos h]
    have ih := ih n m k ht' ho' (by simp only [UPre]; exact ⟨by omega, ht.2.2.1, h⟩)
    refine ⟨ih.1, fun x => ?_⟩
    rw [ih.2 x]
    grind [mem_cons, USem]
  | case10 a b t c d o start h ih =>
    intro n m k ht ho hp
    simp only [UPre] at hp
    have ht' := ht
    have ho' := ho
    rw [WF.cons_iff] at ht ho
    rw [unionLoop, if_neg h]
    have ih := ih n m k ht' ho' (by simp only [UPre]; exact ⟨by omega, ho.2.2.1, by omega⟩)
    refine ⟨ih.1, fun x => ?_⟩
    rw [ih.2 x]
    grind [mem_cons, USem]

/-! ### Negation -/

theorem negateZero_spec {S : Nat} {w : Prop} : ∀ (l : Ranges) (n a b : Nat), WF S w n ((a, b) :: l) →
    WF S False b (negateZero S ((a, b) :: l)) ∧
    ∀ x, x < S → (mem (negateZero S ((a, b) :: l)) x ↔ b ≤ x ∧ ¬ mem l x) := by
  intro l
  induction l with
  | nil =>
    intro n a b h
    rw [WF.cons_iff] at h
    simp only [negateZero]
    split
    · refine ⟨.nil, fun x hx => ?_⟩
      simp; omega
    · refine ⟨.cons (Nat.le_refl b) (Nat.le_refl S) (by omega) .nil, fun x hx => ?_⟩
      simp; omega
  | cons p l ih =>
    intro n a b h
    obtain ⟨c, d⟩ := p
    rw [WF.cons_iff] at h
    obtain ⟨i1, i2⟩ := ih _ c d h.2.2.2
    have h' := h.2.2.2
    rw [WF.cons_iff] at h'
    rw [negateZero]
    refine ⟨.cons (Nat.le_refl b) (by omega) (by omega) ?_, fun x hx => ?_⟩
    · by_cases hcd : c < d
      · exact i1.mono (by omega)
      · cases l with
        | nil =>
          have : d = S := by omega
          simp only [negateZero, if_pos this]; exact .nil
        | cons q l => have := h'.2.2.2; rw [WF.cons_iff] at this; omega
    · rw [mem_cons, i2 x hx]
      have b1 := fun h => h'.2.2.2.bounds (x := x) h
      grind [mem_cons]

/-- The list `negate` produces when the first range does not start at 0. -/
def negTail (S : Nat) : Nat → Ranges → Ranges
  | _, [] => []
  | tmp, [(a, b)] => (tmp, a) :: if a ≠ S then [(b, S)] else []
  | tmp, (a, b) :: p :: l => (tmp, a) :: negTail S b (p :: l)

theorem negTail_spec {S : Nat} {w : Prop} : ∀ (l : Ranges) (tmp : Nat), l ≠ [] → WF S w (tmp + 1) l →
    WF S True tmp (negTail S tmp l) ∧
    ∀ x, x < S → (mem (negTail S tmp l) x ↔ tmp ≤ x ∧ ¬ mem l x) := by
  intro l
  induction l with
  | nil => intro tmp h; simp at h
  | cons p l ih =>
    intro tmp _ h
    obtain ⟨a, b⟩ := p
    rw [WF.cons_iff] at h
    cases l with
    | nil =>
      rw [negTail]
      split
      · refine ⟨.cons (Nat.le_refl _) (by omega) (by omega) (.cons (by omega) (Nat.le_refl S) ?_ .nil), fun x hx => ?_⟩
        · by_cases hb : b = S
          · exact Or.inr ⟨trivial, hb, rfl⟩
          · left; omega
        · simp only [mem_cons, mem_nil]; grind
      · refine ⟨.cons (Nat.le_refl _) (by omega) (by omega) .nil, fun x hx => ?_⟩
        simp only [mem_cons, mem_nil]; grind
    | cons q l =>
      obtain ⟨c, d⟩ := q
      obtain ⟨i1, i2⟩ := ih b (by simp) h.2.2.2
      have h' := h.2.2.2
      rw [WF.cons_iff] at h'
      rw [negTail]
      refine ⟨.cons (Nat.le_refl _) (by omega) (by omega) (i1.mono (by omega)), fun x hx => ?_⟩
      rw [mem_cons, i2 x hx]
      have b1 := fun h'' => h.2.2.2.bounds (x := x) h''
      grind [mem_cons]

/-- If no range ends at the end of the code space, the result is strict. -/
theorem negTail_strict {S : Nat} : ∀ (l : Ranges) (tmp : Nat), WF S False (tmp + 1) l →
    (∀ p ∈ l, p.2 < S) → WF S False tmp (negTail S tmp l) := by
  intro l
  induction l with
  | nil => intro tmp _ _; exact .nil
  | cons p l ih =>
    intro tmp h hS
    obtain ⟨a, b⟩ := p
    rw [WF.cons_iff] at h
    have hb := hS (a, b) List.mem_cons_self
    simp only at hb
    cases l with
    | nil =>
      rw [negTail, if_pos (by omega)]
      exact .cons (Nat.le_refl _) (by omega) (by omega) (.cons (by omega) (Nat.le_refl S) (by omega) .nil)
    | cons q l =>
      rw [negTail]
      exact .cons (Nat.le_refl _) (by omega) (by omega)
        ((ih b h.2.2.2 fun p hp => hS p (List.mem_cons_of_mem _ hp)).mono (by omega))

theorem negateLoop_eq (S : Nat) : ∀ (l : Ranges) (tmp : Nat), l ≠ [] →
    (match (negateLoop tmp l).1.getLast? with
      | none => (negateLoop tmp l).1
      | some p => if p.2 ≠ S then (negateLoop tmp l).1 ++ [((negateLoop tmp l).2, S)] else (negateLoop tmp l).1)
    = negTail S tmp l := by
  intro l
  induction l with
  | nil => intro tmp h; simp at h
  | cons p l ih =>
    intro tmp _
    obtain ⟨a, b⟩ := p
    cases l with
    | nil => simp only [negateLoop, negTail]; by_cases h : a = S <;> simp [h]
    | cons q l =>
      rw [negTail, ← ih b (by simp)]
      obtain ⟨c, d⟩ := q
      simp only [negateLoop, List.getLast?_cons_cons]
      split
      · rename_i h; simp at h
      · split <;> simp

/-- `negate` computes the complement in the code space. -/
theorem negate_spec {S : Nat} {w : Prop} {s : Seq} (he : s.eps = false) (h : WF S w 0 s.data) :
    WF S True 0 (s.negate S).data ∧ (s.negate S).eps = false ∧
    ∀ x, x < S → (mem (s.negate S).data x ↔ ¬ mem s.data x) := by
  obtain ⟨data, eps⟩ := s
  simp only at he h
  subst he
  cases data with
  | nil =>
    refine ⟨?_, rfl, fun x hx => ?_⟩
    · refine .cons (Nat.le_refl _) (Nat.le_refl S) ?_ .nil
      by_cases hS : S = 0
      · exact Or.inr ⟨trivial, hS.symm, rfl⟩
      · left; omega
    · simp [Seq.negate, hx]
  | cons p l =>
    obtain ⟨a, b⟩ := p
    by_cases ha : a = 0
    · subst ha
      obtain ⟨i1, i2⟩ := negateZero_spec l 0 0 b h
      simp only [Seq.negate, Bool.false_eq_true, if_false, if_true]
      refine ⟨(i1.weaken).mono (Nat.zero_le _), trivial, fun x hx => ?_⟩
      rw [i2 x hx]
      rw [WF.cons_iff] at h
      have b1 := fun h' => h.2.2.2.bounds (x := x) h'
      grind [mem_cons]
    · obtain ⟨i1, i2⟩ := negTail_spec (w := w) ((a, b) :: l) 0 (by simp) (by
        rw [WF.cons_iff] at h ⊢; exact ⟨by omega, h.2⟩)
      have hn : (Seq.negate S ⟨(a, b) :: l, false⟩) = ⟨negTail S 0 ((a, b) :: l), false⟩ := by
        rw [← negateLoop_eq S ((a, b) :: l) 0 (by simp)]
        simp only [Seq.negate, Bool.false_eq_true, if_false, if_neg ha]
        split <;> simp_all
      rw [hn]
      refine ⟨i1, rfl, fun x hx => ?_⟩
      rw [i2 x hx]; simp

/-- Strict lists with the same elements are equal. -/
theorem WF.ext {S : Nat} : ∀ {l m : Ranges} {n k : Nat}, WF S False n l → WF S False k m →
    (∀ x, mem l x ↔ mem m x) → l = m := by
  intro l
  induction l with
  | nil =>
    intro m n k _ hm h
    cases m with
    | nil => rfl
    | cons q m =>
      obtain ⟨c, d⟩ := q
      rw [WF.cons_iff] at hm
      have := (h c).mpr (by rw [mem_cons]; left; grind)
      simp at this
  | cons p l ih =>
    intro m n k hl hm h
    obtain ⟨a, b⟩ := p
    rw [WF.cons_iff] at hl
    cases m with
    | nil =>
      have := (h a).mp (by rw [mem_cons]; left; grind)
      simp at this
    | cons q m =>
      obtain ⟨c, d⟩ := q
      rw [WF.cons_iff] at hm
      have bl := fun x h => hl.2.2.2.bounds (x := x) h
      have bm := fun x h => hm.2.2.2.bounds (x := x) h
      simp only [mem_cons] at h
      have h1 := h a
      have h2 := h c
      have h3 := h b
      have h4 := h d
      have e1 : a = c := by grind
      subst e1
      have e2 : b = d := by grind
      subst e2
      rw [ih hl.2.2.2 hm.2.2.2 (fun x => by have := h x; have := bl x; have := bm x; grind)]

theorem WF.empty_iff {S n : Nat} {l : Ranges} (h : WF S False n l) : l = [] ↔ ∀ x, ¬ mem l x := by
  constructor
  · rintro rfl x; simp
  · intro h'
    exact WF.ext h (WF.nil (n := 0)) (fun x => by simp [h' x])

end Verif.CharSet
