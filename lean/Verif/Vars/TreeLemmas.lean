import Verif.Vars.Spec

/-!
# Lemmas about the trees
-/

namespace Verif.Vars

/-! ## Stores -/

/-- What a series of assignments does to the members. -/
def assigned (st : Store) : List (Decl × Tree) → Store
  | [] => st
  | (d, v) :: t => assigned (if d.temp then st else update st d.name d.seq fun old => if d.seq then old ++ [v] else [v]) t

theorem assigned_append (a b : List (Decl × Tree)) : ∀ st, assigned st (a ++ b) = assigned (assigned st a) b := by
  induction a with
  | nil => intro st; rfl
  | cons p a ih => intro st; simp only [List.cons_append, assigned, ih]

/-- Each variable stands once in a store. -/
def Once (st : Store) : Prop := st.Pairwise fun p q => ¬ (p.1 = q.1 ∧ p.2.1 = q.2.1)

theorem mem_update_key {st : Store} {n b g m c v} : (m, c, v) ∈ update st n b g → (m = n ∧ c = b) ∨ ∃ v', (m, c, v') ∈ st := by
  induction st with
  | nil => intro h; simp [update] at h; exact Or.inl ⟨h.1, h.2.1⟩
  | cons p st ih =>
    obtain ⟨m', c', w⟩ := p
    intro h
    rw [update] at h
    split at h
    · rename_i he
      rcases List.mem_cons.1 h with h | h
      · cases h; exact Or.inl he
      · exact Or.inr ⟨v, List.mem_cons_of_mem _ h⟩
    · rcases List.mem_cons.1 h with h | h
      · cases h; exact Or.inr ⟨_, List.mem_cons_self⟩
      · rcases ih h with h | ⟨v', h⟩
        · exact Or.inl h
        · exact Or.inr ⟨v', List.mem_cons_of_mem _ h⟩

theorem once_update {st : Store} {n b g} (h : Once st) : Once (update st n b g) := by
  induction st with
  | nil => simp [update, Once]
  | cons p st ih =>
    obtain ⟨m', c', w⟩ := p
    have h1 := List.pairwise_cons.1 h
    rw [update]
    split
    · exact List.pairwise_cons.2 ⟨h1.1, h1.2⟩
    · rename_i he
      refine List.pairwise_cons.2 ⟨?_, ih h1.2⟩
      rintro ⟨m, c, v⟩ hm ⟨h2, h3⟩
      rcases mem_update_key hm with ⟨rfl, rfl⟩ | ⟨v', hv⟩
      · exact he ⟨h2, h3⟩
      · exact h1.1 _ hv ⟨h2, h3⟩

/-- The members of `update`. -/
theorem mem_update {st : Store} {n b g} (h : Once st) {m c v} : (m, c, v) ∈ update st n b g ↔
    (m = n ∧ c = b ∧ ((∃ w, (n, b, w) ∈ st ∧ v = g w) ∨ ((∀ w, (n, b, w) ∉ st) ∧ v = g []))) ∨ (¬ (m = n ∧ c = b) ∧ (m, c, v) ∈ st) := by
  induction st with
  | nil =>
    simp only [update, List.mem_singleton, Prod.mk.injEq, List.not_mem_nil, false_and, exists_false, false_or, not_false_eq_true, implies_true, true_and, and_false, or_false]
  | cons p st ih =>
    obtain ⟨m', c', w⟩ := p
    have h1 := List.pairwise_cons.1 h
    have ih := ih h1.2
    rw [update]
    split
    · rename_i he
      obtain ⟨rfl, rfl⟩ := he
      constructor
      · intro hm
        rcases List.mem_cons.1 hm with hx | hx
        · cases hx
          exact Or.inl ⟨rfl, rfl, Or.inl ⟨w, List.mem_cons_self, rfl⟩⟩
        · refine Or.inr ⟨?_, List.mem_cons_of_mem _ hx⟩
          rintro ⟨rfl, rfl⟩
          exact h1.1 _ hx ⟨rfl, rfl⟩
      · rintro (⟨rfl, rfl, (⟨w', hw, rfl⟩ | ⟨hw, rfl⟩)⟩ | ⟨hn, hm⟩)
        · rcases List.mem_cons.1 hw with hw | hw
          · cases hw; exact List.mem_cons_self
          · exact absurd ⟨rfl, rfl⟩ (h1.1 _ hw)
        · exact absurd List.mem_cons_self (hw w)
        · rcases List.mem_cons.1 hm with hm | hm
          · cases hm; exact absurd ⟨rfl, rfl⟩ hn
          · exact List.mem_cons_of_mem _ hm
    · rename_i he
      rw [List.mem_cons, ih]
      constructor
      · rintro (hm | ⟨rfl, rfl, (⟨w', hw, rfl⟩ | ⟨hw, rfl⟩)⟩ | ⟨hn, hm⟩)
        · cases hm
          exact Or.inr ⟨he, List.mem_cons_self⟩
        · exact Or.inl ⟨rfl, rfl, Or.inl ⟨w', List.mem_cons_of_mem _ hw, rfl⟩⟩
        · refine Or.inl ⟨rfl, rfl, Or.inr ⟨fun x hx => ?_, rfl⟩⟩
          rcases List.mem_cons.1 hx with hx | hx
          · cases hx; exact he ⟨rfl, rfl⟩
          · exact hw x hx
        · exact Or.inr ⟨hn, List.mem_cons_of_mem _ hm⟩
      · rintro (⟨rfl, rfl, (⟨w', hw, rfl⟩ | ⟨hw, rfl⟩)⟩ | ⟨hn, hm⟩)
        · rcases List.mem_cons.1 hw with hw | hw
          · cases hw; exact absurd ⟨rfl, rfl⟩ he
          · exact Or.inr (Or.inl ⟨rfl, rfl, Or.inl ⟨w', hw, rfl⟩⟩)
        · exact Or.inr (Or.inl ⟨rfl, rfl, Or.inr ⟨fun x hx => hw x (List.mem_cons_of_mem _ hx), rfl⟩⟩)
        · rcases List.mem_cons.1 hm with hm | hm
          · exact Or.inl hm
          · exact Or.inr (Or.inr ⟨hn, hm⟩)

theorem collected_snoc (ev : List (Decl × Tree)) (d : Decl) (v : Tree) (n : String) (b : Bool) :
    collected (ev ++ [(d, v)]) n b = if d.temp = false ∧ d.name = n ∧ d.seq = b then (if b then collected ev n b ++ [v] else [v]) else collected ev n b := by
  unfold collected
  rw [List.filter_append, List.map_append]
  by_cases h : d.temp = false ∧ d.name = n ∧ d.seq = b
  · rw [if_pos h]
    have : List.filter (fun p : Decl × Tree => decide (p.1.temp = false ∧ p.1.name = n ∧ p.1.seq = b)) [(d, v)] = [(d, v)] := by
      rw [List.filter_cons_of_pos (by simpa using h)]; rfl
    rw [this]
    cases b <;> simp
  · rw [if_neg h]
    have : List.filter (fun p : Decl × Tree => decide (p.1.temp = false ∧ p.1.name = n ∧ p.1.seq = b)) [(d, v)] = [] := by
      rw [List.filter_cons_of_neg (by simpa using h)]; rfl
    rw [this]
    simp

theorem holds_assigned (ev : List (Decl × Tree)) : ∀ {pre : List (Decl × Tree)} {st : Store}, Once st → Holds pre st →
    Once (assigned st ev) ∧ Holds (pre ++ ev) (assigned st ev) := by
  induction ev with
  | nil => intro pre st h1 h2; simpa [assigned] using ⟨h1, h2⟩
  | cons p ev ih =>
    obtain ⟨d, v⟩ := p
    intro pre st h1 h2
    rw [assigned, show pre ++ (d, v) :: ev = (pre ++ [(d, v)]) ++ ev by simp]
    by_cases ht : d.temp = true
    · rw [if_pos ht]
      refine ih h1 ⟨fun n b w hw => ?_, fun n b hc => ?_⟩
      · rw [collected_snoc, if_neg (by simp [ht])]; exact h2.1 n b w hw
      · rw [collected_snoc, if_neg (by simp [ht])] at hc; exact h2.2 n b hc
    · rw [if_neg ht]
      have ht' : d.temp = false := by simpa using ht
      refine ih (once_update h1) ⟨fun n b w hw => ?_, fun n b hc => ?_⟩
      · rw [collected_snoc]
        rcases (mem_update h1).1 hw with ⟨rfl, rfl, h⟩ | ⟨hn, hm⟩
        · rw [if_pos ⟨ht', rfl, rfl⟩]
          rcases h with ⟨x, hx, rfl⟩ | ⟨hx, rfl⟩
          · rw [h2.1 _ _ _ hx]
          · cases hs : d.seq with
            | false => simp
            | true =>
              simp only [if_true, List.nil_append]
              have : collected pre d.name true = [] := by
                cases hc : collected pre d.name true with
                | nil => rfl
                | cons a l =>
                  obtain ⟨y, hy⟩ := h2.2 d.name true (by rw [hc]; simp)
                  rw [← hs] at hy
                  exact absurd hy (hx y)
              rw [this, List.nil_append]
        · rw [if_neg (by rintro ⟨_, rfl, rfl⟩; exact hn ⟨rfl, rfl⟩)]
          exact h2.1 _ _ _ hm
      · rw [collected_snoc] at hc
        by_cases hk : d.name = n ∧ d.seq = b
        · obtain ⟨rfl, rfl⟩ := hk
          by_cases hx : ∃ w, (d.name, d.seq, w) ∈ st
          · obtain ⟨w, hw⟩ := hx
            exact ⟨_, (mem_update h1).2 (Or.inl ⟨rfl, rfl, Or.inl ⟨w, hw, rfl⟩⟩)⟩
          · exact ⟨_, (mem_update h1).2 (Or.inl ⟨rfl, rfl, Or.inr ⟨fun w hw => hx ⟨w, hw⟩, rfl⟩⟩)⟩
        · rw [if_neg (by rintro ⟨_, h⟩; exact hk h)] at hc
          obtain ⟨w, hw⟩ := h2.2 n b hc
          exact ⟨w, (mem_update h1).2 (Or.inr ⟨by rintro ⟨rfl, rfl⟩; exact hk ⟨rfl, rfl⟩, hw⟩)⟩

theorem holds_all (ev : List (Decl × Tree)) : Holds ev (assigned [] ev) := by
  have := (holds_assigned ev (pre := []) (st := []) List.Pairwise.nil ⟨fun n b v h => absurd h List.not_mem_nil, fun n b h => absurd (by cases b <;> rfl) h⟩).2
  simpa using this

/-! ## Positions only grow -/

theorem skipTo_le {W : World} {follow : List Nat} : ∀ {f p q : Nat}, skipTo W follow f p = some q → p ≤ q ∧ (W.toks q = W.eof ∨ W.toks q ∈ follow)
  | 0, _, _, h => by simp [skipTo] at h
  | f + 1, p, q, h => by
    rw [skipTo] at h
    split at h
    · rename_i hc; cases h; exact ⟨Nat.le_refl _, hc⟩
    · have := skipTo_le h
      exact ⟨by omega, this.2⟩

theorem assign_pos {st : St} {d : Decl} {v : Tree} : (st.assign d v).pos = st.pos := by
  by_cases h : d.temp = true <;> simp [St.assign, h]

theorem pos_mono (W : World) : ∀ f : Nat, (∀ code st r st', exec W f code st = some (r, st') → st.pos ≤ st'.pos) ∧
    (∀ s st t p n, parse W f s st = some (t, p, n) → st.pos ≤ p) := by
  intro f
  induction f with
  | zero => exact ⟨fun code st r st' h => by simp [exec] at h, fun s st t p n h => by simp [parse] at h⟩
  | succ f ih =>
    obtain ⟨ih1, ih2⟩ := ih
    constructor
    · intro code st r st' h
      cases code with
      | skip => simp only [exec, Option.some.injEq, Prod.mk.injEq] at h; rw [← h.2]
                exact Nat.le_refl _
      | seq a b =>
        simp only [exec] at h
        split at h
        · rename_i st1 h1
          exact Nat.le_trans (ih1 _ _ _ _ h1) (ih1 _ _ _ _ h)
        · exact ih1 _ _ _ _ h
      | test t c => simp only [exec, Option.some.injEq, Prod.mk.injEq] at h; rw [← h.2]; exact Nat.le_refl _
      | lex => simp only [exec, Option.some.injEq, Prod.mk.injEq] at h; rw [← h.2]; exact Nat.le_succ _
      | setTok d => simp only [exec, Option.some.injEq, Prod.mk.injEq] at h; rw [← h.2, assign_pos]; exact Nat.le_refl _
      | snocTok d => simp only [exec, Option.some.injEq, Prod.mk.injEq] at h; rw [← h.2, assign_pos]; exact Nat.le_refl _
      | call s c =>
        simp only [exec] at h
        split at h
        · rename_i h1; simp only [Option.some.injEq, Prod.mk.injEq] at h; rw [← h.2]; exact ih2 _ _ _ _ _ h1
        · rename_i h1; simp only [Option.some.injEq, Prod.mk.injEq] at h; rw [← h.2]; exact ih2 _ _ _ _ _ h1
        · cases h
      | callSet s c d =>
        simp only [exec] at h
        split at h
        · rename_i h1; simp only [Option.some.injEq, Prod.mk.injEq] at h; rw [← h.2, assign_pos]; exact ih2 _ _ _ _ _ h1
        · rename_i h1; simp only [Option.some.injEq, Prod.mk.injEq] at h; rw [← h.2]; exact ih2 _ _ _ _ _ h1
        · cases h
      | callSnoc s c d =>
        simp only [exec] at h
        split at h
        · rename_i h1; simp only [Option.some.injEq, Prod.mk.injEq] at h; rw [← h.2, assign_pos]; exact ih2 _ _ _ _ _ h1
        · rename_i h1; simp only [Option.some.injEq, Prod.mk.injEq] at h; rw [← h.2]; exact ih2 _ _ _ _ _ h1
        · cases h
      | ite a b =>
        simp only [exec] at h
        split at h
        · exact ih1 _ { st with asked := st.asked + 1 } _ _ h
        · exact ih1 _ { st with asked := st.asked + 1 } _ _ h
      | «while» b =>
        simp only [exec] at h
        split at h
        · split at h
          · rename_i st1 h1
            exact Nat.le_trans (ih1 _ { st with asked := st.asked + 1 } _ _ h1) (ih1 _ _ _ _ h)
          · exact ih1 _ { st with asked := st.asked + 1 } _ _ h
        · simp only [Option.some.injEq, Prod.mk.injEq] at h; rw [← h.2]; exact Nat.le_refl _
      | doWhile b =>
        simp only [exec] at h
        split at h
        · rename_i st1 h1
          split at h
          · exact Nat.le_trans (ih1 _ _ _ _ h1) (ih1 _ { st1 with asked := st1.asked + 1 } _ _ h)
          · simp only [Option.some.injEq, Prod.mk.injEq] at h; rw [← h.2]; have e := ih1 _ _ _ _ h1; exact e
        · exact ih1 _ _ _ _ h
      | fail c => simp only [exec, Option.some.injEq, Prod.mk.injEq] at h; rw [← h.2]; exact Nat.le_refl _
      | eof => simp only [exec, Option.some.injEq, Prod.mk.injEq] at h; rw [← h.2]; exact Nat.le_refl _
      | recover i body follow =>
        simp only [exec] at h
        split at h
        · rename_i j st1 h1
          have h2 := ih1 _ _ _ _ h1
          split at h
          · simp only [Option.map_eq_some_iff, Prod.mk.injEq] at h
            obtain ⟨q, hq, _, rfl⟩ := h
            have := (skipTo_le hq).1
            dsimp only
            split at this <;> omega
          · simp only [Option.some.injEq, Prod.mk.injEq] at h; rw [← h.2]; exact h2
        · exact ih1 _ _ _ _ h
      | rollback i body handler =>
        simp only [exec] at h
        split at h
        · rename_i j st1 h1
          have h2 := ih1 _ _ _ _ h1
          split at h
          · exact ih1 _ { st1 with pos := st.pos } _ _ h
          · simp only [Option.some.injEq, Prod.mk.injEq] at h; rw [← h.2]; exact h2
        · exact ih1 _ _ _ _ h
    · intro s st t p n h
      simp only [parse] at h
      split at h
      · cases h
      · rename_i code _
        split at h
        · cases h
        · rename_i st1 h1
          simp only [Option.some.injEq, Prod.mk.injEq] at h
          rw [← h.2.1]
          exact ih1 _ { pos := st.pos, asked := st.asked } _ _ h1
        · rename_i st1 _ h1
          simp only [Option.some.injEq, Prod.mk.injEq] at h
          rw [← h.2.1]
          exact ih1 _ { pos := st.pos, asked := st.asked } _ _ h1

/-! ## Code without assignments -/

/-- No assignments. -/
def Code.quiet : Code → Bool
  | .seq a b => a.quiet && b.quiet
  | .setTok _ => false
  | .snocTok _ => false
  | .callSet _ _ _ => false
  | .callSnoc _ _ _ => false
  | .ite a b => a.quiet && b.quiet
  | .while b => b.quiet
  | .doWhile b => b.quiet
  | .recover _ b _ => b.quiet
  | .rollback _ a b => a.quiet && b.quiet
  | _ => true

theorem quiet_exec (W : World) : ∀ (f : Nat) (code : Code) (st : St) (r : Res) (st' : St), exec W f code st = some (r, st') → code.quiet = true → st'.members = st.members := by
  intro f
  induction f with
  | zero => intro code st r st' h; simp [exec] at h
  | succ f ih =>
    intro code st r st' h hq
    cases code with
    | skip => simp only [exec, Option.some.injEq, Prod.mk.injEq] at h; rw [← h.2]
    | seq a b =>
      simp only [Code.quiet, Bool.and_eq_true] at hq
      simp only [exec] at h
      split at h
      · rename_i st1 h1
        rw [ih _ _ _ _ h hq.2, ih _ _ _ _ h1 hq.1]
      · (have e := ih _ _ _ _ h hq.1; exact e)
    | test t c => simp only [exec, Option.some.injEq, Prod.mk.injEq] at h; rw [← h.2]
    | lex => simp only [exec, Option.some.injEq, Prod.mk.injEq] at h; rw [← h.2]
    | setTok d => simp [Code.quiet] at hq
    | snocTok d => simp [Code.quiet] at hq
    | call s c =>
      simp only [exec] at h
      split at h
      · simp only [Option.some.injEq, Prod.mk.injEq] at h; rw [← h.2]
      · simp only [Option.some.injEq, Prod.mk.injEq] at h; rw [← h.2]
      · cases h
    | callSet s c d => simp [Code.quiet] at hq
    | callSnoc s c d => simp [Code.quiet] at hq
    | ite a b =>
      simp only [Code.quiet, Bool.and_eq_true] at hq
      simp only [exec] at h
      split at h
      · (have e := ih _ _ _ _ h hq.1; exact e)
      · (have e := ih _ _ _ _ h hq.2; exact e)
    | «while» b =>
      simp only [exec] at h
      split at h
      · split at h
        · rename_i st1 h1
          rw [ih _ _ _ _ h hq, ih _ _ _ _ h1 hq]
        · (have e := ih _ _ _ _ h hq; exact e)
      · simp only [Option.some.injEq, Prod.mk.injEq] at h; rw [← h.2]
    | doWhile b =>
      simp only [exec] at h
      split at h
      · rename_i st1 h1
        split at h
        · rw [ih _ _ _ _ h hq]; (have e := ih _ _ _ _ h1 hq; exact e)
        · simp only [Option.some.injEq, Prod.mk.injEq] at h; rw [← h.2]; (have e := ih _ _ _ _ h1 hq; exact e)
      · (have e := ih _ _ _ _ h hq; exact e)
    | fail c => simp only [exec, Option.some.injEq, Prod.mk.injEq] at h; rw [← h.2]
    | eof => simp only [exec, Option.some.injEq, Prod.mk.injEq] at h; rw [← h.2]
    | recover i body follow =>
      simp only [exec] at h
      split at h
      · rename_i j st1 h1
        have h2 := ih _ _ _ _ h1 hq
        split at h
        · simp only [Option.map_eq_some_iff, Prod.mk.injEq] at h
          obtain ⟨q, hq, _, rfl⟩ := h
          exact h2
        · simp only [Option.some.injEq, Prod.mk.injEq] at h; rw [← h.2]; exact h2
      · (have e := ih _ _ _ _ h hq; exact e)
    | rollback i body handler =>
      simp only [Code.quiet, Bool.and_eq_true] at hq
      simp only [exec] at h
      split at h
      · rename_i j st1 h1
        have h2 := ih _ _ _ _ h1 hq.1
        split at h
        · rw [ih _ _ _ _ h hq.2]; exact h2
        · simp only [Option.some.injEq, Prod.mk.injEq] at h; rw [← h.2]; exact h2
      · (have e := ih _ _ _ _ h hq.1; exact e)

theorem quiet_chain {c : Nat} {l : List Code} (h : ∀ a ∈ l, a.quiet = true) : (chain c l).quiet = true := by
  induction l with
  | nil => rfl
  | cons a l ih =>
    simp only [chain, Code.quiet, Bool.and_eq_true]
    exact ⟨h a List.mem_cons_self, ih fun b hb => h b (List.mem_cons_of_mem _ hb)⟩

theorem quiet_emit (G : Grammar) : ∀ f : Nat, (∀ i c k code k', emit G f i c k = some (code, k') → Plain i → code.quiet = true) ∧
    (∀ i c k codes k', emitAlts G f i c k = some (codes, k') → Plain i → ∀ a ∈ codes, a.quiet = true) := by
  intro f
  induction f with
  | zero => exact ⟨fun i c k code k' h => by simp [emit] at h, fun i c k code k' h => by simp [emitAlts] at h⟩
  | succ f ih =>
    obtain ⟨ih1, ih2⟩ := ih
    have one : ∀ i c k code k', emit G (f + 1) i c k = some (code, k') → Plain i → code.quiet = true := by
      intro i c k code k' h hp
      cases i with
      | zero => simp only [emit, Option.some.injEq, Prod.mk.injEq] at h; rw [← h.1]; rfl
      | atom a =>
        cases a <;> simp only [emit, Option.some.injEq, Prod.mk.injEq] at h <;> rw [← h.1] <;> rfl
      | inl s => exact absurd hp id
      | ann d a => exact absurd hp id
      | cons l r =>
        simp only [emit, Option.bind_eq_some_iff, Option.map_eq_some_iff, Prod.mk.injEq] at h
        obtain ⟨⟨p1, p2⟩, hp1, ⟨q1, q2⟩, hq1, rfl, rfl⟩ := h
        simp only [Code.quiet, Bool.and_eq_true]
        exact ⟨ih1 _ _ _ _ _ hp1 hp.1, ih1 _ _ _ _ _ hq1 hp.2⟩
      | alt l r =>
        simp only [emit, Option.bind_eq_some_iff, Option.map_eq_some_iff, Prod.mk.injEq] at h
        obtain ⟨⟨p1, p2⟩, hp1, ⟨q1, q2⟩, hq1, rfl, rfl⟩ := h
        refine quiet_chain fun a ha => ?_
        rcases List.mem_append.1 ha with ha | ha
        · exact ih2 _ _ _ _ _ hp1 hp.1 a ha
        · exact ih2 _ _ _ _ _ hq1 hp.2 a ha
      | star x =>
        simp only [emit, Option.map_eq_some_iff, Prod.mk.injEq] at h
        obtain ⟨⟨p1, p2⟩, hp1, rfl, rfl⟩ := h
        (have e := ih1 _ _ _ _ _ hp1 hp; exact e)
      | plus x =>
        simp only [emit, Option.map_eq_some_iff, Prod.mk.injEq] at h
        obtain ⟨⟨p1, p2⟩, hp1, rfl, rfl⟩ := h
        (have e := ih1 _ _ _ _ _ hp1 hp; exact e)
      | act x => simp only [emit] at h; (have e := ih1 _ _ _ _ _ h hp; exact e)
      | cond x => simp only [emit] at h; (have e := ih1 _ _ _ _ _ h hp; exact e)
      | recover x fl =>
        simp only [emit, Option.map_eq_some_iff, Prod.mk.injEq] at h
        obtain ⟨⟨p1, p2⟩, hp1, rfl, rfl⟩ := h
        (have e := ih1 _ _ _ _ _ hp1 hp; exact e)
      | rollback x y =>
        simp only [emit, Option.bind_eq_some_iff, Option.map_eq_some_iff, Prod.mk.injEq] at h
        obtain ⟨⟨p1, p2⟩, hp1, ⟨q1, q2⟩, hq1, rfl, rfl⟩ := h
        simp only [Code.quiet, Bool.and_eq_true]
        exact ⟨ih1 _ _ _ _ _ hp1 hp.1, ih1 _ _ _ _ _ hq1 hp.2⟩
      | op => simp [emit] at h
    refine ⟨one, ?_⟩
    intro i c k codes k' h hp a ha
    rw [emitAlts.eq_def] at h
    dsimp only at h
    split at h
    · simp only [Option.bind_eq_some_iff, Option.map_eq_some_iff, Prod.mk.injEq] at h
      obtain ⟨⟨p1, p2⟩, hp1, ⟨q1, q2⟩, hq1, rfl, rfl⟩ := h
      rcases List.mem_append.1 ha with ha | ha
      · exact ih2 _ _ _ _ _ hp1 hp.1 a ha
      · exact ih2 _ _ _ _ _ hq1 hp.2 a ha
    · simp only [Option.map_eq_some_iff, Prod.mk.injEq] at h
      obtain ⟨⟨p1, p2⟩, hp1, rfl, rfl⟩ := h
      rw [List.mem_singleton] at ha
      subst ha
      (have e := ih1 _ _ _ _ _ hp1 hp; exact e)

/-! ## Choices -/

/-- `x` is an alternative of `i`. -/
inductive AltOf : Item → Item → Prop
  | self {x} : AltOf x x
  | left {x l r} : AltOf x l → AltOf x (.alt l r)
  | right {x l r} : AltOf x r → AltOf x (.alt l r)

theorem altOf_built {G toks eof x i ev a b} (h : AltOf x i) (hb : Built G toks eof (.item x ev) a b) : Built G toks eof (.item i ev) a b := by
  induction h with
  | self => exact hb
  | left _ ih => exact .altL ih
  | right _ ih => exact .altR ih

theorem altOf_tryPlain {x i} (h : AltOf x i) (hp : TryPlain i) : TryPlain x := by
  induction h with
  | self => exact hp
  | left _ ih => exact ih hp.1
  | right _ ih => exact ih hp.2

theorem emitAlts_mem (G : Grammar) : ∀ (f : Nat) {i c k codes k' a}, emitAlts G f i c k = some (codes, k') → a ∈ codes →
    ∃ x f' k1 k2, AltOf x i ∧ f' < f ∧ emit G f' x c k1 = some (a, k2) := by
  intro f
  induction f with
  | zero => intro i c k codes k' a h; simp [emitAlts] at h
  | succ f ih =>
    intro i c k codes k' a h ha
    rw [emitAlts.eq_def] at h
    dsimp only at h
    split at h
    · simp only [Option.bind_eq_some_iff, Option.map_eq_some_iff, Prod.mk.injEq] at h
      obtain ⟨⟨p1, p2⟩, hp1, ⟨q1, q2⟩, hq1, rfl, rfl⟩ := h
      rcases List.mem_append.1 ha with ha | ha
      · obtain ⟨x, f', k1, k2, h1, h2, h3⟩ := ih hp1 ha
        exact ⟨x, f', k1, k2, .left h1, by omega, h3⟩
      · obtain ⟨x, f', k1, k2, h1, h2, h3⟩ := ih hq1 ha
        exact ⟨x, f', k1, k2, .right h1, by omega, h3⟩
    · simp only [Option.map_eq_some_iff, Prod.mk.injEq] at h
      obtain ⟨⟨p1, p2⟩, hp1, rfl, rfl⟩ := h
      rw [List.mem_singleton] at ha
      subst ha
      exact ⟨i, f, k, p2, .self, by omega, hp1⟩

theorem failed_ne (c : Nat) : failed c ≠ .ok := by unfold failed; split <;> simp

theorem exec_chain (W : World) {c : Nat} {st' : St} : ∀ (f : Nat) (l : List Code) (st : St), exec W f (chain c l) st = some (.ok, st') →
    ∃ a ∈ l, ∃ f' n, f' < f ∧ exec W f' a { st with asked := n } = some (.ok, st')
  | 0, _, _, h => by simp [exec] at h
  | f + 1, [], st, h => by
    simp only [chain, exec, Option.some.injEq, Prod.mk.injEq] at h
    exact absurd h.1 (failed_ne c)
  | f + 1, a :: l, st, h => by
    simp only [chain, exec] at h
    split at h
    · exact ⟨a, List.mem_cons_self, f, _, by omega, h⟩
    · obtain ⟨b, hb, f', n, h1, h2⟩ := exec_chain W f l _ h
      exact ⟨b, List.mem_cons_of_mem _ hb, f', n, by omega, h2⟩

theorem exec_rules (W : World) {s : Nat} {st' : St} {fe : Nat} : ∀ (f : Nat) (rs : List Rule) (k : Nat) (code : Code) (st : St), emitRules W.G fe s rs k = some code →
    exec W f code st = some (.ok, st') → ∃ r ∈ rs, ∃ k1 k2 body f' n, f' < f ∧ emit W.G fe r.item 0 k1 = some (body, k2) ∧
      exec W f' (.seq body (if W.G.start s then .eof else .skip)) { st with asked := n } = some (.ok, st')
  | 0, _, _, _, _, _, h => by simp [exec] at h
  | f + 1, [], k, code, st, he, h => by
    simp only [emitRules, Option.some.injEq] at he
    subst he
    simp only [exec, Option.some.injEq, Prod.mk.injEq] at h
    exact absurd h.1 (failed_ne 0)
  | f + 1, r :: rs, k, code, st, he, h => by
    simp only [emitRules, Option.bind_eq_some_iff, Option.map_eq_some_iff] at he
    obtain ⟨⟨p1, p2⟩, hp, q, hq, rfl⟩ := he
    simp only [exec] at h
    split at h
    · exact ⟨r, List.mem_cons_self, k, p2, p1, f, _, by omega, hp, h⟩
    · obtain ⟨r', hr, k1, k2, body, f', n, h1, h2, h3⟩ := exec_rules W f rs _ _ _ hq h
      exact ⟨r', List.mem_cons_of_mem _ hr, k1, k2, body, f', n, by omega, h2, h3⟩

/-- `if (Token_EOF != yytoken)` after the body. -/
theorem exec_end (W : World) {s f : Nat} {body : Code} {st st' : St} (h : exec W f (.seq body (if W.G.start s then .eof else .skip)) st = some (.ok, st')) :
    ∃ f', f' < f ∧ exec W f' body st = some (.ok, st') ∧ (W.G.start s = true → W.toks st'.pos = W.eof) := by
  cases f with
  | zero => simp [exec] at h
  | succ f =>
    simp only [exec] at h
    split at h
    · rename_i st1 h1
      cases f with
      | zero => simp [exec] at h
      | succ f =>
        by_cases hs : W.G.start s = true
        · rw [if_pos hs] at h
          simp only [exec, Option.some.injEq, Prod.mk.injEq] at h
          obtain ⟨h2, rfl⟩ := h
          refine ⟨f + 1, by omega, h1, fun _ => ?_⟩
          split at h2
          · assumption
          · cases h2
        · rw [if_neg hs] at h
          simp only [exec, Option.some.injEq, Prod.mk.injEq] at h
          obtain ⟨_, rfl⟩ := h
          exact ⟨f + 1, by omega, h1, fun h => absurd h hs⟩
    · rename_i r hr
      exact absurd h (hr _)

end Verif.Vars
