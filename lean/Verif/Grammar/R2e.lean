import Verif.Grammar.Bnf
import Mathlib.Tactic.Tauto

/-!
# Lemmas on `reducesToEpsilon`
-/

namespace Verif.Grammar

variable {W : World} {F : Sets}

/-! ### Unfolding -/

theorem r2e_in {f n : Nat} {v : List Nat} {b : Bool} {v' : List Nat} (h : r2e W F f n v = some (b, v')) (hn : n ∈ v) : b = true ∧ v' = v := by
  cases f with
  | zero => cases h
  | succ f => simp only [r2e, hn, if_true, Option.some.injEq, Prod.mk.injEq] at h; exact ⟨h.1.symm, h.2.symm⟩

theorem r2e_const {f n : Nat} {v : List Nat} {b : Bool} {v' : List Nat} (h : r2e W F f n v = some (b, v')) (hn : n ∉ v) :
    (W.node n = some .term → b = false ∧ v' = n :: v) ∧ ((∃ o, W.node n = some (.op o)) → b = false ∧ v' = n :: v) ∧
    ((∃ i s, W.node n = some (.evolve i s)) → b = false ∧ v' = n :: v) ∧
    (W.node n = some .zero → b = true ∧ v' = n :: v) ∧ ((∃ i, W.node n = some (.star i)) → b = true ∧ v' = n :: v) ∧
    (W.node n = some (.action none) → b = true ∧ v' = n :: v) ∧ (W.node n = some (.inlined none) → b = true ∧ v' = n :: v) ∧
    (W.node n = some .sym → b = decide ((n, W.zero) ∈ F) ∧ v' = n :: v) := by
  cases f with
  | zero => cases h
  | succ f =>
    simp only [r2e, hn, if_false] at h
    refine ⟨fun e => ?_, fun ⟨_, e⟩ => ?_, fun ⟨_, _, e⟩ => ?_, fun e => ?_, fun ⟨_, e⟩ => ?_, fun e => ?_, fun e => ?_, fun e => ?_⟩ <;>
      (rw [e] at h; cases h; exact ⟨rfl, rfl⟩)

theorem r2e_one {f n i : Nat} {v : List Nat} {b : Bool} {v' : List Nat} (h : r2e W F f n v = some (b, v')) (hn : n ∉ v)
    (hi : W.node n = some (.action (some i)) ∨ W.node n = some (.cond i) ∨ W.node n = some (.annot i) ∨ W.node n = some (.plus i) ∨
      W.node n = some (.nonterm i) ∨ W.node n = some (.inlined (some i))) : ∃ f', r2e W F f' i (n :: v) = some (b, v') := by
  cases f with
  | zero => cases h
  | succ f =>
    simp only [r2e, hn, if_false] at h
    rcases hi with e | e | e | e | e | e <;> (rw [e] at h; exact ⟨f, h⟩)

theorem r2e_cons {f n l r : Nat} {v : List Nat} {b : Bool} {v' : List Nat} (h : r2e W F f n v = some (b, v')) (hn : n ∉ v)
    (e : W.node n = some (.cons l r)) :
    ∃ f' bl v1, r2e W F f' l (n :: v) = some (bl, v1) ∧ (bl = false ∧ b = false ∧ v' = v1 ∨ bl = true ∧ r2e W F f' r v1 = some (b, v')) := by
  cases f with
  | zero => cases h
  | succ f =>
    simp only [r2e, hn, if_false, e] at h
    cases hl : r2e W F f l (n :: v) with
    | none => rw [hl] at h; cases h
    | some p =>
      obtain ⟨bl, v1⟩ := p
      rw [hl] at h
      cases bl with
      | false => cases h; exact ⟨f, _, _, hl, .inl ⟨rfl, rfl, rfl⟩⟩
      | true => exact ⟨f, _, _, hl, .inr ⟨rfl, h⟩⟩

theorem r2e_alt {f n l r : Nat} {v : List Nat} {b : Bool} {v' : List Nat} (h : r2e W F f n v = some (b, v')) (hn : n ∉ v)
    (e : W.node n = some (.alt l r) ∨ W.node n = some (.tryc l (some r))) :
    ∃ f' bl v1, r2e W F f' l (n :: v) = some (bl, v1) ∧ (bl = true ∧ b = true ∧ v' = v1 ∨ bl = false ∧ r2e W F f' r v1 = some (b, v')) := by
  cases f with
  | zero => cases h
  | succ f =>
    simp only [r2e, hn, if_false] at h
    cases hl : r2e W F f l (n :: v) with
    | none => rcases e with e | e <;> (rw [e] at h; simp only [hl] at h; cases h)
    | some p =>
      obtain ⟨bl, v1⟩ := p
      cases bl with
      | true => rcases e with e | e <;> (rw [e] at h; simp only [hl] at h; cases h; exact ⟨f, _, _, hl, .inl ⟨rfl, rfl, rfl⟩⟩)
      | false => rcases e with e | e <;> (rw [e] at h; simp only [hl] at h; exact ⟨f, _, _, hl, .inr ⟨rfl, h⟩⟩)

theorem r2e_try {f n l : Nat} {v : List Nat} {b : Bool} {v' : List Nat} (h : r2e W F f n v = some (b, v')) (hn : n ∉ v)
    (e : W.node n = some (.tryc l none)) : ∃ f', r2e W F f' l (n :: v) = some (b, v') := by
  cases f with
  | zero => cases h
  | succ f =>
    simp only [r2e, hn, if_false, e] at h
    cases hl : r2e W F f l (n :: v) with
    | none => rw [hl] at h; cases h
    | some p =>
      obtain ⟨bl, v1⟩ := p
      rw [hl] at h
      cases bl with
      | true => cases h; exact ⟨f, hl⟩
      | false => cases h; exact ⟨f, hl⟩

/-- Nothing is forgotten. -/
theorem r2e_mono : ∀ {f n : Nat} {v : List Nat} {b : Bool} {v' : List Nat}, r2e W F f n v = some (b, v') → ∀ m ∈ v, m ∈ v' := by
  intro f
  induction f with
  | zero => intro n v b v' h; cases h
  | succ f ih =>
    intro n v b v' h m hm
    by_cases hn : n ∈ v
    · rw [(r2e_in h hn).2]; exact hm
    · simp only [r2e, hn, if_false] at h
      have two : ∀ {l : Nat} {g : Bool → List Nat → Option (Bool × List Nat)}, (match r2e W F f l (n :: v) with
          | none => none
          | some (true, v1) => g true v1
          | some (false, v1) => g false v1) = some (b, v') → (∀ x v1, g x v1 = some (b, v') → m ∈ v1 → m ∈ v') → m ∈ v' := by
        intro l g h hg
        cases e : r2e W F f l (n :: v) with
        | none => rw [e] at h; cases h
        | some p =>
          obtain ⟨bl, v1⟩ := p
          rw [e] at h
          have := ih e m (by simp [hm])
          cases bl with
          | true => exact hg _ _ h this
          | false => exact hg _ _ h this
      cases e : W.node n with
      | none => rw [e] at h; cases h
      | some it =>
        rw [e] at h
        cases it with
        | cons l r => exact two (g := fun x v1 => if x then r2e W F f r v1 else some (false, v1)) h (fun x v1 => by
            cases x <;> simp only [if_true, if_false, Bool.false_eq_true]
            · intro h hm; cases h; exact hm
            · intro h hm; exact ih h m hm)
        | alt l r => exact two (g := fun x v1 => if x then some (true, v1) else r2e W F f r v1) h (fun x v1 => by
            cases x <;> simp only [if_true, if_false, Bool.false_eq_true]
            · intro h hm; exact ih h m hm
            · intro h hm; cases h; exact hm)
        | tryc l r => cases r with
          | none => exact two (g := fun x v1 => if x then some (true, v1) else some (false, v1)) h (fun x v1 => by
              cases x <;> simp only [if_true, if_false, Bool.false_eq_true]
              · intro h hm; cases h; exact hm
              · intro h hm; cases h; exact hm)
          | some r => exact two (g := fun x v1 => if x then some (true, v1) else r2e W F f r v1) h (fun x v1 => by
              cases x <;> simp only [if_true, if_false, Bool.false_eq_true]
              · intro h hm; exact ih h m hm
              · intro h hm; cases h; exact hm)
        | action i => cases i with
          | none => cases h; simp [hm]
          | some i => exact ih h m (by simp [hm])
        | inlined i => cases i with
          | none => cases h; simp [hm]
          | some i => exact ih h m (by simp [hm])
        | cond i => exact ih h m (by simp [hm])
        | annot i => exact ih h m (by simp [hm])
        | plus i => exact ih h m (by simp [hm])
        | nonterm i => exact ih h m (by simp [hm])
        | zero => cases h; simp [hm]
        | sym => cases h; simp [hm]
        | star i => cases h; simp [hm]
        | op o => cases h; simp [hm]
        | term => cases h; simp [hm]
        | evolve i s => cases h; simp [hm]

/-! ### The FIRST sets are right so far -/

/-- `n` derives something that starts with `e`. -/
def Lead (W : World) (n e : Nat) : Prop := ∃ γ, Der W n (e :: γ)

/-- `e` is rightly in FIRST(n). -/
def Ok (W : World) (n e : Nat) : Prop := (W.node e = some .zero ∧ Nullable W n) ∨ (W.node e = some .term ∧ Lead W n e)

def Sound (W : World) (F : Sets) : Prop := ∀ n e, (n, e) ∈ F → Ok W n e

theorem Sound.zero (hw : Wf W) (h : Sound W F) {n : Nat} (hn : (n, W.zero) ∈ F) : Nullable W n := by
  rcases h _ _ hn with ⟨_, h⟩ | ⟨h, _⟩
  · exact h
  · rw [hw.zero] at h; cases h

/-! ### Order of the nodes -/

theorem parsed_of (hw : Wf W) {n : Nat} {it : Item} (hn : W.node n = some it) (h1 : ∀ l r, it ≠ .cons l r) (h2 : ∀ l r, it ≠ .alt l r) : n < W.parsed := by
  rcases Nat.lt_or_ge n W.parsed with h | h
  · exact h
  · rcases hw.made n it h hn with ⟨l, r, rfl⟩ | ⟨l, r, rfl⟩
    · exact absurd rfl (h1 l r)
    · exact absurd rfl (h2 l r)

theorem part_lt (hw : Wf W) {n m : Nat} (hn : n < W.parsed) (hp : Part W n m) (hno : ∀ o, W.node n ≠ some (.op o)) : m < n := by
  rcases hw.order n m hn hp with h | ⟨o, h⟩
  · exact h
  · exact absurd h (hno o)

theorem starts_le (hw : Wf W) {n m : Nat} (h : Starts W n m) : n < W.parsed → m ≤ n ∨ W.node m = some .sym := by
  have step : ∀ {n k m : Nat}, n < W.parsed → Part W n k → (∀ o, W.node n ≠ some (.op o)) → (k < W.parsed → m ≤ k ∨ W.node m = some .sym) →
      m ≤ n ∨ W.node m = some .sym := by
    intro n k m hn hp hno ih
    have := part_lt hw hn hp hno
    rcases ih (by omega) with h | h
    · exact .inl (by omega)
    · exact .inr h
  induction h with
  | refl => exact fun _ => .inl (Nat.le_refl _)
  | consL e _ ih => exact fun hn => step hn (.consL e) (by simp [e]) ih
  | consR e _ _ ih => exact fun hn => step hn (.consR e) (by simp [e]) ih
  | altL e _ ih => exact fun hn => step hn (.altL e) (by simp [e]) ih
  | altR e _ ih => exact fun hn => step hn (.altR e) (by simp [e]) ih
  | action e _ ih => exact fun hn => step hn (.action e) (by simp [e]) ih
  | cond e _ ih => exact fun hn => step hn (.cond e) (by simp [e]) ih
  | annot e _ ih => exact fun hn => step hn (.annot e) (by simp [e]) ih
  | tryL e _ ih => exact fun hn => step hn (.tryL e) (by simp [e]) ih
  | tryR e _ ih => exact fun hn => step hn (.tryR e) (by simp [e]) ih
  | plus e _ ih => exact fun hn => step hn (.plus e) (by simp [e]) ih
  | nonterm e h _ =>
    intro _
    have hs := hw.symbols _ _ (.inl e)
    cases h <;> simp_all
  | inlined e h _ =>
    intro _
    have hs := hw.symbols _ _ (.inr (.inl e))
    cases h <;> simp_all

/-! ### What `reducesToEpsilon` says is true -/

theorem r2e_sound (hw : Wf W) (hl : LeadOk W) (hF : Sound W F) : ∀ (f n : Nat) (v : List Nat) (b : Bool) (v' : List Nat), n < W.parsed →
    r2e W F f n v = some (b, v') → (∀ m ∈ v, Starts W n m → Nullable W m) →
    (b = true → Nullable W n) ∧ ∀ m ∈ v', m ∈ v ∨ Starts W n m := by
  intro f
  induction f using Nat.strongRecOn with
  | ind f ih =>
  intro n v b v' hn h hv
  by_cases hnv : n ∈ v
  · obtain ⟨_, rfl⟩ := r2e_in h hnv
    exact ⟨fun _ => hv n hnv .refl, fun m hm => .inl hm⟩
  cases f with
  | zero => cases h
  | succ f =>
  have ih := ih f (Nat.lt_succ_self f)
  -- one part
  have one : ∀ {i : Nat}, i < W.parsed → (¬ Starts W i n) → (∀ m, Starts W i m → Starts W n m) → (Nullable W i → Nullable W n) →
      r2e W F f i (n :: v) = some (b, v') → (b = true → Nullable W n) ∧ ∀ m ∈ v', m ∈ v ∨ Starts W n m := by
    intro i hi hni hs hnull h
    obtain ⟨h1, h2⟩ := ih i (n :: v) b v' hi h (by
      intro m hm hsm
      rcases List.mem_cons.1 hm with rfl | hm
      · exact absurd hsm hni
      · exact hv m hm (hs m hsm))
    refine ⟨fun hb => hnull (h1 hb), fun m hm => ?_⟩
    rcases h2 m hm with h3 | h3
    · rcases List.mem_cons.1 h3 with rfl | h3
      · exact .inr .refl
      · exact .inl h3
    · exact .inr (hs m h3)
  have nself : ∀ {i : Nat}, Part W n i → (∀ o, W.node n ≠ some (.op o)) → W.node n ≠ some .sym → i < W.parsed ∧ ¬ Starts W i n := by
    intro i hp hno hns
    have hlt := part_lt hw hn hp hno
    refine ⟨by omega, fun hs => ?_⟩
    rcases starts_le hw hs (by omega) with h | h
    · omega
    · exact hns h
  have nsym : ∀ {s : Nat}, W.node s = some .sym → W.node n ≠ some .sym → s < W.parsed ∧ ¬ Starts W s n := by
    intro s hs hns
    refine ⟨parsed_of hw hs (by simp) (by simp), fun h => ?_⟩
    cases h <;> simp_all
  -- two parts, of which the second is looked at if the first has the result `x`
  have two : ∀ {l r : Nat} (x : Bool), l < W.parsed → r < W.parsed → (¬ Starts W l n) → (¬ Starts W r n) → (∀ m, Starts W l m → Starts W n m) →
      (x = false ∨ Nullable W l → ∀ m, Starts W r m → Starts W n m ∧ (Starts W l m → Nullable W m)) →
      (∀ bl v1, r2e W F f l (n :: v) = some (bl, v1) → bl = x → r2e W F f r v1 = some (b, v') → (bl = true → Nullable W l) →
        (b = true → Nullable W r) → (b = true → Nullable W n)) →
      (∃ bl v1, r2e W F f l (n :: v) = some (bl, v1) ∧ (bl ≠ x ∧ (b = true → bl = true → Nullable W l → Nullable W n) ∧ (b = true → bl = true) ∧ v' = v1 ∨
        bl = x ∧ r2e W F f r v1 = some (b, v'))) → (b = true → Nullable W n) ∧ ∀ m ∈ v', m ∈ v ∨ Starts W n m := by
    intro l r x hlp hrp hnl hnr hsl hsr hnull ⟨bl, v1, hl1, h⟩
    obtain ⟨h1, h2⟩ := ih l (n :: v) bl v1 hlp hl1 (by
      intro m hm hsm
      rcases List.mem_cons.1 hm with rfl | hm
      · exact absurd hsm hnl
      · exact hv m hm (hsl m hsm))
    rcases h with ⟨_, g1, g2, rfl⟩ | ⟨rfl, g⟩
    · refine ⟨fun hb => g1 hb (g2 hb) (h1 (g2 hb)), fun m hm => ?_⟩
      rcases h2 m hm with h3 | h3
      · rcases List.mem_cons.1 h3 with rfl | h3
        · exact .inr .refl
        · exact .inl h3
      · exact .inr (hsl m h3)
    · have hx : bl = false ∨ Nullable W l := by
        cases bl with
        | false => exact .inl rfl
        | true => exact .inr (h1 rfl)
      obtain ⟨k1, k2⟩ := ih r v1 b v' hrp g (by
        intro m hm hsm
        rcases h2 m hm with h3 | h3
        · rcases List.mem_cons.1 h3 with rfl | h3
          · exact absurd hsm hnr
          · exact hv m h3 (hsr hx m hsm).1
        · exact (hsr hx m hsm).2 h3)
      refine ⟨hnull bl v1 hl1 rfl g h1 k1, fun m hm => ?_⟩
      rcases k2 m hm with h3 | h3
      · rcases h2 m h3 with h3 | h3
        · rcases List.mem_cons.1 h3 with rfl | h3
          · exact .inr .refl
          · exact .inl h3
        · exact .inr (hsl m h3)
      · exact .inr (hsr hx m h3).1
  have leaf : ∀ {x : Bool}, b = x ∧ v' = n :: v → (x = true → Nullable W n) → (b = true → Nullable W n) ∧ ∀ m ∈ v', m ∈ v ∨ Starts W n m := by
    rintro x ⟨rfl, rfl⟩ hx
    refine ⟨hx, fun m hm => ?_⟩
    rcases List.mem_cons.1 hm with rfl | hm
    · exact .inr .refl
    · exact .inl hm
  have hcst := r2e_const h hnv
  cases hit : W.node n with
  | none => simp [r2e, hnv, hit] at h
  | some it =>
    have h0 := h
    simp only [r2e, hnv, if_false, hit] at h0
    cases it with
    | zero => exact leaf (hcst.2.2.2.1 hit) fun _ => .zero hit
    | term => exact leaf (hcst.1 hit) (by simp)
    | op o => exact leaf (hcst.2.1 ⟨o, hit⟩) (by simp)
    | evolve i s => exact leaf (hcst.2.2.1 ⟨i, s, hit⟩) (by simp)
    | star i => exact leaf (hcst.2.2.2.2.1 ⟨i, hit⟩) fun _ => .star0 hit
    | sym => exact leaf (hcst.2.2.2.2.2.2.2 hit) fun hx => hF.zero hw (by simpa using hx)
    | plus i => exact one (nself (.plus hit) (by simp [hit]) (by simp [hit])).1 (nself (.plus hit) (by simp [hit]) (by simp [hit])).2 (fun m => .plus hit) (.plus1 hit) h0
    | cond i => exact one (nself (.cond hit) (by simp [hit]) (by simp [hit])).1 (nself (.cond hit) (by simp [hit]) (by simp [hit])).2 (fun m => .cond hit) (.cond hit) h0
    | annot i => exact one (nself (.annot hit) (by simp [hit]) (by simp [hit])).1 (nself (.annot hit) (by simp [hit]) (by simp [hit])).2 (fun m => .annot hit) (.annot hit) h0
    | action i => cases i with
      | none => exact leaf (hcst.2.2.2.2.2.1 hit) fun _ => .action0 hit
      | some i => exact one (nself (.action hit) (by simp [hit]) (by simp [hit])).1 (nself (.action hit) (by simp [hit]) (by simp [hit])).2 (fun m => .action hit) (.action hit) h0
    | nonterm s =>
      have hs := nsym (hw.symbols _ _ (.inl hit)) (by simp [hit])
      exact one hs.1 hs.2 (fun m => .nonterm hit) (.nonterm hit) h0
    | inlined s => cases s with
      | none => exact absurd hit (hw.inlined n)
      | some s =>
        have hs := nsym (hw.symbols _ _ (.inr (.inl hit))) (by simp [hit])
        exact one hs.1 hs.2 (fun m => .inlined hit) (.inlined hit) h0
    | cons l r =>
      have sl := nself (.consL hit) (by simp [hit]) (by simp [hit])
      have sr := nself (.consR hit) (by simp [hit]) (by simp [hit])
      refine two (l := l) (r := r) true sl.1 sr.1 sl.2 sr.2 (fun m => .consL hit) ?_ ?_ ?_
      · rintro (h | h)
        · cases h
        · exact fun m hm => ⟨.consR hit h hm, fun hm' => hl.cons n l r m hn hit h hm' hm⟩
      · intro bl v1 _ hb _ hl' hr' hbt
        exact (Der.cons hit (hl' hb) (hr' hbt) : Der W n ([] ++ []))
      · cases e : r2e W F f l (n :: v) with
        | none => simp [e] at h0
        | some p =>
          obtain ⟨bl, v1⟩ := p
          simp only [e] at h0
          cases bl with
          | true => exact ⟨true, v1, rfl, .inr ⟨rfl, h0⟩⟩
          | false => cases h0; exact ⟨false, _, rfl, .inl ⟨by simp, by simp, by simp, rfl⟩⟩
    | alt l r =>
      have sl := nself (.altL hit) (by simp [hit]) (by simp [hit])
      have sr := nself (.altR hit) (by simp [hit]) (by simp [hit])
      refine two (l := l) (r := r) false sl.1 sr.1 sl.2 sr.2 (fun m => .altL hit) ?_ ?_ ?_
      · exact fun _ m hm => ⟨.altR hit hm, fun hm' => hl.alt n l r m hn hit hm' hm⟩
      · intro bl v1 _ hb _ _ hr' hbt
        exact .altR hit (hr' hbt)
      · cases e : r2e W F f l (n :: v) with
        | none => simp [e] at h0
        | some p =>
          obtain ⟨bl, v1⟩ := p
          simp only [e] at h0
          cases bl with
          | false => exact ⟨false, v1, rfl, .inr ⟨rfl, h0⟩⟩
          | true => cases h0; exact ⟨true, _, rfl, .inl ⟨by simp, fun _ _ => .altL hit, by simp, rfl⟩⟩
    | tryc l r =>
      have sl := nself (.tryL hit) (by simp [hit]) (by simp [hit])
      cases r with
      | none =>
        refine one sl.1 sl.2 (fun m => .tryL hit) (.tryL hit) ?_
        cases e : r2e W F f l (n :: v) with
        | none => simp [e] at h0
        | some p =>
          obtain ⟨bl, v1⟩ := p
          simp only [e] at h0
          cases bl with
          | false => exact h0
          | true => exact h0
      | some r =>
        have sr := nself (.tryR hit) (by simp [hit]) (by simp [hit])
        refine two (l := l) (r := r) false sl.1 sr.1 sl.2 sr.2 (fun m => .tryL hit) ?_ ?_ ?_
        · exact fun _ m hm => ⟨.tryR hit hm, fun hm' => hl.tryc n l r m hn hit hm' hm⟩
        · intro bl v1 _ hb _ _ hr' hbt
          exact .tryR hit (hr' hbt)
        · cases e : r2e W F f l (n :: v) with
          | none => simp [e] at h0
          | some p =>
            obtain ⟨bl, v1⟩ := p
            simp only [e] at h0
            cases bl with
            | false => exact ⟨false, v1, rfl, .inr ⟨rfl, h0⟩⟩
            | true => cases h0; exact ⟨true, _, rfl, .inl ⟨by simp, fun _ _ => .tryL hit, by simp, rfl⟩⟩

/-! ### Operator expressions -/

def OpBody.lead : OpBody → Nat
  | .pre t => t
  | .post t => t
  | .bin t => t
  | .tern t _ => t
  | .paren t _ => t

/-- The nodes of an alternative that are visited. -/
def OpBody.touch (l : Nat) : OpBody → List Nat
  | .pre _ => [l]
  | .post _ => [l]
  | .bin _ => [l, l + 1]
  | .tern _ _ => [l, l + 1]
  | .paren _ _ => [l]

def touchAll : List OpBody → Nat → List Nat
  | [], _ => []
  | b :: bs, k => k :: (b.touch (k + 1) ++ touchAll bs (k + 1 + b.size))

theorem r2e_body {top l : Nat} {b : OpBody} {v : List Nat} (hb : BodyAt W top b l) (htop : top ∈ v) (ht : W.node b.lead = some .term)
    (hlead : b.lead ∉ v) (hnew : ∀ m ∈ b.touch l, m ∉ v) (hlt : b.lead < l) {f : Nat} {x : Bool} {v' : List Nat} (h : r2e W F f l v = some (x, v')) :
    x = false ∧ ∀ m ∈ v', m ∈ v ∨ m ∈ b.touch l ∨ m = b.lead := by
  -- a sequence that starts with the token
  have tok : ∀ {k r : Nat} {v : List Nat} {f : Nat} {x : Bool} {v' : List Nat}, b.lead < k → W.node k = some (.cons b.lead r) → k ∉ v → b.lead ∉ v →
      r2e W F f k v = some (x, v') → x = false ∧ v' = b.lead :: k :: v := by
    intro k r v f x v' hk e hkv htv h
    obtain ⟨f', bl, v1, h1, h2⟩ := r2e_cons h hkv e
    obtain ⟨rfl, rfl⟩ := (r2e_const h1 (by simp only [List.mem_cons, not_or]; exact ⟨by omega, htv⟩)).1 ht
    rcases h2 with ⟨_, rfl, rfl⟩ | ⟨h2, _⟩
    · exact ⟨rfl, rfl⟩
    · cases h2
  -- a sequence that starts with the whole expression
  have rec_ : ∀ {r : Nat}, W.node l = some (.cons top r) → l ∉ v → ∃ f', r2e W F f' r (l :: v) = some (x, v') := by
    intro r e hlv
    obtain ⟨f', bl, v1, h1, h2⟩ := r2e_cons h hlv e
    obtain ⟨rfl, rfl⟩ := r2e_in h1 (by simp [htop])
    rcases h2 with ⟨h2, _⟩ | ⟨_, h2⟩
    · cases h2
    · exact ⟨f', h2⟩
  cases b with
  | pre t =>
    obtain ⟨rfl, rfl⟩ := tok hlt hb (hnew l (by simp [OpBody.touch])) hlead h
    refine ⟨rfl, fun m hm => ?_⟩
    simp only [List.mem_cons, OpBody.touch, List.not_mem_nil, or_false] at hm ⊢
    tauto
  | paren t u =>
    obtain ⟨rfl, rfl⟩ := tok hlt hb.1 (hnew l (by simp [OpBody.touch])) hlead h
    refine ⟨rfl, fun m hm => ?_⟩
    simp only [List.mem_cons, OpBody.touch, List.not_mem_nil, or_false] at hm ⊢
    tauto
  | post t =>
    obtain ⟨f', h2⟩ := rec_ hb (hnew l (by simp [OpBody.touch]))
    simp only [OpBody.lead] at *
    obtain ⟨rfl, rfl⟩ := (r2e_const h2 (by simp only [List.mem_cons, not_or]; exact ⟨by omega, hlead⟩)).1 ht
    refine ⟨rfl, fun m hm => ?_⟩
    simp only [List.mem_cons, OpBody.touch, List.not_mem_nil, or_false] at hm ⊢
    tauto
  | bin t =>
    obtain ⟨f', h2⟩ := rec_ hb.1 (hnew l (by simp [OpBody.touch]))
    have hl1 := hnew (l + 1) (by simp [OpBody.touch])
    simp only [OpBody.lead] at *
    obtain ⟨rfl, rfl⟩ := tok (by omega) hb.2 (by simp only [List.mem_cons, not_or]; exact ⟨by omega, hl1⟩)
      (by simp only [List.mem_cons, not_or]; exact ⟨by omega, hlead⟩) h2
    refine ⟨rfl, fun m hm => ?_⟩
    simp only [List.mem_cons, OpBody.touch, List.not_mem_nil, or_false] at hm ⊢
    tauto
  | tern t u =>
    obtain ⟨f', h2⟩ := rec_ hb.1 (hnew l (by simp [OpBody.touch]))
    have hl1 := hnew (l + 1) (by simp [OpBody.touch])
    simp only [OpBody.lead] at *
    obtain ⟨rfl, rfl⟩ := tok (by omega) hb.2.1 (by simp only [List.mem_cons, not_or]; exact ⟨by omega, hl1⟩)
      (by simp only [List.mem_cons, not_or]; exact ⟨by omega, hlead⟩) h2
    refine ⟨rfl, fun m hm => ?_⟩
    simp only [List.mem_cons, OpBody.touch, List.not_mem_nil, or_false] at hm ⊢
    tauto

theorem touch_range {b : OpBody} {l m : Nat} (h : m ∈ b.touch l) : l ≤ m ∧ m < l + b.size := by
  cases b <;> simp [OpBody.touch, OpBody.size] at h ⊢ <;> omega

theorem touchAll_ge {bs : List OpBody} {k m : Nat} (h : m ∈ touchAll bs k) : k ≤ m := by
  induction bs generalizing k with
  | nil => simp [touchAll] at h
  | cons b bs ih =>
    simp only [touchAll, List.mem_cons, List.mem_append] at h
    rcases h with h | h | h
    · omega
    · have := touch_range h; omega
    · have := ih h; omega

theorem r2e_chain {top base s : Nat} (hbase : W.node base = some (.nonterm s)) (hs : W.node s = some .sym) (hz : (s, W.zero) ∉ F)
    (hbp : base < W.parsed) (hsp : s < W.parsed) : ∀ (bs : List OpBody) (k : Nat) (v : List Nat) (f : Nat) (x : Bool) (v' : List Nat),
    ChainAt W top base bs k → bs ≠ [] → W.parsed ≤ k → top ∈ k :: v → (∀ m ∈ v, W.parsed ≤ m ∨ W.node m = some .term) →
    (∀ m ∈ touchAll bs k, m ∉ v) → (bs.map OpBody.lead).Nodup → (∀ t ∈ bs.map OpBody.lead, W.node t = some .term ∧ t < W.parsed ∧ t ∉ v) →
    r2e W F f k v = some (x, v') → x = false := by
  intro bs
  induction bs with
  | nil => intro _ _ _ _ _ _ h; exact absurd rfl h
  | cons b bs ih =>
    intro k v f x v' hc _ hk htop hv hnew hnd hlead h
    obtain ⟨r, h1, h2, h3, h4⟩ := hc
    have hkv := hnew k (by simp [touchAll])
    obtain ⟨f', bl, v1, g1, g2⟩ := r2e_alt h hkv (.inl h1)
    simp only [List.map_cons, List.nodup_cons] at hnd
    have hb := hlead b.lead (by simp)
    obtain ⟨rfl, hv1⟩ := r2e_body h2 htop hb.1 (by simp only [List.mem_cons, not_or]; exact ⟨by omega, hb.2.2⟩)
      (fun m hm => by
        simp only [List.mem_cons, not_or]
        have := touch_range hm
        exact ⟨by omega, hnew m (by simp [touchAll, hm])⟩) (by omega) g1
    rcases g2 with ⟨g2, _⟩ | ⟨_, g2⟩
    · cases g2
    -- what has been visited now
    have hv1' : ∀ m ∈ v1, m ∈ v ∨ (k ≤ m ∧ m < k + 1 + b.size) ∨ m = b.lead := by
      intro m hm
      rcases hv1 m hm with h | h | h
      · rcases List.mem_cons.1 h with rfl | h
        · exact .inr (.inl ⟨by omega, by omega⟩)
        · exact .inl h
      · have := touch_range h
        exact .inr (.inl ⟨by omega, by omega⟩)
      · exact .inr (.inr h)
    have hv1p : ∀ m ∈ v1, W.parsed ≤ m ∨ W.node m = some .term := by
      intro m hm
      rcases hv1' m hm with h | h | rfl
      · exact hv m h
      · exact .inl (by omega)
      · exact .inr hb.1
    have hsize : 1 ≤ b.size := by cases b <;> simp [OpBody.size]
    by_cases e : bs = []
    · subst e
      cases h4
      have hnb : base ∉ v1 := fun hm => by
        rcases hv1p _ hm with h | h
        · omega
        · rw [hbase] at h; cases h
      have hns : s ∉ base :: v1 := fun hm => by
        rcases List.mem_cons.1 hm with rfl | hm
        · rw [hs] at hbase; cases hbase
        · rcases hv1p _ hm with h | h
          · omega
          · rw [hs] at h; cases h
      obtain ⟨f'', g3⟩ := r2e_one g2 hnb (.inr (.inr (.inr (.inr (.inl hbase)))))
      have := ((r2e_const g3 hns).2.2.2.2.2.2.2 hs).1
      rw [this]
      simpa using hz
    · have hr := h3 e
      refine ih r v1 f' x v' h4 e (by omega) ?_ hv1p ?_ hnd.2 ?_ g2
      · -- the whole expression has been visited
        rcases List.mem_cons.1 htop with rfl | htop
        · have := r2e_mono g1 _ (List.mem_cons_self ..)
          exact List.mem_cons_of_mem _ this
        · exact List.mem_cons_of_mem _ (r2e_mono g1 _ (List.mem_cons_of_mem _ htop))
      · intro m hm hmv
        rw [hr] at hm
        have hge := touchAll_ge hm
        rcases hv1' m hmv with h | h | rfl
        · exact hnew m (by simp [touchAll, hm]) h
        · omega
        · omega
      · intro t ht
        have := hlead t (by simp only [List.map_cons, List.mem_cons]; exact .inr ht)
        refine ⟨this.1, this.2.1, fun hm => ?_⟩
        rcases hv1' t hm with h | h | rfl
        · exact this.2.2 h
        · omega
        · exact hnd.1 ht

end Verif.Grammar
