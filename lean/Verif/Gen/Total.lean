import Verif.Gen.Sound
import Verif.Grammar.Term

/-! # The code generator terminates -/

namespace Verif.Gen

open Verif.Grammar

/-- `m` is visited by the code generator from item `n`. -/
inductive Visits (W : World) : Nat → Nat → Prop
  | part {n m} : Part W n m → (∀ o, W.node n ≠ some (.op o)) → Visits W n m
  | inlined {n s r} : W.node n = some (.inlined (some s)) → W.searchRule s = some r → Visits W n r

/-- Every operator item has a postfix, binary or ternary operator, as otherwise the emitted text is not valid. -/
def OpsLoop (W : World) : Prop := ∀ n o, W.node n = some (.op o) → ¬ (o.post = [] ∧ o.bin = [] ∧ o.tern = [])

section
variable {K : Ctx}

theorem opDesc_total (hw : Wf K.W) (ho : OpsLoop K.W) {self n o} (hn : K.W.node n = some (.op o)) : ∃ d, opDesc K self n o = some d := by
  obtain ⟨s, hs⟩ := hw.opBase n o hn
  simp [opDesc, if_neg (ho n o hn), symOf, hs]

/-- With enough fuel there is a result. -/
def GenEnds (K : Ctx) (n : Nat) : Prop := ∃ f0, ∀ f, f0 ≤ f → ∀ self c k, ∃ x, gen K self f n c k = some x

theorem alts_end {ms : List Nat} (h : ∀ m ∈ ms, GenEnds K m) : ∃ f0, ∀ f, f0 ≤ f → ∀ self c k, ∃ x, genAlts K self f ms c k = some x := by
  induction ms with
  | nil => exact ⟨1, fun f hf self c k => by
      obtain ⟨f, rfl⟩ := Nat.exists_eq_add_of_le' hf
      exact ⟨(.fail c, k), by simp [genAlts]⟩⟩
  | cons m ms ih =>
    obtain ⟨f1, h1⟩ := h m (by simp)
    obtain ⟨f2, h2⟩ := ih fun x hx => h x (by simp [hx])
    refine ⟨f1 + f2 + 1, fun f hf self c k => ?_⟩
    obtain ⟨f, rfl⟩ := Nat.exists_eq_add_of_le' (Nat.le_trans (Nat.le_add_left 1 _) hf)
    obtain ⟨x, hx⟩ := h1 f (by omega) self c k
    obtain ⟨y, hy⟩ := h2 f (by omega) self c x.2
    exact ⟨_, by simp only [genAlts, hx, Option.bind_some, hy, Option.map_some]; rfl⟩

/-- The result for a part carries over. -/
theorem ends_of {n : Nat} {ms : List Nat} (hm : ∀ m ∈ ms, GenEnds K m)
    (h : ∀ f, (∀ m ∈ ms, ∀ self c k, ∃ x, gen K self f m c k = some x) → ∀ self c k, ∃ x, gen K self (f + 1) n c k = some x) : GenEnds K n := by
  have : ∃ f0, ∀ f, f0 ≤ f → ∀ m ∈ ms, ∀ self c k, ∃ x, gen K self f m c k = some x := by
    clear h
    induction ms with
    | nil => exact ⟨0, fun _ _ m hm => by simp at hm⟩
    | cons m ms ih =>
      obtain ⟨f1, h1⟩ := hm m (by simp)
      obtain ⟨f2, h2⟩ := ih fun x hx => hm x (by simp [hx])
      refine ⟨f1 + f2, fun f hf x hx => ?_⟩
      rcases List.mem_cons.mp hx with rfl | hx
      · exact h1 f (by omega)
      · exact h2 f (by omega) x hx
  obtain ⟨f0, h0⟩ := this
  refine ⟨f0 + 1, fun f hf => ?_⟩
  obtain ⟨f, rfl⟩ := Nat.exists_eq_add_of_le' (Nat.le_trans (Nat.le_add_left 1 _) hf)
  exact h f (h0 f (by omega))

theorem ends_all (hw : Wf K.W) (ho : OpsLoop K.W) (hr : ∀ s r, K.W.searchRule s = some r → ∃ it, K.W.node r = some it) {n : Nat}
    (ha : Acc (fun m n => Visits K.W n m) n) (hv : ∃ it, K.W.node n = some it) :
    GenEnds K n ∧ ∃ ms f0, (∀ f, f0 ≤ f → flatten K.W f n = some ms) ∧ ∀ m ∈ ms, GenEnds K m := by
  induction ha with
  | intro n _ ih =>
  obtain ⟨it, hn⟩ := hv
  have part : ∀ m, Part K.W n m → (∀ o, it ≠ .op o) → GenEnds K m ∧ ∃ ms f0, (∀ f, f0 ≤ f → flatten K.W f m = some ms) ∧ ∀ m ∈ ms, GenEnds K m :=
    fun m hm hop => ih m (.part hm (by rw [hn]; simpa using hop)) (hw.valid n m hm)
  have flat : (∀ l r, it ≠ .alt l r) → ∀ f, 1 ≤ f → flatten K.W f n = some [n] := by
    intro hna f hf
    obtain ⟨f, rfl⟩ := Nat.exists_eq_add_of_le' hf
    unfold flatten
    split
    · next h => rw [hn] at h; cases h; exact absurd rfl (hna _ _)
    · rfl
  have leaf : (∀ l r, it ≠ .alt l r) → GenEnds K n → GenEnds K n ∧ ∃ ms f0, (∀ f, f0 ≤ f → flatten K.W f n = some ms) ∧ ∀ m ∈ ms, GenEnds K m :=
    fun hna he => ⟨he, [n], 1, flat hna, by simpa using he⟩
  have one : ∀ m, GenEnds K m → (∀ f self c k, (∀ c' k', ∃ x, gen K self f m c' k' = some x) → ∃ x, gen K self (f + 1) n c k = some x) → GenEnds K n :=
    fun m hm h => ends_of (ms := [m]) (by simpa using hm) fun f hf self c k => h f self c k (hf m (by simp) self)
  have none' : (∀ f self c k, ∃ x, gen K self (f + 1) n c k = some x) → GenEnds K n :=
    fun h => ends_of (ms := []) (by simp) fun f _ self c k => h f self c k
  cases it with
  | zero => exact leaf (by simp) (none' fun f self c k => ⟨_, by rw [gen, hn]⟩)
  | sym => exact leaf (by simp) (none' fun f self c k => ⟨_, by rw [gen, hn]⟩)
  | term => exact leaf (by simp) (none' fun f self c k => ⟨_, by rw [gen, hn]⟩)
  | nonterm s => exact leaf (by simp) (none' fun f self c k => ⟨_, by rw [gen, hn]⟩)
  | plus i =>
    refine leaf (by simp) (one i (part i (.plus hn) (by simp)).1 fun f self c k h => ?_)
    obtain ⟨x, hx⟩ := h c k
    exact ⟨_, by rw [gen, hn]; simp only [hx, Option.map_some]; rfl⟩
  | star i =>
    refine leaf (by simp) (one i (part i (.star hn) (by simp)).1 fun f self c k h => ?_)
    obtain ⟨x, hx⟩ := h c k
    exact ⟨_, by rw [gen, hn]; simp only [hx, Option.map_some]; rfl⟩
  | cond i =>
    refine leaf (by simp) (one i (part i (.cond hn) (by simp)).1 fun f self c k h => ?_)
    obtain ⟨x, hx⟩ := h c k
    exact ⟨_, by rw [gen, hn]; exact hx⟩
  | annot i =>
    refine leaf (by simp) (one i (part i (.annot hn) (by simp)).1 fun f self c k h => ?_)
    obtain ⟨x, hx⟩ := h c k
    exact ⟨_, by rw [gen, hn]; exact hx⟩
  | action i =>
    cases i with
    | none => exact leaf (by simp) (none' fun f self c k => ⟨_, by rw [gen, hn]⟩)
    | some i =>
      refine leaf (by simp) (one i (part i (.action hn) (by simp)).1 fun f self c k h => ?_)
      obtain ⟨x, hx⟩ := h c k
      exact ⟨_, by rw [gen, hn]; simp only [hx, Option.map_some]; rfl⟩
  | cons l r =>
    refine leaf (by simp) (ends_of (ms := [l, r]) ?_ fun f h self c k => ?_)
    · intro m hm
      simp only [List.mem_cons, List.not_mem_nil, or_false] at hm
      rcases hm with rfl | rfl
      · exact (part _ (.consL hn) (by simp)).1
      · exact (part _ (.consR hn) (by simp)).1
    · obtain ⟨x, hx⟩ := h l (by simp) self c k
      obtain ⟨y, hy⟩ := h r (by simp) self c x.2
      exact ⟨_, by rw [gen, hn]; simp only [hx, Option.bind_some, hy, Option.map_some]; rfl⟩
  | tryc l r =>
    cases r with
    | none =>
      refine leaf (by simp) (one l (part l (.tryL hn) (by simp)).1 fun f self c k h => ?_)
      obtain ⟨x, hx⟩ := h (k + 1) (k + 1)
      exact ⟨_, by rw [gen, hn]; simp only [hx, Option.map_some]; rfl⟩
    | some r =>
      refine leaf (by simp) (ends_of (ms := [l, r]) ?_ fun f h self c k => ?_)
      · intro m hm
        simp only [List.mem_cons, List.not_mem_nil, or_false] at hm
        rcases hm with rfl | rfl
        · exact (part _ (.tryL hn) (by simp)).1
        · exact (part _ (.tryR hn) (by simp)).1
      · obtain ⟨x, hx⟩ := h l (by simp) self (k + 1) (k + 1)
        obtain ⟨y, hy⟩ := h r (by simp) self c x.2
        exact ⟨_, by rw [gen, hn]; simp only [hx, Option.bind_some, hy, Option.map_some]; rfl⟩
  | op o =>
    refine leaf (by simp) (none' fun f self c k => ?_)
    obtain ⟨d, hd⟩ := opDesc_total (self := self) hw ho hn
    exact ⟨_, by rw [gen, hn]; simp only [hd, Option.map_some]; rfl⟩
  | inlined s =>
    cases s with
    | none => exact leaf (by simp) (none' fun f self c k => ⟨_, by rw [gen, hn]⟩)
    | some s =>
      cases hs : K.W.searchRule s with
      | none => exact leaf (by simp) (none' fun f self c k => ⟨_, by rw [gen, hn]; simp only [hs]; rfl⟩)
      | some r =>
        refine leaf (by simp) (one r (ih r (.inlined hn hs) (hr s r hs)).1 fun f self c k h => ?_)
        obtain ⟨x, hx⟩ := h c k
        exact ⟨_, by rw [gen, hn]; simp only [hs]; exact hx⟩
  | evolve i s =>
    obtain ⟨f0, h0⟩ := (part i (.evolve hn) (by simp)).1
    refine leaf (by simp) ⟨f0 + 2, fun f hf self c k => ?_⟩
    obtain ⟨f, rfl⟩ := Nat.exists_eq_add_of_le' (Nat.le_trans (Nat.le_add_left 2 _) hf)
    obtain ⟨b, hb⟩ := reduces_total (F := K.F) hw (hw.valid n i (.evolve hn))
    obtain ⟨x, hx⟩ := h0 f (by omega) self c k
    refine Option.isSome_iff_exists.mp ?_
    rw [gen, hn]
    simp [genRule, ruleTest, hb, hx]
  | alt l r =>
    obtain ⟨_, a, f1, h1, ha⟩ := part l (.altL hn) (by simp)
    obtain ⟨_, b, f2, h2, hb⟩ := part r (.altR hn) (by simp)
    have hab : ∀ m ∈ a ++ b, GenEnds K m := fun m hm => (List.mem_append.mp hm).elim (ha m) (hb m)
    obtain ⟨f3, h3⟩ := alts_end hab
    refine ⟨⟨f1 + f2 + f3 + 1, fun f hf self c k => ?_⟩, a ++ b, f1 + f2 + 1, fun f hf => ?_, hab⟩
    · obtain ⟨f, rfl⟩ := Nat.exists_eq_add_of_le' (Nat.le_trans (Nat.le_add_left 1 _) hf)
      obtain ⟨x, hx⟩ := h3 f (by omega) self c k
      exact ⟨x, by rw [gen, hn]; simp only [h1 f (by omega), h2 f (by omega), Option.bind_some, hx]⟩
    · obtain ⟨f, rfl⟩ := Nat.exists_eq_add_of_le' (Nat.le_trans (Nat.le_add_left 1 _) hf)
      unfold flatten
      rw [hn]
      simp only [h1 f (by omega), h2 f (by omega), Option.bind_some, Option.map_some]

theorem rules_end (hw : Wf K.W) {self : Nat} {f : Nat} : ∀ {rs : List Nat}, (∀ r ∈ rs, ∃ i s, K.W.node r = some (.evolve i s) ∧ ∀ c k, ∃ x, gen K self f i c k = some x) →
    ∀ k, ∃ x, genRules K self (f + 1) rs k = some x
  | [], _, k => ⟨_, rfl⟩
  | r :: rs, h, k => by
    obtain ⟨i, s, hn, hg⟩ := h r (by simp)
    obtain ⟨b, hb⟩ := reduces_total (F := K.F) hw (hw.valid r i (.evolve hn))
    obtain ⟨x, hx⟩ := hg 0 k
    obtain ⟨y, hy⟩ := rules_end hw (rs := rs) (fun r' hr' => h r' (by simp [hr'])) x.2
    refine Option.isSome_iff_exists.mp ?_
    unfold genRules
    rw [hn]
    simp [genRule, ruleTest, hb, hx, hy]

/-- The parse functions of all symbols are generated. -/
theorem parseFun_total (hw : Wf K.W) (ho : OpsLoop K.W) (hr : ∀ s r, K.W.searchRule s = some r → ∃ it, K.W.node r = some it)
    (ha : ∀ r ∈ K.W.rules, Acc (fun m n => Visits K.W n m) r) : ∃ f0, ∀ f, f0 ≤ f → ∀ s, ∃ b, parseFun K f s = some b := by
  have : ∀ rs : List Nat, (∀ r ∈ rs, r ∈ K.W.rules) → ∃ f0, ∀ f, f0 ≤ f → ∀ r ∈ rs, ∀ i s, K.W.node r = some (.evolve i s) → ∀ self c k, ∃ x, gen K self f i c k = some x := by
    intro rs
    induction rs with
    | nil => exact fun _ => ⟨0, fun _ _ r h => by simp at h⟩
    | cons r rs ih =>
      intro h
      obtain ⟨f1, h1⟩ := ih fun x hx => h x (by simp [hx])
      obtain ⟨_, i, s, hn⟩ := hw.rules r (h r (by simp))
      have hacc := (ha r (h r (by simp))).inv (.part (.evolve hn) (by rw [hn]; simp) : Visits K.W r i)
      obtain ⟨f2, h2⟩ := (ends_all hw ho hr hacc (hw.valid r i (.evolve hn))).1
      refine ⟨f1 + f2, fun f hf x hx i' s' hx' => ?_⟩
      rcases List.mem_cons.mp hx with rfl | hx
      · rw [hn] at hx'; cases hx'
        exact h2 f (by omega)
      · exact h1 f (by omega) x hx i' s' hx'
  obtain ⟨f0, h0⟩ := this K.W.rules fun _ h => h
  refine ⟨f0 + 1, fun f hf s => ?_⟩
  obtain ⟨f, rfl⟩ := Nat.exists_eq_add_of_le' (Nat.le_trans (Nat.le_add_left 1 _) hf)
  obtain ⟨x, hx⟩ := rules_end (self := s) (f := f) hw (rs := rulesOf K.W s) (fun r hr => by
    obtain ⟨h1, i, h2⟩ := mem_rulesOf.mp hr
    exact ⟨i, s, h2, h0 f (by omega) r h1 i s h2 s⟩) (K.count s)
  exact ⟨x.1, by simp [parseFun, hx]⟩

/-- Without inlined items every visit goes to an earlier node. -/
theorem acc_plain (hw : Wf K.W) (hp : ∀ n s, K.W.node n ≠ some (.inlined s)) : ∀ n, n < K.W.parsed → Acc (fun m n => Visits K.W n m) n := by
  intro n
  induction n using Nat.strongRecOn with
  | ind n ih =>
    intro hn
    refine .intro n fun m hm => ?_
    cases hm with
    | part h hop =>
      rcases hw.order n m hn h with h' | ⟨o, h'⟩
      · exact ih m h' (by omega)
      · exact absurd h' (hop o)
    | inlined h => exact absurd h (hp _ _)

theorem searchRule_node {W : World} (hw : Wf W) {s r : Nat} (h : W.searchRule s = some r) : ∃ it, W.node r = some it := by
  unfold World.searchRule at h
  have := List.mem_of_find?_eq_some h
  obtain ⟨_, i, s, h⟩ := hw.rules r this
  exact ⟨_, h⟩

end

end Verif.Gen
