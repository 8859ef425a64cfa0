import Verif.Check.AfterLemmas
import Verif.Gen.Spec

/-!
# Reported conflicts

The sets are those `computeFirst` and `computeFollow` end with; the check of a rule needs fuel for its depth only.
-/

namespace Verif.Check

open Verif.Grammar

variable {W : World} {F S : Sets}

theorem mem_clash {n : Nat} {a b : List Nat} {c : Conflict} : c ∈ clash n a b ↔ c.1 = n ∧ c.2 = a.filter (· ∈ b) ∧ c.2 ≠ [] := by
  obtain ⟨k, xs⟩ := c
  unfold clash
  split
  · next h => simp only [List.not_mem_nil, false_iff]; rintro ⟨-, h1, h2⟩; exact h2 (h1.trans h)
  · next h =>
    simp only [List.mem_singleton, Prod.mk.injEq]
    constructor
    · rintro ⟨rfl, rfl⟩; exact ⟨rfl, rfl, h⟩
    · rintro ⟨rfl, rfl, -⟩; exact ⟨rfl, rfl⟩

theorem clash_of {n t : Nat} {a b : List Nat} (ha : t ∈ a) (hb : t ∈ b) : ∃ xs, (n, xs) ∈ clash n a b ∧ t ∈ xs :=
  have ht : t ∈ a.filter (· ∈ b) := List.mem_filter.2 ⟨ha, by simpa using hb⟩
  ⟨_, mem_clash.2 ⟨rfl, rfl, List.ne_nil_of_mem ht⟩, ht⟩

theorem firstFirst_total (hw : Wf W) {r : Nat} (hr : r ∈ W.rules) {f : Nat} (hf : W.parsed ≤ f) : ∃ cs, firstFirst W F f r = some cs := by
  obtain ⟨h, i, s, hi⟩ := hw.rules r hr
  obtain ⟨l, hl⟩ := walk_total hw r h ⟨_, hi⟩ f (by omega)
  exact ⟨_, by rw [firstFirst, hl]; rfl⟩

theorem mem_firstFirst {r f : Nat} {cs : List Conflict} (h : firstFirst W F f r = some cs) {n : Nat} (hn : Inside W r n) {c : Conflict} (hc : c ∈ firstFirstAt W F n) : c ∈ cs := by
  obtain ⟨l, hl, rfl⟩ := Option.map_eq_some_iff.1 h
  exact List.mem_flatMap.2 ⟨n, (walk_mem hl n).2 (.inl hn), hc⟩

theorem choice_der {n : Nat} {ms : List Nat} (h : Gen.Choice W n ms) : ∀ m ∈ ms, ∀ α, Der W m α → Der W n α := by
  induction h with
  | leaf => intro m hm α hd; rw [List.mem_singleton] at hm; exact hm ▸ hd
  | alt hn _ _ ih1 ih2 =>
    intro m hm α hd
    rcases List.mem_append.1 hm with hm | hm
    · exact .altL hn (ih1 m hm α hd)
    · exact .altR hn (ih2 m hm α hd)

/-- C39: if a declared token can start two alternatives of a choice, a conflict that lists it is reported for the choice or for
a part of it that is a choice between some of the alternatives.  Missing: conflicts with an empty alternative only
(`C35_fails_nested_empty`), and tokens that are not declared (these are errors).  Conditions are not looked at (below). -/
theorem C39_alternatives_partial (hw : Wf W) (ho : OpsOk W) (hb : BareOk W) {f1 k1 : Nat} (hF : computeFirst W f1 k1 = some F) {r n : Nat} {ms : List Nat}
    (hr : r ∈ W.rules) (hn : Below W r n) (hc : Gen.Choice W n ms) {i j m m' t : Nat} {γ γ' : List Nat} (hij : i < j) (hi : ms[i]? = some m)
    (hj : ms[j]? = some m') (ht : t ∈ W.terminals) (hd : Der W m (t :: γ)) (hd' : Der W m' (t :: γ')) {f : Nat} (hf : W.parsed ≤ f) :
    ∃ cs, firstFirst W F f r = some cs ∧ ∃ c ∈ cs, t ∈ c.2 ∧ Below W n c.1 ∧ ∃ ks, Gen.Choice W c.1 ks ∧ 2 ≤ ks.length ∧ ks <:+: ms := by
  obtain ⟨cs, hcs⟩ := firstFirst_total (F := F) hw hr hf
  refine ⟨cs, hcs, ?_⟩
  have pos : ∀ {n ms}, Gen.Choice W n ms → 1 ≤ ms.length := by
    intro n ms h
    induction h with
    | leaf => simp
    | alt _ _ _ h1 h2 => simp; omega
  have occ : ∀ {n}, Below W r n → Occurs W n := by
    intro n h
    induction h with
    | refl => exact .rule hr
    | part _ hp ih => exact .part ih hp
  have btrans : ∀ {a b c}, Below W a b → Below W b c → Below W a c := by
    intro a b c h1 h2
    induction h2 with
    | refl => exact h1
    | part _ hp ih => exact .part ih hp
  induction hc generalizing i j with
  | leaf =>
    have := (List.getElem?_eq_some_iff.1 hj).1
    simp at this
    omega
  | @alt n l rr a b hnode ca cb ih1 ih2 =>
    have hl : Below W r l := .part hn (.altL hnode)
    have hrr : Below W r rr := .part hn (.altR hnode)
    have lift : ∀ p, Part W n p → ∀ q, q <:+: a ++ b → ((∃ c ∈ cs, t ∈ c.2 ∧ Below W p c.1 ∧ ∃ ks, Gen.Choice W c.1 ks ∧ 2 ≤ ks.length ∧ ks <:+: q) →
        ∃ c ∈ cs, t ∈ c.2 ∧ Below W n c.1 ∧ ∃ ks, Gen.Choice W c.1 ks ∧ 2 ≤ ks.length ∧ ks <:+: a ++ b) := by
      rintro p hp q hq ⟨c, h1, h2, h3, ks, h4, h5, h6⟩
      exact ⟨c, h1, h2, btrans (.part .refl hp) h3, ks, h4, h5, h6.trans hq⟩
    rcases Nat.lt_or_ge j a.length with hja | hja
    · rw [List.getElem?_append_left (by omega)] at hi
      rw [List.getElem?_append_left hja] at hj
      exact lift l (.altL hnode) a (List.prefix_append a b).isInfix (ih1 hl hij hi hj)
    · rcases Nat.lt_or_ge i a.length with hia | hia
      · rw [List.getElem?_append_left hia] at hi
        rw [List.getElem?_append_right hja] at hj
        have dl := choice_der ca m (List.mem_of_getElem? hi) _ hd
        have dr := choice_der cb m' (List.mem_of_getElem? hj) _ hd'
        obtain ⟨xs, h1, h2⟩ := clash_of (n := n) (mem_of.2 (C35_tokens_partial hw ho hb hF (occ hl) ht dl)) (mem_of.2 (C35_tokens_partial hw ho hb hF (occ hrr) ht dr))
        refine ⟨(n, xs), mem_firstFirst hcs (below_inside hw hn (by rw [hnode]; simp)) (by rw [firstFirstAt, hnode]; exact h1), h2, .refl, a ++ b, .alt hnode ca cb, ?_, List.infix_rfl⟩
        have := pos ca
        have := pos cb
        simp; omega
      · rw [List.getElem?_append_right hia] at hi
        rw [List.getElem?_append_right hja] at hj
        exact lift rr (.altR hnode) b (List.suffix_append a b).isInfix (ih2 hrr (by omega) hi hj)

theorem mem_env {s r : Nat} : r ∈ env W s ↔ r ∈ W.rules ∧ ∃ i, W.node r = some (.evolve i s) := by
  unfold env
  rw [List.mem_filter]
  refine and_congr_right fun _ => ?_
  split
  · next i s' h => simp [h]
  · next h => simp only [Bool.false_eq_true, false_iff]; rintro ⟨i, h'⟩; exact h i s h'

/-- C39: if a declared token can start two rules of one symbol, a conflict that lists it is reported for both. -/
theorem C39_rules_partial (hw : Wf W) (ho : OpsOk W) (hb : BareOk W) {f1 k1 : Nat} (hF : computeFirst W f1 k1 = some F) {r r' i i' s t : Nat} {γ γ' : List Nat}
    (hr : r ∈ W.rules) (hr' : r' ∈ W.rules) (hne : r ≠ r') (hn : W.node r = some (.evolve i s)) (hn' : W.node r' = some (.evolve i' s))
    (ht : t ∈ W.terminals) (hd : Der W r (t :: γ)) (hd' : Der W r' (t :: γ')) {f : Nat} (hf : W.parsed ≤ f) :
    ∃ cs, firstFirst W F f r = some cs ∧ ∃ c ∈ cs, c.1 = r ∧ t ∈ c.2 := by
  obtain ⟨cs, hcs⟩ := firstFirst_total (F := F) hw hr hf
  refine ⟨cs, hcs, ?_⟩
  obtain ⟨xs, h1, h2⟩ := clash_of (n := r) (mem_of.2 (C35_tokens_partial hw ho hb hF (.rule hr') ht hd')) (mem_of.2 (C35_tokens_partial hw ho hb hF (.rule hr) ht hd))
  refine ⟨(r, xs), mem_firstFirst hcs .refl ?_, rfl, h2⟩
  rw [firstFirstAt, hn]
  exact List.mem_flatMap.2 ⟨r', mem_env.2 ⟨hr', i', hn'⟩, by rw [if_neg hne.symm]; exact h1⟩

/-- C39: whatever is reported is a conflict: something starts both sides, or both can be empty.  Missing: grammars in which
something else than a nullable item starts both sides of a choice (`LeadOk`): then the FIRST sets may be too large and there may
be further reports (below). -/
theorem C39_real_partial (hw : Wf W) (ho : OpsOk W) (hl : LeadOk W) {f1 k1 : Nat} (hF : computeFirst W f1 k1 = some F) {r f : Nat} {cs : List Conflict}
    (hcs : firstFirst W F f r = some cs) {c : Conflict} (hc : c ∈ cs) :
    Below W r c.1 ∧ c.2 ≠ [] ∧ ∀ x ∈ c.2, ∃ a b, Rivals W c.1 a b ∧ ((x = W.zero ∧ Nullable W a ∧ Nullable W b) ∨ (W.node x = some .term ∧ BothStart W a b x)) := by
  obtain ⟨l, hl', rfl⟩ := Option.map_eq_some_iff.1 hcs
  obtain ⟨n, hn, hc⟩ := List.mem_flatMap.1 hc
  have two : ∀ a b x, x ∈ (F.of a).filter (· ∈ F.of b) → (x = W.zero ∧ Nullable W a ∧ Nullable W b) ∨ (W.node x = some .term ∧ BothStart W a b x) := by
    intro a b x hx
    obtain ⟨h1, h2⟩ := List.mem_filter.1 hx
    have h2 : x ∈ F.of b := by simpa using h2
    rcases C36_sound_partial hw ho hl hF (mem_of.1 h1) with ⟨rfl, g1⟩ | ⟨g0, g1⟩
    · rcases C36_sound_partial hw ho hl hF (mem_of.1 h2) with ⟨-, g2⟩ | ⟨g2, -⟩
      · exact .inl ⟨rfl, g1, g2⟩
      · rw [hw.zero] at g2; cases g2
    · rcases C36_sound_partial hw ho hl hF (mem_of.1 h2) with ⟨rfl, -⟩ | ⟨-, g2⟩
      · rw [hw.zero] at g0; cases g0
      · exact .inr ⟨g0, g1, g2⟩
  have hin : (∀ s, W.node n ≠ some s ∨ s ≠ .sym) → Below W r n := by
    intro hns
    rcases (walk_mem hl' n).1 hn with h | ⟨k, hk, hs⟩
    · exact inside_below h
    · exfalso
      have : W.node n = some .sym := by
        rcases hs with hs | ⟨i, hs⟩
        · exact hw.symbols k n (.inl hs)
        · exact hw.symbols k n (.inr (.inr ⟨i, hs⟩))
      rcases hns .sym with h | h
      · exact h this
      · exact h rfl
  unfold firstFirstAt at hc
  split at hc
  · next a b hn' =>
    obtain ⟨h1, h2, h3⟩ := mem_clash.1 hc
    rw [h1]
    refine ⟨hin fun s => ?_, h3, fun x hx => ⟨a, b, .alt hn', two a b x (h2 ▸ hx)⟩⟩
    rw [hn']
    by_cases e : s = .sym
    · subst e; exact .inl (by simp)
    · exact .inr e
  · next i s hn' =>
    obtain ⟨e, he, hc⟩ := List.mem_flatMap.1 hc
    split at hc
    · cases hc
    · next hne =>
      obtain ⟨h1, h2, h3⟩ := mem_clash.1 hc
      obtain ⟨he, i', hi'⟩ := mem_env.1 he
      rw [h1]
      refine ⟨hin fun s => ?_, h3, fun x hx => ⟨e, n, .rules he hi' hn' hne, two e n x (h2 ▸ hx)⟩⟩
      rw [hn']
      by_cases e : s = .sym
      · subst e; exact .inl (by simp)
      · exact .inr e
  · cases hc

/-! ### FIRST/FOLLOW -/

theorem collect_some {α β : Type} {g : α → Option (List β)} : ∀ {l : List α} {cs : List β}, collect g l = some cs →
    ∀ c, c ∈ cs ↔ ∃ x ∈ l, ∃ ys, g x = some ys ∧ c ∈ ys
  | [], cs, h, c => by cases h; simp
  | x :: l, cs, h, c => by
    obtain ⟨a, ha, h⟩ := Option.bind_eq_some_iff.1 h
    obtain ⟨b, hb, rfl⟩ := Option.map_eq_some_iff.1 h
    rw [List.mem_append, collect_some hb c]
    constructor
    · rintro (h | ⟨y, hy, h⟩)
      · exact ⟨x, by simp, a, ha, h⟩
      · exact ⟨y, by simp [hy], h⟩
    · rintro ⟨y, hy, ys, h1, h2⟩
      rcases List.mem_cons.1 hy with rfl | hy
      · rw [ha] at h1; cases h1; exact .inl h2
      · exact .inr ⟨y, hy, ys, h1, h2⟩

theorem done_of (hw : Wf W) (ho : OpsOk W) (hb : BareOk W) {f1 k1 f2 k2 eof : Nat} (hF : computeFirst W f1 k1 = some F)
    (hS : computeFollow W F eof f2 k2 = some S) (he : W.node eof = some .term) : Done W F S eof :=
  ⟨hw, ho, hb, (computeFirst_quiet hF).1, (computeFirst_quiet hF).2, (followLoop_quiet _ _ _ hS).1, (followLoop_quiet _ _ _ hS).2, he⟩

theorem mem_firstFollow {r f : Nat} {cs : List Conflict} (h : firstFollow W F S f r = some cs) {n : Nat} (hn : Inside W r n) :
    ∃ ys, firstFollowAt W F S n = some ys ∧ ∀ c ∈ ys, c ∈ cs := by
  obtain ⟨l, hl, h⟩ := Option.bind_eq_some_iff.1 h
  have hm := (walk_mem hl n).2 (.inl hn)
  have hex : ∀ {l : List Nat} {cs : List Conflict}, collect (firstFollowAt W F S) l = some cs → n ∈ l → ∃ ys, firstFollowAt W F S n = some ys := by
    intro l
    induction l with
    | nil => intro _ _ h; cases h
    | cons x l ih =>
      intro cs h hm
      obtain ⟨a, ha, h⟩ := Option.bind_eq_some_iff.1 h
      obtain ⟨b, hb, rfl⟩ := Option.map_eq_some_iff.1 h
      rcases List.mem_cons.1 hm with rfl | hm
      · exact ⟨a, ha⟩
      · exact ih hb hm
  obtain ⟨ys, hy⟩ := hex h hm
  exact ⟨ys, hy, fun c hc => (collect_some h c).2 ⟨n, hm, ys, hy, hc⟩⟩

theorem below_occ {r n : Nat} (hr : r ∈ W.rules) (h : Below W r n) : Occurs W n := by
  induction h with
  | refl => exact .rule hr
  | part _ hp ih => exact .part ih hp

/-- C40: if a declared token can start a repetition and can come after it, a conflict that lists the token is reported for the
repetition (if the check of the rule ends, see `C40_ends_partial`). -/
theorem C40_star_partial (hw : Wf W) (ho : OpsOk W) (hb : BareOk W) {f1 k1 f2 k2 eof : Nat} (he : W.node eof = some .term) (hF : computeFirst W f1 k1 = some F)
    (hS : computeFollow W F eof f2 k2 = some S) {r n i t : Nat} {γ : List Nat} (hr : r ∈ W.rules) (hn : Below W r n) (hi : W.node n = some (.star i))
    (ht : t ∈ W.terminals) (hd : Der W i (t :: γ)) (ha : After W eof n t) {f : Nat} {cs : List Conflict} (hcs : firstFollow W F S f r = some cs) :
    ∃ c ∈ cs, c.1 = n ∧ t ∈ c.2 := by
  have R := done_of hw ho hb hF hS he
  obtain ⟨ys, h1, h2⟩ := mem_firstFollow hcs (below_inside hw hn (by rw [hi]; simp))
  have hd' : Der W n (t :: γ) := by have := Der.starS hi hd (.star0 hi); simpa using this
  obtain ⟨xs, h3, h4⟩ := clash_of (n := n) (mem_of.2 (C35_tokens_partial hw ho hb hF (below_occ hr hn) ht hd')) (mem_of.2 ((after_fol R ha).2.mem hi (by simp) (by simp)))
  refine ⟨(n, xs), h2 _ ?_, rfl, h4⟩
  simp only [firstFollowAt, hi, Option.some.injEq] at h1
  exact h1 ▸ h3

/-- C40: the same for sequences, repetitions `+` and choices that can be empty; choices that end with `0` are left out by the code. -/
theorem C40_nullable_partial (hw : Wf W) (ho : OpsOk W) (hb : BareOk W) {f1 k1 f2 k2 eof : Nat} (he : W.node eof = some .term) (hF : computeFirst W f1 k1 = some F)
    (hS : computeFollow W F eof f2 k2 = some S) {r n t : Nat} {γ : List Nat} (hr : r ∈ W.rules) (hn : Below W r n)
    (hi : (∃ i, W.node n = some (.plus i)) ∨ (∃ a b, W.node n = some (.cons a b)) ∨ ∃ a b, W.node n = some (.alt a b) ∧ ∀ k, isZero W k b ≠ some true)
    (hnull : Nullable W n) (ht : t ∈ W.terminals) (hd : Der W n (t :: γ)) (ha : After W eof n t) {f : Nat} {cs : List Conflict}
    (hcs : firstFollow W F S f r = some cs) : ∃ c ∈ cs, c.1 = n ∧ t ∈ c.2 := by
  have R := done_of hw ho hb hF hS he
  have fol : (n, t) ∈ S := by
    rcases hi with ⟨i, hi⟩ | ⟨a, b, hi⟩ | ⟨a, b, hi, -⟩
    · exact (after_fol R ha).2.mem hi (by simp) (by simp)
    · exact (after_fol R ha).2.mem hi (by simp) (by simp)
    · exact (after_fol R ha).2.mem hi (by simp) (by simp)
  have nnt : ∀ s, W.node n ≠ some (.nonterm s) := by
    rcases hi with ⟨i, hi⟩ | ⟨a, b, hi⟩ | ⟨a, b, hi, -⟩ <;> rw [hi] <;> simp
  obtain ⟨ys, h1, h2⟩ := mem_firstFollow hcs (below_inside hw hn nnt)
  obtain ⟨xs, h3, h4⟩ := clash_of (n := n) (mem_of.2 (C35_tokens_partial hw ho hb hF (below_occ hr hn) ht hd)) (mem_of.2 fol)
  refine ⟨(n, xs), h2 _ ?_, rfl, h4⟩
  have red : reduces W F n = some true := by
    rcases hi with ⟨i, hi⟩ | ⟨a, b, hi⟩ | ⟨a, b, hi, -⟩
    · exact C34_nullable_partial hw ho hb hF hi (by simp) hnull
    · exact C34_nullable_partial hw ho hb hF hi (by simp) hnull
    · exact C34_nullable_partial hw ho hb hF hi (by simp) hnull
  rcases hi with ⟨i, hi⟩ | ⟨a, b, hi⟩ | ⟨a, b, hi, hz⟩
  · simp only [firstFollowAt, hi, red, Option.map_some, if_true, Option.some.injEq] at h1
    exact h1 ▸ h3
  · simp only [firstFollowAt, hi, red, Option.map_some, if_true, Option.some.injEq] at h1
    exact h1 ▸ h3
  · simp only [firstFollowAt, hi, red, Option.map_some, if_true] at h1
    obtain ⟨z, hz1, hz2⟩ := Option.bind_eq_some_iff.1 h1
    cases z with
    | true => exact absurd hz1 (hz _)
    | false =>
      simp only [Bool.false_eq_true, if_false, Option.some.injEq] at hz2
      exact hz2 ▸ h3

theorem isZero_total (hw : Wf W) (hb : ∀ n, W.node n ≠ some (.action none)) : ∀ n, n < W.parsed → (∃ it, W.node n = some it) → ∀ f, n + 1 ≤ f → ∃ b, isZero W f n = some b := by
  intro n
  induction n using Nat.strongRecOn with
  | ind n ih =>
  rintro hn ⟨it, hit⟩ f hf
  obtain ⟨f, rfl⟩ := Nat.exists_eq_add_of_le' (show 1 ≤ f by omega)
  have one : ∀ i, Part W n i → (∀ o, it ≠ .op o) → ∃ b, isZero W f i = some b := by
    intro i hi ho
    have hlt : i < n := by
      rcases hw.order n i hn hi with h | ⟨o, h⟩
      · exact h
      · rw [hit] at h; cases h; exact absurd rfl (ho o)
    exact ih i hlt (by omega) (hw.valid n i hi) f (by omega)
  unfold isZero
  rw [hit]
  cases it with
  | action i =>
    cases i with
    | none => exact absurd hit (hb n)
    | some i => exact one i (.action hit) (by simp)
  | cond i => exact one i (.cond hit) (by simp)
  | annot i => exact one i (.annot hit) (by simp)
  | plus i => exact one i (.plus hit) (by simp)
  | star i => exact one i (.star hit) (by simp)
  | _ => exact ⟨_, rfl⟩

/-- C40: the check ends if there are no bare actions `[: .. :]`; with a bare action as the last alternative it does not
(below). -/
theorem C40_ends_partial (hw : Wf W) (hb : ∀ n, W.node n ≠ some (.action none)) {r : Nat} (hr : r ∈ W.rules) {f : Nat} (hf : W.parsed ≤ f) :
    ∃ cs, firstFollow W F S f r = some cs := by
  obtain ⟨h, i, s, hi⟩ := hw.rules r hr
  obtain ⟨l, hl⟩ := walk_total hw r h ⟨_, hi⟩ f (by omega)
  have each : ∀ n ∈ l, ∃ ys, firstFollowAt W F S n = some ys := by
    intro n hn
    by_cases hnode : ∃ it, W.node n = some it
    · obtain ⟨b, hred⟩ := reduces_total (F := F) hw hnode
      obtain ⟨it, hit⟩ := hnode
      unfold firstFollowAt
      simp only [hit, hred, Option.map_some]
      cases it with
      | alt a b =>
        have hlt : n < W.parsed := by
          rcases (walk_mem hl n).1 hn with h' | ⟨k, hk, hs⟩
          · exact inside_lt hw h h'
          · have : W.node n = some .sym := by
              rcases hs with hs | ⟨i, hs⟩
              · exact hw.symbols k n (.inl hs)
              · exact hw.symbols k n (.inr (.inr ⟨i, hs⟩))
            rw [hit] at this; cases this
        have hlen : W.parsed ≤ W.heap.length ∨ n < W.heap.length := .inr (lt_of_node hit)
        have hb' : b < n := by
          rcases hw.order n b hlt (.altR hit) with h | ⟨o, h⟩
          · exact h
          · rw [hit] at h; cases h
        obtain ⟨z, hz⟩ := isZero_total hw hb b (by omega) (hw.valid n b (.altR hit)) (W.heap.length + 1) (by have := lt_of_node hit; omega)
        simp only [hz, Option.bind_some]
        cases z <;> exact ⟨_, rfl⟩
      | _ => exact ⟨_, rfl⟩
    · have hn0 : W.node n = none := by
        cases e : W.node n with
        | none => rfl
        | some it => exact absurd ⟨it, e⟩ hnode
      exact ⟨[], by simp [firstFollowAt, hn0]⟩
  have all : ∀ l : List Nat, (∀ n ∈ l, ∃ ys, firstFollowAt W F S n = some ys) → ∃ cs, collect (firstFollowAt W F S) l = some cs := by
    intro l
    induction l with
    | nil => exact fun _ => ⟨[], rfl⟩
    | cons x l ih =>
      intro h
      obtain ⟨a, ha⟩ := h x (by simp)
      obtain ⟨b, hb⟩ := ih fun n hn => h n (by simp [hn])
      exact ⟨a ++ b, by rw [collect, ha, hb]; rfl⟩
  obtain ⟨cs, hcs⟩ := all l each
  exact ⟨cs, by rw [firstFollow, hl]; exact hcs⟩

/-- C40: whatever is reported is a conflict: the item is a repetition or can be empty, and each token listed can start it and can
come after it. -/
theorem C40_real_partial (hw : Wf W) (ho : OpsOk W) (hl : LeadOk W) {f1 k1 f2 k2 eof : Nat} (hF : computeFirst W f1 k1 = some F)
    (hS : computeFollow W F eof f2 k2 = some S) {r f : Nat} (hr : r ∈ W.rules) {cs : List Conflict} (hcs : firstFollow W F S f r = some cs) {c : Conflict} (hc : c ∈ cs) :
    Below W r c.1 ∧ Nullable W c.1 ∧ c.2 ≠ [] ∧ ∀ x ∈ c.2, (x = W.zero ∨ ∃ γ, Der W c.1 (x :: γ)) ∧ Fits W eof c.1 x := by
  obtain ⟨l, hl', h⟩ := Option.bind_eq_some_iff.1 hcs
  obtain ⟨n, hn, ys, hy, hc⟩ := (collect_some h c).1 hc
  have sS := computeFollow_sound hw hl ho (computeFirst_sound hw hl ho hF) hS
  have hlt : (∀ it, W.node n = some it → it ≠ .sym) → Inside W r n := by
    intro hns
    rcases (walk_mem hl' n).1 hn with h | ⟨k, hk, hs⟩
    · exact h
    · exfalso
      refine hns .sym ?_ rfl
      rcases hs with hs | ⟨i, hs⟩
      · exact hw.symbols k n (.inl hs)
      · exact hw.symbols k n (.inr (.inr ⟨i, hs⟩))
  have fin : c ∈ clash n (F.of n) (S.of n) → Inside W r n → Nullable W n →
      Below W r c.1 ∧ Nullable W c.1 ∧ c.2 ≠ [] ∧ ∀ x ∈ c.2, (x = W.zero ∨ ∃ γ, Der W c.1 (x :: γ)) ∧ Fits W eof c.1 x := by
    intro hc hin hnull
    obtain ⟨h1, h2, h3⟩ := mem_clash.1 hc
    rw [h1]
    refine ⟨inside_below hin, hnull, h3, fun x hx => ?_⟩
    obtain ⟨g1, g2⟩ := List.mem_filter.1 (h2 ▸ hx)
    have g2 : x ∈ S.of n := by simpa using g2
    refine ⟨?_, sS n x (mem_of.1 g2)⟩
    rcases C36_sound_partial hw ho hl hF (mem_of.1 g1) with ⟨h, -⟩ | ⟨-, h⟩
    · exact .inl h
    · exact .inr h
  have red : Inside W r n → reduces W F n = some true → Nullable W n := fun hin hred =>
    reduces_parsed hw hl (computeFirst_sound hw hl ho hF) (inside_lt hw (hw.rules r hr).1 hin) hred
  have ifn : ∀ {it}, W.node n = some it → it ≠ .sym → (reduces W F n).map (fun b => if b then clash n (F.of n) (S.of n) else []) = some ys →
      Below W r c.1 ∧ Nullable W c.1 ∧ c.2 ≠ [] ∧ ∀ x ∈ c.2, (x = W.zero ∨ ∃ γ, Der W c.1 (x :: γ)) ∧ Fits W eof c.1 x := by
    intro it hit hs h
    have hin := hlt fun it' h' => by rw [hit] at h'; cases h'; exact hs
    obtain ⟨b, hb, e⟩ := Option.map_eq_some_iff.1 h
    cases b with
    | false => simp only [Bool.false_eq_true, if_false] at e; rw [← e] at hc; cases hc
    | true => exact fin (by rw [← e] at hc; exact hc) hin (red hin hb)
  unfold firstFollowAt at hy
  dsimp only at hy
  split at hy
  · next a b hn' =>
    obtain ⟨z, hz, hy⟩ := Option.bind_eq_some_iff.1 hy
    cases z with
    | true => simp only [if_true, Option.some.injEq] at hy; rw [← hy] at hc; cases hc
    | false => exact ifn hn' (by simp) (by simpa using hy)
  · next hn' => exact ifn hn' (by simp) hy
  · next hn' => exact ifn hn' (by simp) hy
  · next i hn' =>
    have hin := hlt fun it' h' => by rw [hn'] at h'; cases h'; simp
    exact fin (by simp only [Option.some.injEq] at hy; rw [← hy] at hc; exact hc) hin (.star0 hn')
  · simp only [Option.some.injEq] at hy; rw [← hy] at hc; cases hc

/-! ### Examples -/

theorem noOps_of {W : World} (h : (List.range W.heap.length).all (fun n => match W.node n with | some (.op _) => false | _ => true) = true) : OpsOk W := by
  intro n o hn
  have := List.all_eq_true.1 h n (List.mem_range.2 (lt_of_node hn))
  rw [hn] at this
  cases this

/-- `(A B | C | A D) -> s`. -/
def shared : World where
  heap := [.zero, .term, .term, .term, .term, .cons 1 2, .alt 5 3, .cons 1 4, .alt 6 7, .sym, .evolve 8 9]
  parsed := 11
  rules := [10]
  zero := 0
  terminals := [1, 2, 3, 4]
  start := [9]
  bnf := fun _ => none

example : ∃ cs, firstFirst shared ((computeFirst shared 20 9).getD []) 11 10 = some cs ∧ ∃ c ∈ cs, 1 ∈ c.2 ∧ Below shared 8 c.1 ∧
    ∃ ks, Gen.Choice shared c.1 ks ∧ 2 ≤ ks.length ∧ ks <:+: [5, 3, 7] := by
  have ho : OpsOk shared := noOps_of (by decide +kernel)
  refine C39_alternatives_partial (f1 := 20) (k1 := 9) (i := 0) (j := 2) (m := 5) (m' := 7) (wf_of_wfB (by decide +kernel)) ho (bareOk_of_none ho (of_noBare (by decide +kernel))) (by decide +kernel) (by decide)
    (.part .refl (.evolve (i := 8) (s := 9) (by decide +kernel))) ?_ (by decide) rfl rfl (by decide)
    (.cons (l := 1) (r := 2) (by decide +kernel) (.term (by decide +kernel)) (.term (by decide +kernel)))
    (.cons (l := 1) (r := 4) (by decide +kernel) (.term (by decide +kernel)) (.term (by decide +kernel))) (by decide)
  refine .alt (l := 6) (r := 7) (a := [5, 3]) (b := [7]) (by decide +kernel) (.alt (l := 5) (r := 3) (a := [5]) (b := [3]) (by decide +kernel) (.leaf ?_) (.leaf ?_)) (.leaf ?_)
  all_goals
    intro l r h
    have : shared.node _ = some _ := h
    simp [shared, World.node] at this

/-- `A B -> s;  A C -> s`. -/
def twoRules : World where
  heap := [.zero, .term, .term, .term, .cons 1 2, .cons 1 3, .sym, .evolve 4 6, .evolve 5 6]
  parsed := 9
  rules := [7, 8]
  zero := 0
  terminals := [1, 2, 3]
  start := [6]
  bnf := fun _ => none

theorem twoRules_wf : Wf twoRules := wf_of_wfB (by decide +kernel)

example : ∃ cs, firstFirst twoRules ((computeFirst twoRules 20 9).getD []) 9 7 = some cs ∧ ∃ c ∈ cs, c.1 = 7 ∧ 1 ∈ c.2 := by
  have ho : OpsOk twoRules := noOps_of (by decide +kernel)
  exact C39_rules_partial (f1 := 20) (k1 := 9) (r := 7) (r' := 8) (i := 4) (i' := 5) (s := 6) twoRules_wf ho (bareOk_of_none ho (of_noBare (by decide +kernel))) (by decide +kernel)
    (by decide) (by decide) (by decide) (by decide +kernel) (by decide +kernel) (by decide)
    (.evolve (i := 4) (s := 6) (by decide +kernel) (.cons (l := 1) (r := 2) (by decide +kernel) (.term (by decide +kernel)) (.term (by decide +kernel))))
    (.evolve (i := 5) (s := 6) (by decide +kernel) (.cons (l := 1) (r := 3) (by decide +kernel) (.term (by decide +kernel)) (.term (by decide +kernel)))) (by decide)

/-- Here the report (rule 7, token 1) is a conflict between rules 8 and 7. -/
example : ∃ a b, Rivals twoRules 7 a b ∧ ((1 = twoRules.zero ∧ Nullable twoRules a ∧ Nullable twoRules b) ∨ (twoRules.node 1 = some .term ∧ BothStart twoRules a b 1)) := by
  have h := of_leadB (nb := fun n => n = 0) (S := starts twoRules (fun n => n = 0) 4) twoRules_wf (by decide +kernel)
  exact (C39_real_partial (f1 := 20) (k1 := 9) (F := (computeFirst twoRules 20 9).getD []) (f := 9) (r := 7) (cs := [(7, [1])]) twoRules_wf h.2 h.1 (by decide +kernel) (by decide +kernel) (c := (7, [1])) (by decide)).2.2 1 (by decide)

/-- `(?[: cond :] A B | A C) -> s`. -/
def guarded : World where
  heap := [.zero, .term, .term, .term, .cons 1 2, .cond 4, .cons 1 3, .alt 5 6, .sym, .evolve 7 8]
  parsed := 10
  rules := [9]
  zero := 0
  terminals := [1, 2, 3]
  start := [8]
  bnf := fun _ => none

/-- C39 fails for guarded alternatives: the conflict is reported although the first alternative has a condition. -/
theorem C39_fails_guarded : Wf guarded ∧ guarded.node 7 = some (.alt 5 6) ∧ guarded.node 5 = some (.cond 4) ∧
    ∃ F, computeFirst guarded 20 9 = some F ∧ firstFirst guarded F 10 9 = some [(7, [1])] :=
  ⟨wf_of_wfB (by decide +kernel), by decide +kernel, by decide +kernel, (computeFirst guarded 20 9).getD [], by decide +kernel, by decide +kernel⟩

/-- `((A | A) B | B) -> s`. -/
def spurious : World where
  heap := [.zero, .term, .term, .alt 1 1, .cons 3 2, .alt 4 2, .sym, .evolve 5 6]
  parsed := 8
  rules := [7]
  zero := 0
  terminals := [1, 2]
  start := [6]
  bnf := fun _ => none

/-- C39 fails in that a conflict is reported for the outer choice, listing `B` (2), though the first alternative cannot start with
`B`. -/
theorem C39_fails_spurious : Wf spurious ∧ OpsOk spurious ∧ BareOk spurious ∧ spurious.node 5 = some (.alt 4 2) ∧ (¬ ∃ γ, Der spurious 4 (2 :: γ)) ∧
    ∃ F cs xs, computeFirst spurious 20 9 = some F ∧ firstFirst spurious F 8 7 = some cs ∧ (5, xs) ∈ cs ∧ 2 ∈ xs := by
  have ho : OpsOk spurious := noOps_of (by decide +kernel)
  refine ⟨wf_of_wfB (by decide +kernel), ho, bareOk_of_none ho (of_noBare (by decide +kernel)), by decide +kernel, ?_, (computeFirst spurious 20 9).getD [],
    (firstFirst spurious ((computeFirst spurious 20 9).getD []) 8 7).getD [], [2], by decide +kernel, by decide +kernel, by decide +kernel, by decide⟩
  rintro ⟨γ, h⟩
  have := lead_of_leadsOk (nb := fun n => n = 0) (L := fun n => if n = 0 then [] else if n = 2 then [2] else if n = 1 ∨ n = 3 ∨ n = 4 then [1] else [1, 2, 6]) (by decide +kernel) h
  simp at this

/-- `A* A -> s`; the nodes 6 and 7 are made for `*`. -/
def starA : World := rewrite {
  heap := [.zero, .term, .star 1, .cons 2 1, .sym, .evolve 3 4, .term], parsed := 0, rules := [5], zero := 0, terminals := [1], start := [4], bnf := fun _ => none } [2]

example : ∃ c ∈ [((2, [1]) : Conflict)], c.1 = 2 ∧ 1 ∈ c.2 := by
  have ho : OpsOk starA := noOps_of (by decide +kernel)
  exact C40_star_partial (W := starA) (F := (computeFirst starA 20 9).getD []) (S := (computeFollow starA ((computeFirst starA 20 9).getD []) 6 20 9).getD [])
    (eof := 6) (f1 := 20) (k1 := 9) (f2 := 20) (k2 := 9) (r := 5) (i := 1) (γ := []) (f := 9) (wf_of_wfB (by decide +kernel)) ho (bareOk_of_none ho (of_noBare (by decide +kernel))) (by decide +kernel)
    (by decide +kernel) (by decide +kernel) (by decide) (.part (.part .refl (.evolve (i := 3) (s := 4) (by decide +kernel))) (.consL (l := 2) (r := 1) (by decide +kernel)))
    (by decide +kernel) (by decide) (.term (by decide +kernel))
    (.next (n := 3) (l := 2) (r := 1) (γ := []) (.part (.rule (r := 5) (by decide)) (.evolve (i := 3) (s := 4) (by decide +kernel))) (by decide +kernel) (by decide) (.term (by decide +kernel)))
    (by decide +kernel)

example : ∃ cs, firstFollow starA [] [] 9 5 = some cs := C40_ends_partial (wf_of_wfB (by decide +kernel)) (of_noBare (by decide +kernel)) (by decide) (by decide)

/-- `B A* -> x;  x A -> s`. -/
def tail : World := rewrite {
  heap := [.zero, .term, .term, .star 1, .cons 2 3, .sym, .evolve 4 5, .nonterm 5, .cons 7 1, .sym, .evolve 8 9, .term], parsed := 0, rules := [6, 10], zero := 0,
  terminals := [1, 2], start := [9], bnf := fun _ => none } [3]

example : Nullable tail 3 ∧ (∃ γ, Der tail 3 (1 :: γ)) ∧ Fits tail 11 3 1 := by
  have hw : Wf tail := wf_of_wfB (by decide +kernel)
  have h := of_leadB (nb := fun n => n = 0 ∨ n = 3 ∨ 13 ≤ n) (S := starts tail (fun n => n = 0 ∨ n = 3 ∨ 13 ≤ n) 6) hw (by decide +kernel)
  have := (C40_real_partial (W := tail) (F := (computeFirst tail 20 9).getD []) (S := (computeFollow tail ((computeFirst tail 20 9).getD []) 11 20 9).getD [])
    (eof := 11) (f1 := 20) (k1 := 9) (f2 := 20) (k2 := 9) (r := 6) (f := 12) (cs := [(3, [1])]) (c := (3, [1])) hw h.2 h.1 (by decide +kernel) (by decide +kernel) (by decide) (by decide +kernel) (by decide)).2
  refine ⟨this.1, ?_, (this.2.2 1 (by decide)).2⟩
  rcases (this.2.2 1 (by decide)).1 with h | h
  · cases h
  · exact h

/-- `(A* B*) A -> s`. -/
def loops : World := rewrite {
  heap := [.zero, .term, .term, .star 1, .star 2, .cons 3 4, .cons 5 1, .sym, .evolve 6 7, .term], parsed := 0, rules := [8], zero := 0, terminals := [1, 2], start := [7],
  bnf := fun _ => none } [3, 4]

example : ∃ c ∈ [((3, [1]) : Conflict), (5, [1])], c.1 = 5 ∧ 1 ∈ c.2 := by
  have ho : OpsOk loops := noOps_of (by decide +kernel)
  exact C40_nullable_partial (W := loops) (F := (computeFirst loops 20 9).getD []) (S := (computeFollow loops ((computeFirst loops 20 9).getD []) 9 20 9).getD [])
    (eof := 9) (f1 := 20) (k1 := 9) (f2 := 20) (k2 := 9) (r := 8) (γ := []) (f := 12) (wf_of_wfB (by decide +kernel)) ho (bareOk_of_none ho (of_noBare (by decide +kernel))) (by decide +kernel)
    (by decide +kernel) (by decide +kernel) (by decide) (.part (.part .refl (.evolve (i := 6) (s := 7) (by decide +kernel))) (.consL (l := 5) (r := 1) (by decide +kernel)))
    (.inr (.inl ⟨3, 4, by decide +kernel⟩)) (.cons (l := 3) (r := 4) (α := []) (β := []) (by decide +kernel) (.star0 (i := 1) (by decide +kernel)) (.star0 (i := 2) (by decide +kernel))) (by decide)
    (.cons (l := 3) (r := 4) (α := [1]) (β := []) (by decide +kernel) (.starS (i := 1) (α := [1]) (β := []) (by decide +kernel) (.term (by decide +kernel)) (.star0 (i := 1) (by decide +kernel))) (.star0 (i := 2) (by decide +kernel)))
    (.next (n := 6) (l := 5) (r := 1) (γ := []) (.part (.rule (r := 8) (by decide)) (.evolve (i := 6) (s := 7) (by decide +kernel))) (by decide +kernel) (by decide) (.term (by decide +kernel)))
    (by decide +kernel)

/-- `?A A -> s`. -/
def optional : World where
  heap := [.zero, .term, .alt 1 0, .cons 2 1, .sym, .evolve 3 4, .term]
  parsed := 7
  rules := [5]
  zero := 0
  terminals := [1]
  start := [4]
  bnf := fun _ => none

theorem optional_after : After optional 6 2 1 :=
  .next (n := 3) (l := 2) (r := 1) (γ := []) (.part (.rule (r := 5) (by decide)) (.evolve (i := 3) (s := 4) (by decide +kernel))) (by decide +kernel) (by decide) (.term (by decide +kernel))

/-- C40 fails for optional items: `?A` can be empty, can start with `A` and can be followed by `A`, but nothing is reported. -/
theorem C40_fails_optional : Wf optional ∧ Nullable optional 2 ∧ Der optional 2 [1] ∧ After optional 6 2 1 ∧
    ∃ F S, computeFirst optional 20 9 = some F ∧ computeFollow optional F 6 20 9 = some S ∧ firstFollow optional F S 9 5 = some [] ∧ firstFirst optional F 9 5 = some [] :=
  ⟨wf_of_wfB (by decide +kernel), .altR (l := 1) (r := 0) (by decide +kernel) (.zero (by decide +kernel)), .altL (l := 1) (r := 0) (by decide +kernel) (.term (by decide +kernel)), optional_after,
    (computeFirst optional 20 9).getD [], (computeFollow optional ((computeFirst optional 20 9).getD []) 6 20 9).getD [], by decide +kernel, by decide +kernel, by decide +kernel, by decide +kernel⟩

/-- `A -> x;  0 -> x;  x A -> s`. -/
def nullSym : World where
  heap := [.zero, .term, .sym, .evolve 1 2, .evolve 0 2, .nonterm 2, .cons 5 1, .sym, .evolve 6 7, .term]
  parsed := 10
  rules := [3, 4, 8]
  zero := 0
  terminals := [1]
  start := [7]
  bnf := fun _ => none

/-- C40 fails for symbols: `x` can be empty, can start with `A` and can be followed by `A`, but nothing is reported for any rule. -/
theorem C40_fails_symbol : Wf nullSym ∧ Nullable nullSym 2 ∧ Der nullSym 2 [1] ∧ After nullSym 9 2 1 ∧
    ∃ F S, computeFirst nullSym 20 9 = some F ∧ computeFollow nullSym F 9 20 9 = some S ∧
      ∀ r ∈ nullSym.rules, firstFollow nullSym F S 10 r = some [] ∧ firstFirst nullSym F 10 r = some [] :=
  ⟨wf_of_wfB (by decide +kernel), .expand (r := 4) (i := 0) (by decide +kernel) (by decide) (by decide +kernel) (.zero (by decide +kernel)),
    .expand (r := 3) (i := 1) (by decide +kernel) (by decide) (by decide +kernel) (.term (by decide +kernel)),
    .symbol (n := 5) (.part (.part (.rule (r := 8) (by decide)) (.evolve (i := 6) (s := 7) (by decide +kernel))) (.consL (l := 5) (r := 1) (by decide +kernel))) (.inl (by decide +kernel))
      (.next (n := 6) (l := 5) (r := 1) (γ := []) (.part (.rule (r := 8) (by decide)) (.evolve (i := 6) (s := 7) (by decide +kernel))) (by decide +kernel) (by decide) (.term (by decide +kernel))),
    (computeFirst nullSym 20 9).getD [], (computeFollow nullSym ((computeFirst nullSym 20 9).getD []) 9 20 9).getD [], by decide +kernel, by decide +kernel, by decide +kernel⟩

/-- `A+ A -> s`. -/
def plusA : World := rewrite {
  heap := [.zero, .term, .plus 1, .cons 2 1, .sym, .evolve 3 4, .term], parsed := 0, rules := [5], zero := 0, terminals := [1], start := [4], bnf := fun _ => none } [2]

/-- C40 fails for `+`: the repetition can go on with `A` and be followed by `A`, but nothing is reported. -/
theorem C40_fails_plus : Wf plusA ∧ Der plusA 2 [1] ∧ After plusA 6 2 1 ∧
    ∃ F S, computeFirst plusA 20 9 = some F ∧ computeFollow plusA F 6 20 9 = some S ∧ firstFollow plusA F S 9 5 = some [] ∧ firstFirst plusA F 9 5 = some [] :=
  ⟨wf_of_wfB (by decide +kernel), .plus1 (i := 1) (by decide +kernel) (.term (by decide +kernel)),
    .next (n := 3) (l := 2) (r := 1) (γ := []) (.part (.rule (r := 5) (by decide)) (.evolve (i := 3) (s := 4) (by decide +kernel))) (by decide +kernel) (by decide) (.term (by decide +kernel)),
    (computeFirst plusA 20 9).getD [], (computeFollow plusA ((computeFirst plusA 20 9).getD []) 6 20 9).getD [], by decide +kernel, by decide +kernel, by decide +kernel, by decide +kernel⟩

/-- `(A | [: code :]) -> s`. -/
def bareLast : World where
  heap := [.zero, .term, .action none, .alt 1 2, .sym, .evolve 3 4, .term]
  parsed := 7
  rules := [5]
  zero := 0
  terminals := [1]
  start := [4]
  bnf := fun _ => none

/-- C40 fails for a bare action as the last alternative: `isZero` is called on a null pointer (kdev-pg.cpp line 379). -/
theorem C40_fails_bare_action : Wf bareLast ∧ ∀ F S f, firstFollow bareLast F S f 5 = none := by
  refine ⟨wf_of_wfB (by decide +kernel), fun F S f => ?_⟩
  cases h : firstFollow bareLast F S f 5 with
  | none => rfl
  | some cs =>
    obtain ⟨ys, h1, -⟩ := mem_firstFollow h (n := 3) (.part .refl (by intro o h; simp [bareLast, World.node] at h) (.evolve (i := 3) (s := 4) (by decide +kernel)))
    have hn : bareLast.node 3 = some (.alt 1 2) := by decide +kernel
    have hz : isZero bareLast (bareLast.heap.length + 1) 2 = none := by decide +kernel
    simp [firstFollowAt, hn, hz] at h1

end Verif.Check
