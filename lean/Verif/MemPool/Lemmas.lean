import Verif.MemPool.Spec
import Mathlib.Tactic.Tauto

namespace Verif.MemPool

/-- A block whose free tail is zero. -/
def Block.OK (b : Block) : Prop :=
  (b.mem.length : Int) = b.blockSize ∧ b.used ≤ b.mem.length ∧
  ∀ o, b.used ≤ o → o < b.mem.length → b.mem[o]? = some 0

theorem init0_ok {n : Int} {b : Block} (h : init0 n = some b) : b.OK ∧ b.used = 0 ∧ b.blockSize = n := by
  unfold init0 at h
  split at h
  · rename_i hn
    simp only [Option.some.injEq] at h
    subst h
    refine ⟨⟨by simp; omega, by simp, ?_⟩, rfl, rfl⟩
    intro o _ ho
    simp at ho
    simp [ho]
  · simp at h

/-- What a successful `allocFrom` on the last block does. -/
theorem allocFrom_spec {size : Nat} : ∀ {fuel : Nat} {bs bs' : List Block} {i j off : Nat},
    allocFrom size fuel bs i = some (bs', j, off) → bs.length = i + 1 → (∀ b ∈ bs, b.OK) →
    ∃ news b, (∀ b ∈ bs ++ news, b.OK) ∧ (∀ b ∈ news, b.used = 0) ∧
      (bs ++ news).length = j + 1 ∧ (bs ++ news)[j]? = some b ∧ off = b.used ∧
      off + size ≤ b.mem.length ∧ bs' = (bs ++ news).set j { b with used := b.used + size } := by
  intro fuel
  induction fuel with
  | zero => intro bs bs' i j off h; simp [allocFrom] at h
  | succ f ih =>
    intro bs bs' i j off h hl hok
    simp only [allocFrom, Option.bind_eq_bind, Option.bind_eq_some_iff] at h
    obtain ⟨b, hb, h⟩ := h
    split at h
    · rename_i hbig
      have : ¬ (i + 1 < bs.length) := by omega
      simp only [this, if_false, Option.bind_eq_some_iff] at h
      obtain ⟨nb, hnb, h⟩ := h
      have hnok := init0_ok hnb
      obtain ⟨news, b', h1, h2, h3, h4, h5, h6, h7⟩ := ih h (by simp; omega) (by
        intro x hx
        rcases List.mem_append.mp hx with hx | hx
        · exact hok x hx
        · simp only [List.mem_singleton] at hx; subst hx; exact hnok.1)
      refine ⟨nb :: news, b', ?_, ?_, ?_, ?_, h5, h6, ?_⟩
      · simpa using h1
      · intro x hx
        rcases List.mem_cons.mp hx with rfl | hx
        · exact hnok.2.1
        · exact h2 x hx
      · simpa using h3
      · simpa using h4
      · simpa using h7
    · rename_i hfit
      simp only [Option.pure_def, Option.some.injEq, Prod.mk.injEq] at h
      obtain ⟨rfl, rfl, rfl⟩ := h
      have hbok := hok b (List.mem_of_getElem? hb)
      refine ⟨[], b, by simpa using hok, by simp, by simpa using hl, by simpa using hb, rfl, ?_, by simp⟩
      have := hbok.1
      omega

/-- Invariant of reachable pools, relating the pool to the client's view. -/
structure Inv (p : Pool) (v : Spec.View) : Prop where
  last : p.blocks.length = p.rightMost + 1
  ok : ∀ b ∈ p.blocks, b.OK
  inside : ∀ r ∈ p.given, ∃ b, p.blocks[r.block]? = some b ∧ r.off + r.size ≤ b.used
  disj : p.given.Pairwise Spec.Disjoint
  len : v.length = p.given.length
  view : ∀ (k : Nat) (r : Region), p.given[k]? = some r →
    ∃ (b : Block) (x : List UInt8), p.blocks[r.block]? = some b ∧ v[k]? = some x ∧
    x.length = r.size ∧ ∀ o, o < r.size → x[o]? = b.mem[r.off + o]?

theorem inv_init {p : Pool} (h : Pool.init = some p) : Inv p [] := by
  simp only [Pool.init, Option.bind_eq_bind, Option.bind_eq_some_iff, Option.pure_def,
    Option.some.injEq] at h
  obtain ⟨b, hb, rfl⟩ := h
  have := init0_ok hb
  constructor <;> simp
  exact this.1

theorem inv_alloc {p p' : Pool} {v : Spec.View} {fuel n : Nat} (I : Inv p v)
    (h : p.alloc fuel n = some p') : Inv p' (v ++ [List.replicate n 0]) := by
  simp only [Pool.alloc, Option.bind_eq_bind, Option.bind_eq_some_iff, Option.pure_def,
    Option.some.injEq] at h
  obtain ⟨⟨bs', j, off⟩, ha, rfl⟩ := h
  obtain ⟨news, b, h1, h2, h3, h4, rfl, h6, rfl⟩ := allocFrom_spec ha I.last I.ok
  have hj : j < (p.blocks ++ news).length := by omega
  -- how each old block survives
  have surv : ∀ (i : Nat) (c : Block), p.blocks[i]? = some c →
      ∃ c' : Block, ((p.blocks ++ news).set j { b with used := b.used + n })[i]? = some c' ∧
        c'.mem = c.mem ∧ c.used ≤ c'.used := by
    intro i c hc
    have hi : i < p.blocks.length := (List.getElem?_eq_some_iff.mp hc).1
    have hc' : (p.blocks ++ news)[i]? = some c := by rw [List.getElem?_append_left hi]; exact hc
    by_cases hij : i = j
    · subst hij
      rw [h4] at hc'
      obtain rfl : b = c := by simpa using hc'
      exact ⟨_, List.getElem?_set_self hj, rfl, by simp⟩
    · exact ⟨c, by rw [List.getElem?_set_ne (Ne.symm hij)]; exact hc', rfl, Nat.le_refl _⟩
  have hnew : ((p.blocks ++ news).set j { b with used := b.used + n })[j]? =
      some { b with used := b.used + n } := List.getElem?_set_self hj
  -- an old region in block j ends below `b.used`
  have below : ∀ r ∈ p.given, r.block = j → r.off + r.size ≤ b.used := by
    intro r hr hrj
    obtain ⟨c, hc, hle⟩ := I.inside r hr
    have hi : r.block < p.blocks.length := (List.getElem?_eq_some_iff.mp hc).1
    have hc' : (p.blocks ++ news)[j]? = some c := by
      rw [← hrj, List.getElem?_append_left hi]; exact hc
    rw [h4] at hc'
    obtain rfl : b = c := by simpa using hc'
    exact hle
  constructor
  · simp only [List.length_set]; exact h3
  · intro c hc
    rcases List.mem_or_eq_of_mem_set hc with hc | rfl
    · exact h1 c hc
    · have hb := h1 b (List.mem_of_getElem? h4)
      refine ⟨hb.1, by simpa using h6, ?_⟩
      intro o ho1 ho2
      exact hb.2.2 o (by simp at ho1; omega) ho2
  · intro r hr
    rcases List.mem_append.mp hr with hr | hr
    · obtain ⟨c, hc, hle⟩ := I.inside r hr
      obtain ⟨c', hc', _, hu⟩ := surv _ _ hc
      exact ⟨c', hc', by omega⟩
    · simp only [List.mem_singleton] at hr
      subst hr
      exact ⟨_, hnew, by simp⟩
  · rw [List.pairwise_append]
    refine ⟨I.disj, by simp, ?_⟩
    intro r hr s hs
    simp only [List.mem_singleton] at hs
    subst hs
    by_cases hrj : r.block = j
    · exact Or.inr (Or.inl (below r hr hrj))
    · exact Or.inl hrj
  · simp [I.len]
  · intro k r hk
    by_cases hkl : k < p.given.length
    · rw [List.getElem?_append_left hkl] at hk
      obtain ⟨c, x, hc, hx, hxl, hxo⟩ := I.view k r hk
      obtain ⟨c', hc', hm, _⟩ := surv _ _ hc
      exact ⟨c', x, hc', by rw [List.getElem?_append_left (by rw [I.len]; exact hkl)]; exact hx, hxl,
        by rw [hm]; exact hxo⟩
    · have hkl' : k = p.given.length := by
        have := (List.getElem?_eq_some_iff.mp hk).1
        simp at this; omega
      subst hkl'
      simp only [List.getElem?_concat_length, Option.some.injEq] at hk
      subst hk
      refine ⟨_, List.replicate n 0, hnew, by rw [← I.len, List.getElem?_concat_length], by simp, ?_⟩
      intro o ho
      simp only at ho
      have hb := h1 b (List.mem_of_getElem? h4)
      rw [hb.2.2 (b.used + o) (by omega) (by omega)]
      simp [ho]

theorem inv_write {p p' : Pool} {v : Spec.View} {k o : Nat} {x : UInt8} (I : Inv p v)
    (h : p.write k o x = some p') : ∃ v', Spec.step v (.write k o x) = some v' ∧ Inv p' v' := by
  simp only [Pool.write, Option.bind_eq_bind, Option.bind_eq_some_iff] at h
  obtain ⟨r, hr, h⟩ := h
  split at h
  case isFalse => simp at h
  rename_i ho
  rw [Option.bind_eq_some_iff] at h
  obtain ⟨b, hb, h⟩ := h
  split at h
  case isFalse => simp at h
  rename_i hol
  simp only [Option.pure_def, Option.some.injEq] at h
  subst h
  obtain ⟨b', y, hb', hy, hyl, hyo⟩ := I.view k r hr
  rw [hb] at hb'
  obtain rfl : b = b' := by simpa using hb'
  have hrb : r.block < p.blocks.length := (List.getElem?_eq_some_iff.mp hb).1
  have hmem := List.mem_of_getElem? hr
  have hin : r.off + r.size ≤ b.used := by
    obtain ⟨c, hc, hle⟩ := I.inside r hmem
    rw [hb] at hc
    obtain rfl : b = c := by simpa using hc
    exact hle
  have surv : ∀ (i : Nat) (c : Block), p.blocks[i]? = some c →
      ∃ c' : Block, (p.blocks.set r.block { b with mem := b.mem.set (r.off + o) x })[i]? = some c' ∧
        c'.used = c.used ∧ c'.mem.length = c.mem.length ∧
        (∀ q, i ≠ r.block ∨ q ≠ r.off + o → c'.mem[q]? = c.mem[q]?) := by
    intro i c hc
    by_cases hi : i = r.block
    · subst hi
      rw [hb] at hc
      obtain rfl : b = c := by simpa using hc
      refine ⟨_, List.getElem?_set_self hrb, rfl, by simp, ?_⟩
      intro q hq
      have : q ≠ r.off + o := by tauto
      simp [List.getElem?_set_ne (Ne.symm this)]
    · exact ⟨c, by rw [List.getElem?_set_ne (Ne.symm hi)]; exact hc, rfl, rfl, fun _ _ => rfl⟩
  refine ⟨v.set k (y.set o x), by simp [Spec.step, hy, hyl, ho], ?_⟩
  have hkv : k < v.length := (List.getElem?_eq_some_iff.mp hy).1
  constructor
  · simpa using I.last
  · intro c hc
    rcases List.mem_or_eq_of_mem_set hc with hc | rfl
    · exact I.ok c hc
    · have := I.ok b (List.mem_of_getElem? hb)
      refine ⟨by simpa using this.1, by simpa using this.2.1, ?_⟩
      intro q h1 h2
      simp only at h1
      simp only [List.length_set] at h2
      have : q ≠ r.off + o := by omega
      simp only [List.getElem?_set_ne (Ne.symm this)]
      exact (I.ok b (List.mem_of_getElem? hb)).2.2 q h1 h2
  · intro s hs
    obtain ⟨c, hc, hle⟩ := I.inside s hs
    obtain ⟨c', hc', hu, _⟩ := surv _ _ hc
    exact ⟨c', hc', by omega⟩
  · exact I.disj
  · simp [I.len]
  · intro m s hs
    obtain ⟨c, z, hc, hz, hzl, hzo⟩ := I.view m s hs
    obtain ⟨c', hc', hu, hml, hq⟩ := surv _ _ hc
    by_cases hmk : m = k
    · subst hmk
      simp only at hs
      rw [hr] at hs
      obtain rfl : r = s := by simpa using hs
      rw [hy] at hz
      obtain rfl : y = z := by simpa using hz
      rw [hb] at hc
      obtain rfl : b = c := by simpa using hc
      have hc2 : (p.blocks.set r.block { b with mem := b.mem.set (r.off + o) x })[r.block]? =
        some { b with mem := b.mem.set (r.off + o) x } := List.getElem?_set_self hrb
      refine ⟨_, _, hc2, List.getElem?_set_self hkv, by simpa using hyl, ?_⟩
      intro q hqs
      by_cases hqo : q = o
      · subst hqo
        simp only
        rw [List.getElem?_set_self (by omega), List.getElem?_set_self (by omega)]
      · simp only
        rw [List.getElem?_set_ne (by omega), List.getElem?_set_ne (by omega)]
        exact hyo q hqs
    · refine ⟨c', z, hc', by rw [List.getElem?_set_ne (Ne.symm hmk)]; exact hz, hzl, ?_⟩
      intro q hqs
      rw [hzo q hqs, hq]
      -- regions m and k are disjoint
      by_cases hblk : s.block = r.block
      · right
        intro he
        have hd : Spec.Disjoint s r ∨ Spec.Disjoint r s := by
          obtain ⟨hm1, hm2⟩ := List.getElem?_eq_some_iff.mp hs
          obtain ⟨hk1, hk2⟩ := List.getElem?_eq_some_iff.mp hr
          have := List.pairwise_iff_getElem.mp I.disj
          rcases Nat.lt_or_gt_of_ne hmk with hlt | hgt
          · left; have := this m k hm1 hk1 hlt; simpa [hm2, hk2] using this
          · right; have := this k m hk1 hm1 hgt; simpa [hm2, hk2] using this
        unfold Spec.Disjoint at hd
        omega
      · exact Or.inl hblk

theorem inv_run {fuel : Nat} : ∀ (os : List Op) {p p' : Pool} {v : Spec.View}, Inv p v →
    p.run fuel os = some p' → ∃ v', Spec.run v os = some v' ∧ Inv p' v'
  | [], p, p', v, I, h => by
    simp only [Pool.run, Option.some.injEq] at h
    exact ⟨v, rfl, h ▸ I⟩
  | o :: os, p, p', v, I, h => by
    simp only [Pool.run, Option.bind_eq_some_iff] at h
    obtain ⟨p1, h1, h2⟩ := h
    have : ∃ v1, Spec.step v o = some v1 ∧ Inv p1 v1 := by
      cases o with
      | alloc n => exact ⟨_, rfl, inv_alloc I h1⟩
      | write k o x => exact inv_write I h1
    obtain ⟨v1, e1, I1⟩ := this
    obtain ⟨v2, e2, I2⟩ := inv_run os I1 h2
    exact ⟨v2, by simp [Spec.run, e1, e2], I2⟩

/-! ### Termination -/

/-- Sizes of the blocks in the chain: 256, 1024, ..., 2^30. -/
structure Sizes (bs : List Block) (T : Nat) : Prop where
  len : bs.length ≤ 12
  size : ∀ (i : Nat) (b : Block), bs[i]? = some b → b.blockSize = 256 * 4 ^ i ∧ b.used ≤ T

theorem toInt32_next : ∀ k, k < 12 → toInt32 (256 * 4 ^ k * 4) = if k < 11 then 256 * 4 ^ (k + 1) else 0 := by
  decide

theorem pow_le_11 : ∀ k, k < 12 → (256 * 4 ^ k : Int) ≤ 2 ^ 30 ∧ 0 < (256 * 4 ^ k : Int) := by decide

theorem allocFrom_total {n T : Nat} (hT : T + n ≤ 2 ^ 30) :
    ∀ (fuel : Nat) (bs : List Block) (i : Nat), bs.length = i + 1 → Sizes bs T → 12 - i ≤ fuel →
      ∃ bs' j off, allocFrom n fuel bs i = some (bs', j, off) ∧ Sizes bs' (T + n) := by
  intro fuel
  induction fuel with
  | zero => intro bs i hl hs hf; have := hs.len; omega
  | succ f ih =>
    intro bs i hl hs hf
    have hlen := hs.len
    have hi : i < bs.length := by omega
    obtain ⟨hsz, hus⟩ := hs.size i bs[i] (by simp [hi])
    simp only [allocFrom, List.getElem?_eq_getElem hi, Option.bind_eq_bind, Option.bind_some]
    split
    · rename_i hbig
      have h1 : ¬ (i + 1 < bs.length) := by omega
      have hi11 : i < 11 := by
        apply Decidable.byContradiction
        intro hge
        have : i = 11 := by omega
        subst this
        rw [hsz] at hbig
        have : (256 * 4 ^ 11 : Int) = 2 ^ 30 := by decide
        rw [this] at hbig
        omega
      have hnext := toInt32_next i (by omega)
      simp only [hi11, if_true] at hnext
      have hpos := (pow_le_11 (i + 1) (by omega)).2
      have hinit : init0 (toInt32 (bs[i].blockSize * 4)) =
          some ⟨256 * 4 ^ (i + 1), List.replicate (256 * 4 ^ (i + 1) : Int).toNat 0, 0⟩ := by
        rw [hsz, hnext, init0, if_pos (by omega)]
      simp only [h1, if_false, hinit, Option.bind_some]
      refine ih _ (i + 1) (by simp [hl]) ⟨by simp; omega, ?_⟩ (by omega)
      intro j b hb
      by_cases hj : j < bs.length
      · rw [List.getElem?_append_left hj] at hb
        exact hs.size j b hb
      · rw [List.getElem?_append_right (by omega)] at hb
        have : j - bs.length = 0 := by
          have := (List.getElem?_eq_some_iff.mp hb).1
          simp at this; omega
        rw [this] at hb
        simp only [List.getElem?_cons_zero, Option.some.injEq] at hb
        subst hb
        have hji : j = i + 1 := by omega
        exact ⟨by rw [hji], by simp⟩
    · refine ⟨_, _, _, rfl, ⟨by simpa using hlen, ?_⟩⟩
      intro j b hb
      by_cases hj : i = j
      · subst hj
        rw [List.getElem?_set_self hi] at hb
        simp only [Option.some.injEq] at hb
        subst hb
        exact ⟨hsz, by simp; omega⟩
      · rw [List.getElem?_set_ne hj] at hb
        have := hs.size j b hb
        exact ⟨this.1, by omega⟩

/-- Block sizes that occur on the way of a hopeless request. -/
def SmallSize (x : Int) : Prop := x = 0 ∨ ∃ k, k < 12 ∧ x = 256 * 4 ^ k

theorem SmallSize.next {x : Int} (h : SmallSize x) : SmallSize (toInt32 (x * 4)) := by
  rcases h with rfl | ⟨k, hk, rfl⟩
  · left; decide
  · rw [toInt32_next k hk]
    split
    · right; exact ⟨k + 1, by omega, rfl⟩
    · left; rfl

theorem SmallSize.le {x : Int} (h : SmallSize x) : x ≤ 2 ^ 30 := by
  rcases h with rfl | ⟨k, hk, rfl⟩
  · decide
  · exact (pow_le_11 k hk).1

theorem allocFrom_never {n : Nat} (hn : 2 ^ 30 < n) :
    ∀ (fuel : Nat) (bs : List Block) (i : Nat), bs.length = i + 1 →
      (∀ b, bs[i]? = some b → SmallSize b.blockSize) → allocFrom n fuel bs i = none := by
  intro fuel
  induction fuel with
  | zero => intros; rfl
  | succ f ih =>
    intro bs i hl hs
    have hi : i < bs.length := by omega
    have hsm := hs bs[i] (by simp [hi])
    have hle := hsm.le
    simp only [allocFrom, List.getElem?_eq_getElem hi, Option.bind_eq_bind, Option.bind_some]
    rw [if_pos (by omega), if_neg (by omega)]
    cases hnb : init0 (toInt32 (bs[i].blockSize * 4)) with
    | none => rfl
    | some nb =>
      simp only [Option.bind_some]
      apply ih _ _ (by simp [hl])
      intro b hb
      rw [← hl, List.getElem?_concat_length] at hb
      simp only [Option.some.injEq] at hb
      subst hb
      rw [(init0_ok hnb).2.2]
      exact hsm.next

end Verif.MemPool
