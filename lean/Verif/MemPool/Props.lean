import Verif.MemPool.Lemmas

/-!
# C02: memory pool

`Spec.run` is the client's view: every region is its own zero-initialised byte array.
-/

namespace Verif.MemPool

/-- Bytes requested by a program. -/
def requested : List Op → Nat
  | [] => 0
  | .alloc n :: os => n + requested os
  | .write _ _ _ :: os => requested os

/-- C02 (safety part, every history). Whenever a program of allocations and in-region writes runs to
completion, the bytes read from every region are exactly those of the client's view (zero when handed
out, changed only by writes to that region), the regions are pairwise disjoint, and each lies inside
one block. -/
theorem C02_regions_partial (fuel : Nat) (os : List Op) (p0 p : Pool)
    (h0 : Pool.init = some p0) (h : p0.run fuel os = some p) :
    ∃ v, Spec.run [] os = some v ∧ v.length = p.given.length ∧
      (∀ (k : Nat) (r : Region), p.given[k]? = some r → (v[k]?).map List.length = some r.size) ∧
      (∀ (k o : Nat), p.read k o = (v[k]?).bind fun x => x[o]?) ∧
      p.given.Pairwise Spec.Disjoint ∧
      ∀ r ∈ p.given, ∃ b, p.blocks[r.block]? = some b ∧ r.off + r.size ≤ b.mem.length := by
  obtain ⟨v, hv, I⟩ := inv_run os (inv_init h0) h
  refine ⟨v, hv, I.len, ?_, ?_, I.disj, ?_⟩
  · intro k r hr
    obtain ⟨b, x, _, hx, hl, _⟩ := I.view k r hr
    simp [hx, hl]
  · intro k o
    unfold Pool.read
    cases hr : p.given[k]? with
    | none =>
      have : v[k]? = none := by
        rw [List.getElem?_eq_none_iff] at hr ⊢
        rw [I.len]; exact hr
      simp [this]
    | some r =>
      obtain ⟨b, x, hb, hx, hl, hxo⟩ := I.view k r hr
      simp only [Option.bind_eq_bind, Option.bind_some, hx, hb]
      split
      · rename_i ho
        exact (hxo o ho).symm
      · rename_i ho
        symm
        rw [List.getElem?_eq_none_iff]
        omega
  · intro r hr
    obtain ⟨b, hb, hle⟩ := I.inside r hr
    exact ⟨b, hb, Nat.le_trans hle (I.ok b (List.mem_of_getElem? hb)).2.1⟩

/-- C02 (termination part). Programs that request at most 2^30 bytes in total and write only inside
their regions always run to completion (12 chained blocks suffice). -/
theorem C02_returns_partial (os : List Op) (v : Spec.View) (hv : Spec.run [] os = some v)
    (hreq : requested os ≤ 2 ^ 30) : ∃ p0 p, Pool.init = some p0 ∧ p0.run 12 os = some p := by
  have H : ∀ (os : List Op) (p : Pool) (v v' : Spec.View) (T : Nat), Inv p v → Sizes p.blocks T →
      Spec.run v os = some v' → T + requested os ≤ 2 ^ 30 → ∃ p', p.run 12 os = some p' := by
    intro os
    induction os with
    | nil => intro p _ _ _ _ _ _ _; exact ⟨p, rfl⟩
    | cons o os ih =>
      intro p v v' T I S hr hT
      simp only [Spec.run, Option.bind_eq_some_iff] at hr
      obtain ⟨v1, h1, h2⟩ := hr
      cases o with
      | alloc n =>
        simp only [requested] at hT
        obtain ⟨bs', j, off, ha, S'⟩ := allocFrom_total (n := n) (T := T) (by omega) 12 p.blocks
          p.rightMost I.last S (by omega)
        have hp1 : p.alloc 12 n = some ⟨bs', j, p.given ++ [⟨j, off, n⟩]⟩ := by
          simp [Pool.alloc, ha]
        simp only [Spec.step, Option.some.injEq] at h1
        subst h1
        obtain ⟨p', hp'⟩ := ih _ _ v' (T + n) (inv_alloc I hp1) S' h2 (by omega)
        exact ⟨p', by simp [Pool.run, Pool.step, hp1, hp']⟩
      | write k o x =>
        simp only [requested] at hT
        simp only [Spec.step, Option.bind_eq_bind, Option.bind_eq_some_iff] at h1
        obtain ⟨y, hy, h1⟩ := h1
        split at h1
        case isFalse => simp at h1
        rename_i ho
        have hk : k < p.given.length := by
          rw [← I.len]; exact (List.getElem?_eq_some_iff.mp hy).1
        have hgk : p.given[k]? = some p.given[k] := List.getElem?_eq_getElem hk
        obtain ⟨b, x', hb, hx', hl, _⟩ := I.view k _ hgk
        rw [hy] at hx'
        obtain rfl : y = x' := by simpa using hx'
        obtain ⟨b', hb', hin⟩ := I.inside _ (List.mem_of_getElem? hgk)
        rw [hb] at hb'
        obtain rfl : b = b' := by simpa using hb'
        have hok := (I.ok b (List.mem_of_getElem? hb)).2.1
        have hp1 : p.write k o x = some { p with blocks := (p.blocks.set p.given[k].block
                { b with mem := b.mem.set (p.given[k].off + o) x }) } := by
          simp only [Pool.write, hgk, Option.bind_eq_bind, Option.bind_some, hb]
          rw [if_pos (by omega), if_pos (by omega)]
          rfl
        obtain ⟨v2, hv2, I2⟩ := inv_write I hp1
        have hv21 : v2 = v1 := by
          simp only [Spec.step, hy, Option.bind_eq_bind, Option.bind_some, ho, if_true,
            Option.some.injEq] at hv2 h1
          rw [← hv2, ← h1]
        subst hv21
        have hrb : p.given[k].block < p.blocks.length := (List.getElem?_eq_some_iff.mp hb).1
        have S2 : Sizes (p.blocks.set p.given[k].block
            { b with mem := b.mem.set (p.given[k].off + o) x }) T := by
          refine ⟨by simpa using S.len, ?_⟩
          intro i c hc
          by_cases hi : p.given[k].block = i
          · subst hi
            rw [List.getElem?_set_self hrb] at hc
            simp only [Option.some.injEq] at hc
            subst hc
            exact S.size _ b hb
          · rw [List.getElem?_set_ne hi] at hc
            exact S.size i c hc
        obtain ⟨p', hp'⟩ := ih _ _ v' T I2 S2 h2 hT
        exact ⟨p', by simp [Pool.run, Pool.step, hp1, hp']⟩
  obtain ⟨b, hb⟩ : ∃ b, init0 256 = some b := ⟨_, rfl⟩
  have hinit : Pool.init = some ⟨[b], 0, []⟩ := by
    simp only [Pool.init, hb]; rfl
  have hbo := init0_ok hb
  obtain ⟨p, hp⟩ := H os _ [] v 0 (inv_init hinit) ⟨by simp, by
    intro i c hc
    have hi : i = 0 := by
      have := (List.getElem?_eq_some_iff.mp hc).1
      simpa using this
    subst hi
    simp only [List.getElem?_cons_zero, Option.some.injEq] at hc
    subst hc
    exact ⟨hbo.2.2, by omega⟩⟩ hv (by omega)
  exact ⟨_, p, hinit, hp⟩

/-- The full C02 fails beyond that: `blockSize << 2` is narrowed to `int` when a block is chained, so
after the 2^30-byte block all further blocks have size 0 and a request of more than 2^30 bytes on a
fresh pool chains blocks for ever (no amount of fuel suffices). -/
theorem C02_large_request_never_returns (n : Nat) (hn : 2 ^ 30 < n) (p0 : Pool)
    (h0 : Pool.init = some p0) (fuel : Nat) : p0.alloc fuel n = none := by
  have I := inv_init h0
  simp only [Pool.init, Option.bind_eq_bind, Option.bind_eq_some_iff, Option.pure_def,
    Option.some.injEq] at h0
  obtain ⟨b, hb, rfl⟩ := h0
  have := allocFrom_never hn fuel [b] 0 rfl (by
    intro c hc
    simp only [List.getElem?_cons_zero, Option.some.injEq] at hc
    subst hc
    right
    exact ⟨0, by omega, by rw [(init0_ok hb).2.2]; rfl⟩)
  simp [Pool.alloc, this]

/-- Non-vacuity: a run that chains blocks, wastes a tail, and writes. -/
example : Spec.run [] [Op.alloc 3, .alloc 1, .write 0 2 7, .alloc 0] = some [[0, 0, 7], [0], []] := by
  decide

example : requested [Op.alloc 200, .alloc 100, .write 0 2 7, .alloc 5000] ≤ 2 ^ 30 := by decide

end Verif.MemPool
