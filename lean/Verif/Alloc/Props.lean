import Verif.Alloc.Model

/-! # C52: node allocator -/

namespace Verif.Alloc

namespace Spec

/-- Byte ranges (address, size) do not overlap. -/
def Disjoint (a b : Nat × Nat) : Prop := a.1 + a.2 ≤ b.1 ∨ b.1 + b.2 ≤ a.1

/-- Contract of `new char[blockSize]`: different calls give non-overlapping memory. -/
def Heap (env : Nat → Nat) : Prop := ∀ i j, i ≠ j → Disjoint (env i, blockSize) (env j, blockSize)

/-- Range `r` lies in the block obtained by the `k`-th call of `new`. -/
def InBlock (env : Nat → Nat) (k : Nat) (r : Nat × Nat) : Prop :=
  env k ≤ r.1 ∧ r.1 + r.2 ≤ env k + blockSize

end Spec

/-- Reachable states: `m` blocks in use. -/
structure Inv (env : Nat → Nat) (s : State) (m : Nat) (got : List (Nat × Nat)) : Prop where
  small : m < word
  index : s.sBlockIndex = (m + (word - 1)) % word
  storage : s.sStorage = if m = 0 then none else some ((List.range m).map env)
  cur : s.sCurrentBlock = if m = 0 then none else some (env (m - 1))
  le : s.sCurrentIndex ≤ blockSize
  inblock : ∀ r ∈ got, ∃ k, k < m ∧ Spec.InBlock env k r ∧ (k = m - 1 → r.1 + r.2 ≤ env k + s.sCurrentIndex)

theorem inv_init (env : Nat → Nat) : Inv env State.init 0 [] :=
  ⟨by decide, by decide, rfl, rfl, by decide, by simp⟩

theorem inv_allocate {env : Nat → Nat} (he : Spec.Heap env) {s : State} {m sz n : Nat}
    {got : List (Nat × Nat)} (I : Inv env s m got) (hm : m + 1 < word) (hn : n * sz ≤ blockSize) :
    ∃ s' p m', (m ≤ m' ∧ 0 < m' ∧ m' ≤ m + 1) ∧ s.allocate env sz n = some (s', p) ∧ Inv env s' m' ((p, n * sz) :: got) ∧
      (∃ k, k < m' ∧ Spec.InBlock env k (p, n * sz)) ∧ ∀ r ∈ got, Spec.Disjoint (p, n * sz) r := by
  have hb : n * sz % word = n * sz := Nat.mod_eq_of_lt (Nat.lt_of_le_of_lt hn (by decide))
  have hw : blockSize + blockSize < word := by decide
  have hle := I.le
  unfold State.allocate
  simp only [hb]
  have hsum : (s.sCurrentIndex + n * sz) % word = s.sCurrentIndex + n * sz :=
    Nat.mod_eq_of_lt (by omega)
  rw [hsum]
  by_cases hnew : s.sCurrentBlock = none ∨ blockSize < s.sCurrentIndex + n * sz
  · rw [if_pos hnew]
    have hidx : (s.sBlockIndex + 1) % word = m := by
      rw [I.index, Nat.mod_add_mod, Nat.add_assoc, show word - 1 + 1 = word by decide]
      simp [Nat.mod_eq_of_lt I.small]
    have hnb : s.newBlock env = ⟨m, 0, some ((List.range (m + 1)).map env), some (env m)⟩ := by
      unfold State.newBlock
      simp only [hidx]
      rw [I.storage]
      by_cases h0 : m = 0
      · subst h0; rfl
      · simp only [h0, if_false]
        congr 2
        rw [List.take_of_length_le (by simp), List.range_succ, List.map_append]; rfl
    rw [hnb]
    have hz : (0 + n * sz) % word = n * sz := by rw [Nat.zero_add, hb]
    refine ⟨_, _, m + 1, by omega, rfl, ?_, ⟨m, by omega, ?_⟩, ?_⟩
    · constructor
      · exact hm
      · simp only
        rw [Nat.add_assoc, show 1 + (word - 1) = word by decide]
        simp [Nat.mod_eq_of_lt I.small]
      · simp
      · simp
      · simp only [hz]; exact hn
      · intro r hr
        rcases List.mem_cons.mp hr with rfl | hr
        · refine ⟨m, by omega, ⟨by simp, by simp; exact hn⟩, fun _ => by simp [hb]⟩
        · obtain ⟨k, hk, h1, h2⟩ := I.inblock r hr
          exact ⟨k, by omega, h1, by omega⟩
    · exact ⟨by simp, by simp; exact hn⟩
    · intro r hr
      obtain ⟨k, hk, h1, h2⟩ := I.inblock r hr
      have := he m k (by omega)
      simp only [Spec.Disjoint, Spec.InBlock] at this h1 ⊢
      omega
  · rw [if_neg hnew]
    have h0 : m ≠ 0 := by
      intro h0
      apply hnew
      left
      rw [I.cur, if_pos h0]
    have hcur := I.cur
    simp only [h0, if_false] at hcur
    simp only [State.take, hcur, hsum]
    refine ⟨_, _, m, by omega, rfl, ?_, ⟨m - 1, by omega, ?_⟩, ?_⟩
    · constructor
      · exact I.small
      · exact I.index
      · exact I.storage
      · simp [h0]
      · simp only; omega
      · intro r hr
        rcases List.mem_cons.mp hr with rfl | hr
        · refine ⟨m - 1, by omega, ?_, ?_⟩
          · simp only [Spec.InBlock]; omega
          · simp only; omega
        · obtain ⟨k, hk, h1, h2⟩ := I.inblock r hr
          refine ⟨k, hk, h1, ?_⟩
          intro hk'; have := h2 hk'; simp only; omega
    · simp only [Spec.InBlock]; omega
    · intro r hr
      obtain ⟨k, hk, h1, h2⟩ := I.inblock r hr
      simp only [Spec.Disjoint]
      by_cases hkm : k = m - 1
      · have := h2 hkm
        subst hkm
        omega
      · have := he (m - 1) k (by omega)
        simp only [Spec.Disjoint, Spec.InBlock] at this h1 ⊢
        omega

theorem inv_run {env : Nat → Nat} (he : Spec.Heap env) {sz : Nat} : ∀ (ns : List Nat) (s : State) (m : Nat)
    (got : List (Nat × Nat)), Inv env s m got → m + ns.length < word → (∀ n ∈ ns, n * sz ≤ blockSize) →
    ∃ s' ps m', s.run env sz ns = some (s', ps) ∧ Inv env s' m' got ∧ (ns ≠ [] → 0 < m') ∧ m ≤ m' ∧
      (∀ r ∈ ps, ∃ k, k < m' ∧ Spec.InBlock env k r) ∧ ps.Pairwise Spec.Disjoint ∧
      (∀ r ∈ ps, ∀ r' ∈ got, Spec.Disjoint r r') ∧ ps.map (·.2) = ns.map (· * sz) := by
  intro ns
  induction ns with
  | nil => intro s m got I _ _; exact ⟨s, [], m, rfl, I, by simp, Nat.le_refl _, by simp, by simp, by simp, rfl⟩
  | cons n ns ih =>
    intro s m got I hm hns
    simp only [List.length_cons] at hm
    obtain ⟨s1, p, m1, hm1, h1, I1, ⟨k, hk, hin⟩, hd⟩ :=
      inv_allocate he I (by omega) (hns n List.mem_cons_self)
    obtain ⟨s2, ps, m2, h2, I2, _, hmm, hin2, hpw, hdis, hsz⟩ := ih s1 m1 _ I1 (by omega)
      (fun x hx => hns x (List.mem_cons_of_mem _ hx))
    refine ⟨s2, (p, n * sz) :: ps, m2, by simp [State.run, h1, h2],
      ⟨I2.small, I2.index, I2.storage, I2.cur, I2.le, fun r hr => I2.inblock r (List.mem_cons_of_mem _ hr)⟩,
      fun _ => by omega, ?_, ?_, ?_, ?_, by simp [hsz]⟩
    · omega
    · intro r hr
      rcases List.mem_cons.mp hr with rfl | hr
      · exact ⟨k, by omega, hin⟩
      · exact hin2 r hr
    · rw [List.pairwise_cons]
      refine ⟨?_, hpw⟩
      intro r hr
      have := hdis r hr (p, n * sz) List.mem_cons_self
      simp only [Spec.Disjoint] at this ⊢
      omega
    · intro r hr r' hr'
      rcases List.mem_cons.mp hr with rfl | hr
      · exact hd r' hr'
      · exact hdis r hr r' (List.mem_cons_of_mem _ hr')

theorem containsFrom_spec {env : Nat → Nat} {m p : Nat} : ∀ (k i : Nat), i + k = m →
    ∃ b, containsFrom ((List.range m).map env) p k i = some b ∧
      (b = true ↔ ∃ j, i ≤ j ∧ j < m ∧ env j ≤ p ∧ p < env j + blockSize) := by
  intro k
  induction k with
  | zero => intro i hi; exact ⟨false, rfl, by simp; intro x h1 h2; omega⟩
  | succ k ih =>
    intro i hi
    have hget : ((List.range m).map env)[i]? = some (env i) := by
      have : i < m := by omega
      simp [this]
    simp only [containsFrom, hget]
    split
    · rename_i h
      exact ⟨true, rfl, by simp only [true_iff]; exact ⟨i, Nat.le_refl _, by omega, h⟩⟩
    · rename_i h
      obtain ⟨b, hb, hiff⟩ := ih (i + 1) (by omega)
      refine ⟨b, hb, hiff.trans ?_⟩
      constructor
      · rintro ⟨j, h1, h2⟩; exact ⟨j, by omega, h2⟩
      · rintro ⟨j, h1, h2, h3⟩
        refine ⟨j, ?_, h2, h3⟩
        have : j ≠ i := by rintro rfl; exact h h3
        omega

/-- C52 (allocation). For requests of at most one block each, all returned ranges have the requested
size, lie inside a block obtained from `new`, and are pairwise disjoint. -/
theorem C52_disjoint (env : Nat → Nat) (he : Spec.Heap env) (sz : Nat) (ns : List Nat)
    (hlen : ns.length < word) (hns : ∀ n ∈ ns, n * sz ≤ blockSize) :
    ∃ s ps, State.init.run env sz ns = some (s, ps) ∧ ps.map (·.2) = ns.map (· * sz) ∧
      (∀ r ∈ ps, ∃ k, Spec.InBlock env k r) ∧ ps.Pairwise Spec.Disjoint := by
  obtain ⟨s, ps, m, h, _, _, _, hin, hpw, _, hsz⟩ :=
    inv_run he ns State.init 0 [] (inv_init env) (by omega) hns
  exact ⟨s, ps, h, hsz, fun r hr => (hin r hr).imp fun _ h => h.2, hpw⟩

/-- C52 (`contains`). After at least one allocation there is a number `m > 0` of blocks such that all
returned ranges lie in the first `m` blocks and `contains(p)` is true exactly for the addresses in these
blocks. -/
theorem C52_contains (env : Nat → Nat) (he : Spec.Heap env) (sz : Nat) (ns : List Nat) (hne : ns ≠ [])
    (hlen : ns.length < word) (hns : ∀ n ∈ ns, n * sz ≤ blockSize) :
    ∃ s ps m, State.init.run env sz ns = some (s, ps) ∧ 0 < m ∧
      (∀ r ∈ ps, ∃ k, k < m ∧ Spec.InBlock env k r) ∧
      ∀ p, ∃ b, s.contains p = some b ∧ (b = true ↔ ∃ k, k < m ∧ env k ≤ p ∧ p < env k + blockSize) := by
  obtain ⟨s, ps, m, h, I, hpos, _, hin, _, _, _⟩ :=
    inv_run he ns State.init 0 [] (inv_init env) (by omega) hns
  have hm := hpos hne
  refine ⟨s, ps, m, h, hm, hin, ?_⟩
  intro p
  have hst := I.storage
  rw [if_neg (by omega)] at hst
  have hidx : s.sBlockIndex + 1 = m := by
    have h1 := I.small
    rw [I.index, show m + (word - 1) = (m - 1) + word by have : 0 < word := by decide
                                                         omega]
    rw [Nat.add_mod_right, Nat.mod_eq_of_lt (by omega)]; omega
  obtain ⟨b, hb, hiff⟩ := containsFrom_spec (env := env) (p := p) (m := m) m 0 (by omega)
  exact ⟨b, by simp [State.contains, hst, hidx, hb], by simpa using hiff⟩

/-- A request above the block size is not confined to a block: the last byte handed out lies beyond the
only block allocated. -/
theorem C52_large_request_overflows (env : Nat → Nat) (sz n : Nat) (h1 : blockSize < n * sz) (h2 : n * sz < word) :
    ∃ s, State.init.allocate env sz n = some (s, env 0) ∧ s.sStorage = some [env 0] ∧
      ¬ Spec.InBlock env 0 (env 0, n * sz) := by
  refine ⟨⟨0, n * sz, some [env 0], some (env 0)⟩, ?_, rfl, ?_⟩
  · have hb : n * sz % word = n * sz := Nat.mod_eq_of_lt h2
    simp [State.allocate, State.init, State.newBlock, State.take, hb, show (word - 1 + 1) % word = 0 by decide]
  · simp only [Spec.InBlock]; omega

/-- `contains` on an allocator that never allocated dereferences the null pointer. -/
theorem C52_contains_before_allocation (p : Nat) : State.init.contains p = none := rfl

/-- Non-vacuity: two blocks. -/
example : Spec.Heap (fun k => 100000 * (k + 1)) := by
  intro i j hij
  simp only [Spec.Disjoint, blockSize]
  omega

example : (State.init.run (fun k => 100000 * (k + 1)) 16 [4000, 96, 1]).map (·.2) =
    some [(100000, 64000), (164000, 1536), (200000, 16)] := by decide

end Verif.Alloc
