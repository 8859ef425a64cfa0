import Verif.Auto.ShapeLemmas

set_option linter.unusedSectionVars false

/-! # Lemmas about `isUnbounded` and `maxLength` -/

namespace Verif.Auto

variable {C : Type} [CharSetLike C]

/-! ### `isUnbounded` -/

/-- `j` is a successor of `i`. -/
def Succ (rs : Rules C) (j i : Nat) : Prop := ∃ c, HasEdge rs i c j

/-- A cycle reachable from `x`. -/
def Cyclic (rs : Rules C) (x : Nat) : Prop := ∃ u c v, Path (fun _ => true) rs x u ∧ HasEdge rs u c v ∧ Path (fun _ => true) rs v u

theorem acc_path {rs : Rules C} {x u : Nat} (h : Path (fun _ => true) rs x u) (ha : Acc (Succ rs) x) : Acc (Succ rs) u := by
  induction h with
  | refl => exact ha
  | step e _ _ ih => exact ih (ha.inv ⟨_, e⟩)

theorem acc_noCycle {rs : Rules C} {u : Nat} (h : Acc (Succ rs) u) : ∀ c v, HasEdge rs u c v → ¬ Path (fun _ => true) rs v u := by
  induction h with
  | intro u _ ih =>
    intro c v e hp
    cases hp with
    | refl => exact ih _ ⟨c, e⟩ _ _ e .refl
    | step e' _ hp' => exact ih v ⟨c, e⟩ _ _ e' (hp'.trans (.one e))

theorem acc_not_cyclic {rs : Rules C} {x : Nat} (h : Acc (Succ rs) x) : ¬ Cyclic rs x := by
  rintro ⟨u, c, v, h1, h2, h3⟩
  exact acc_noCycle (acc_path h1 h) c v h2 h3

theorem unb_false (rs : Rules C) (fuel : Nat) :
    (∀ vis x, unbCheck rs fuel vis x = some false → Acc (Succ rs) x) ∧
    ∀ vis es, unbEdges rs fuel vis es = some false → ∀ e ∈ es, Acc (Succ rs) e.2 := by
  induction fuel with
  | zero =>
    refine ⟨fun vis x h => by simp [unbCheck] at h, fun vis es => ?_⟩
    cases es with
    | nil => simp
    | cons e es =>
      intro h
      obtain ⟨c, j⟩ := e
      simp only [unbEdges] at h
      split at h
      · cases h
      · cases h
      · simp [unbCheck] at h
  | succ fuel ih =>
    obtain ⟨ih1, ih2⟩ := ih
    have one : ∀ vis x, unbCheck rs (fuel + 1) vis x = some false → Acc (Succ rs) x := by
      intro vis x h
      simp only [unbCheck] at h
      split at h
      · split at h
        · cases h
        · rename_i es hes
          refine ⟨x, ?_⟩
          rintro j ⟨c, es', h1, h2⟩
          rw [hes] at h1; cases h1
          exact ih2 _ _ h _ h2
      · cases h
    refine ⟨one, fun vis es => ?_⟩
    induction es with
    | nil => simp
    | cons e es ihe =>
      obtain ⟨c, j⟩ := e
      intro h
      simp only [unbEdges] at h
      split at h
      · cases h
      · cases h
      · split at h
        · cases h
        · cases h
        · rename_i hc
          intro e he
          rcases List.mem_cons.mp he with rfl | he
          · exact one _ _ hc
          · exact ihe h e he

theorem unb_true (rs : Rules C) (fuel : Nat) :
    (∀ vis x, unbCheck rs fuel vis x = some true → (∀ v, B vis v → Path (fun _ => true) rs v x) → Cyclic rs x) ∧
    ∀ vis es x, (∀ e ∈ es, HasEdge rs x e.1 e.2) → unbEdges rs fuel vis es = some true → (∀ v, B vis v → Path (fun _ => true) rs v x) → Cyclic rs x := by
  induction fuel with
  | zero =>
    refine ⟨fun vis x h => by simp [unbCheck] at h, fun vis es x hes => ?_⟩
    cases es with
    | nil => simp [unbEdges]
    | cons e es =>
      intro h hv
      obtain ⟨c, j⟩ := e
      simp only [unbEdges] at h
      split at h
      · cases h
      · rename_i hj
        exact ⟨x, c, j, .refl, hes (c, j) List.mem_cons_self, hv j hj⟩
      · simp [unbCheck] at h
  | succ fuel ih =>
    obtain ⟨ih1, ih2⟩ := ih
    have one : ∀ vis x, unbCheck rs (fuel + 1) vis x = some true → (∀ v, B vis v → Path (fun _ => true) rs v x) → Cyclic rs x := by
      intro vis x h hv
      simp only [unbCheck] at h
      split at h
      · rename_i hx
        split at h
        · cases h
        · rename_i es hes
          refine ih2 _ es x (fun e he => ⟨es, hes, he⟩) h fun v hb => ?_
          rw [B_set hx] at hb
          rcases hb with hb | rfl
          · exact hv v hb
          · exact .refl
      · cases h
    refine ⟨one, fun vis es x => ?_⟩
    induction es with
    | nil => simp [unbEdges]
    | cons e es ihe =>
      obtain ⟨c, j⟩ := e
      intro hes h hv
      have hej := hes (c, j) List.mem_cons_self
      simp only [unbEdges] at h
      split at h
      · cases h
      · rename_i hj
        exact ⟨x, c, j, .refl, hej, hv j hj⟩
      · split at h
        · cases h
        · rename_i hc
          obtain ⟨u, c', v, p1, p2, p3⟩ := one _ _ hc fun v hb => (hv v hb).trans (.one hej)
          exact ⟨u, c', v, .step hej rfl p1, p2, p3⟩
        · exact ihe (fun e he => hes e (List.mem_cons_of_mem _ he)) h hv

theorem bit_false {vis : Bits} {x : Nat} (hx : x < vis.length) (hb : ¬ B vis x) : vis[x]? = some false := by
  rw [List.getElem?_eq_getElem hx]
  unfold B at hb
  rw [List.getElem?_eq_getElem hx] at hb
  simpa using hb

theorem unbEdges_some {rs : Rules C} {N fuel : Nat}
    (one : ∀ vis x, vis.length = N → x < N → ¬ B vis x → vis.count false ≤ fuel → ∃ b, unbCheck rs fuel vis x = some b)
    (vis : Bits) (es : List (C × Nat)) (hl : vis.length = N) (hes : ∀ e ∈ es, e.2 < N) (hc : vis.count false ≤ fuel) :
    ∃ b, unbEdges rs fuel vis es = some b := by
  induction es with
  | nil => exact ⟨false, by simp [unbEdges]⟩
  | cons e es ihe =>
    obtain ⟨c, j⟩ := e
    have hj := hes (c, j) List.mem_cons_self
    simp only at hj
    simp only [unbEdges]
    by_cases hb : B vis j
    · unfold B at hb; rw [hb]; exact ⟨true, rfl⟩
    · rw [bit_false (by omega) hb]
      obtain ⟨b, h1⟩ := one vis j hl hj hb hc
      simp only [h1]
      cases b
      · exact ihe (fun e he => hes e (List.mem_cons_of_mem _ he))
      · exact ⟨true, rfl⟩

theorem unb_some {rs : Rules C} {N : Nat} (hsz : N ≤ rs.length) (ht : ∀ i c j, HasEdge rs i c j → j < N) (fuel : Nat) :
    ∀ vis x, vis.length = N → x < N → ¬ B vis x → vis.count false ≤ fuel → ∃ b, unbCheck rs fuel vis x = some b := by
  induction fuel with
  | zero =>
    intro vis x hl hx hb hc
    have := bit_false (by omega) hb
    have := List.count_pos_iff.mpr (List.mem_of_getElem? this)
    omega
  | succ fuel ih =>
    intro vis x hl hx hb hc
    simp only [unbCheck]
    rw [if_pos (by omega), List.getElem?_eq_getElem (by omega : x < rs.length)]
    simp only
    have hxl : x < vis.length := by omega
    have hf := bit_false hxl hb
    have hv : vis[x] = false := by rw [List.getElem?_eq_getElem hxl] at hf; simpa using hf
    have hp := List.count_pos_iff.mpr (List.mem_of_getElem? hf)
    refine unbEdges_some ih _ _ (by simpa using hl) (fun e he => ht x e.1 e.2 ⟨_, List.getElem?_eq_getElem (by omega), he⟩) ?_
    rw [List.count_set hxl]
    simp [hv]; omega

theorem isUnbounded_spec {n : NFA C} (hn : n.WfM) :
    ∃ b, n.isUnbounded (n.nstates + 1) = some b ∧ (b = true ↔ Cyclic n.rules 0) ∧ (b = false ↔ Acc (Succ n.rules) 0) := by
  obtain ⟨b, hb⟩ := unb_some hn.size (fun i c j h => (hn.target i c j h).2) (n.nstates + 1) (List.replicate n.nstates false) 0 (by simp) hn.start
    B_replicate (by simp)
  have h1 : b = true → Cyclic n.rules 0 := by
    rintro rfl
    exact (unb_true n.rules _).1 _ _ hb fun v hv => absurd hv B_replicate
  have h2 : b = false → Acc (Succ n.rules) 0 := by
    rintro rfl
    exact (unb_false n.rules _).1 _ _ hb
  refine ⟨b, hb, ⟨h1, fun h => ?_⟩, ⟨h2, fun h => ?_⟩⟩
  · cases b
    · exact absurd h (acc_not_cyclic (h2 rfl))
    · rfl
  · cases b
    · rfl
    · exact absurd (h1 rfl) (acc_not_cyclic h)

/-- Every state is accessible unless a cycle can be reached from it. -/
theorem acc_or_cyclic {n : NFA C} (hn : n.WfM) {x : Nat} (hx : x < n.nstates) : Acc (Succ n.rules) x ∨ Cyclic n.rules x := by
  obtain ⟨b, hb⟩ := unb_some hn.size (fun i c j h => (hn.target i c j h).2) (n.nstates + 1) (List.replicate n.nstates false) x (by simp) hx
    B_replicate (by simp)
  cases b with
  | false => exact Or.inl ((unb_false n.rules _).1 _ _ hb)
  | true => exact Or.inr ((unb_true n.rules _).1 _ _ hb fun v hv => absurd hv B_replicate)

/-! ### Paths to an accepting state -/

/-- Paths to a state satisfying `T`, with their number of characters. -/
inductive To (rs : Rules C) (T : Nat → Prop) : Nat → Nat → Prop
  | stop {x} : T x → To rs T 0 x
  | eps {k x c y} : HasEdge rs x c y → CharSetLike.isEps c = true → To rs T k y → To rs T k x
  | chr {k x c y} : HasEdge rs x c y → CharSetLike.isEps c = false → To rs T k y → To rs T (k + 1) x

theorem to_of_from {rs : Rules C} {T : Nat → Prop} {m z : Nat} (h : From rs m z) : ∀ k, To rs T k z → To rs T (k + m) 0 := by
  induction h with
  | start => intro k hk; exact hk
  | eps _ e he ih => intro k hk; exact ih k (.eps e he hk)
  | chr _ e he ih =>
    intro k hk
    have := ih (k + 1) (.chr e he hk)
    rw [Nat.add_comm _ 1, ← Nat.add_assoc]; exact this

theorem from_of_to {rs : Rules C} {T : Nat → Prop} {k x : Nat} (h : To rs T k x) : ∀ m, From rs m x → ∃ t, T t ∧ From rs (m + k) t := by
  induction h with
  | @stop x hx => intro m hm; exact ⟨x, hx, hm⟩
  | eps e he _ ih => intro m hm; exact ih m (.eps hm e he)
  | @chr k x c y e he _ ih =>
    intro m hm
    obtain ⟨t, h1, h2⟩ := ih (m + 1) (.chr hm e he)
    exact ⟨t, h1, by rw [Nat.add_comm k 1, ← Nat.add_assoc]; exact h2⟩

theorem to_iff_from {rs : Rules C} {T : Nat → Prop} {k : Nat} : To rs T k 0 ↔ ∃ t, T t ∧ From rs k t := by
  constructor
  · intro h
    obtain ⟨t, h1, h2⟩ := from_of_to h 0 .start
    exact ⟨t, h1, by simpa using h2⟩
  · rintro ⟨t, h1, h2⟩
    have := to_of_from h2 0 (.stop h1)
    simpa using this

/-- Bounded path lengths below an accessible state. -/
theorem to_bound {rs : Rules C} {T : Nat → Prop} {x : Nat} (h : Acc (Succ rs) x) : ∃ M, ∀ k, To rs T k x → k ≤ M := by
  induction h with
  | intro x _ ih =>
    have key : ∀ es : List (C × Nat), (∀ e ∈ es, HasEdge rs x e.1 e.2) → ∃ M, ∀ e ∈ es, ∀ k, To rs T k e.2 → k ≤ M := by
      intro es
      induction es with
      | nil => intro _; exact ⟨0, by simp⟩
      | cons e es ihe =>
        intro hes
        obtain ⟨M, hM⟩ := ihe fun e he => hes e (List.mem_cons_of_mem _ he)
        obtain ⟨M', hM'⟩ := ih e.2 ⟨e.1, hes e List.mem_cons_self⟩
        refine ⟨M + M', fun e' he' k hk => ?_⟩
        rcases List.mem_cons.mp he' with rfl | he'
        · have := hM' k hk; omega
        · have := hM e' he' k hk; omega
    cases hx : rs[x]? with
    | none =>
      refine ⟨0, fun k hk => ?_⟩
      cases hk with
      | stop _ => omega
      | eps e _ _ => obtain ⟨es, h1, _⟩ := e; rw [hx] at h1; cases h1
      | chr e _ _ => obtain ⟨es, h1, _⟩ := e; rw [hx] at h1; cases h1
    | some es =>
      obtain ⟨M, hM⟩ := key es fun e he => ⟨es, hx, he⟩
      refine ⟨M + 1, fun k hk => ?_⟩
      cases hk with
      | stop _ => omega
      | @eps _ _ c y e _ hk =>
        obtain ⟨es', h1, h2⟩ := e; rw [hx] at h1; cases h1
        have := hM _ h2 k hk; omega
      | @chr k _ c y e _ hk =>
        obtain ⟨es', h1, h2⟩ := e; rw [hx] at h1; cases h1
        have := hM _ h2 k hk; omega

/-! ### The loop -/

theorem mem_backRules {N : Nat} {rs : Rules C} (hsz : N ≤ rs.length) (x : Nat) (c : C) (y : Nat) :
    (c, y) ∈ backRules N rs x ↔ y < N ∧ HasEdge rs y c x := by
  simp only [backRules, List.mem_flatMap, List.mem_map, List.mem_filter, beq_iff_eq, Prod.mk.injEq]
  constructor
  · rintro ⟨⟨i, es⟩, hm, ⟨c', j⟩, ⟨h1, h2⟩, rfl, rfl⟩
    obtain ⟨p, hp⟩ := List.mem_iff_getElem?.mp hm
    rw [List.getElem?_zip_eq_some] at hp
    obtain ⟨hp1, hp2⟩ := hp
    have hpl := (List.getElem?_eq_some_iff.mp hp1).1
    simp at hpl
    rw [List.getElem?_range hpl] at hp1
    cases hp1
    rw [List.getElem?_take, if_pos hpl] at hp2
    simp only at h2; subst h2
    exact ⟨hpl, es, hp2, h1⟩
  · rintro ⟨hy, es, h1, h2⟩
    refine ⟨(y, es), List.mem_iff_getElem?.mpr ⟨y, ?_⟩, (c, x), ⟨h2, rfl⟩, rfl, rfl⟩
    rw [List.getElem?_zip_eq_some, List.getElem?_take, if_pos hy]
    exact ⟨List.getElem?_range hy, h1⟩

/-- What the distance of `y` must be, when the distance of a successor is `k`. -/
def Reach (dist : List Int) (c : C) (y : Nat) (k : Int) : Prop := ∃ d, dist[y]? = some d ∧ (if CharSetLike.isEps c then k else k + 1) ≤ d

/-- Remaining increases. -/
def slack (M : Int) (dist : List Int) : Nat := (dist.map fun d => (M - d).toNat).sum

theorem slack_set {M v : Int} {dist : List Int} {y : Nat} (hy : y < dist.length) (h : dist[y] < v) (hv : v ≤ M) :
    slack M (dist.set y v) + 1 ≤ slack M dist := by
  induction dist generalizing y with
  | nil => simp at hy
  | cons d dist ih =>
    cases y with
    | zero => simp [slack] at h ⊢; omega
    | succ y =>
      simp at hy h
      have := ih hy h
      simp [slack] at this ⊢; omega

theorem backScan_spec (len : Nat) (es : List (C × Nat)) : ∀ (dist : List Int) (t0 t1 : List Nat), (∀ c y, (c, y) ∈ es → y < dist.length) →
    ∃ dist' n0 n1, backScan len es dist t0 t1 = some (dist', t0 ++ n0, t1 ++ n1) ∧ dist'.length = dist.length ∧
      (∀ (y : Nat) (d : Int), dist[y]? = some d → ∃ d', dist'[y]? = some d' ∧ d ≤ d') ∧
      (∀ (y : Nat) (d' : Int), dist'[y]? = some d' → dist[y]? = some d' ∨ (d' = (len : Int) ∧ y ∈ n0) ∨ (d' = (len : Int) + 1 ∧ y ∈ n1)) ∧
      (∀ c y, (c, y) ∈ es → Reach dist' c y len) ∧
      (∀ y ∈ n0, ∃ c, (c, y) ∈ es ∧ CharSetLike.isEps c = true) ∧
      (∀ y ∈ n1, ∃ c, (c, y) ∈ es ∧ CharSetLike.isEps c = false) ∧
      ∀ M : Int, (∀ c y, (c, y) ∈ es → (if CharSetLike.isEps c then (len : Int) else (len : Int) + 1) ≤ M) →
        slack M dist' + n0.length + n1.length ≤ slack M dist := by
  induction es with
  | nil =>
    intro dist t0 t1 _
    exact ⟨dist, [], [], by simp [backScan], rfl, fun y d h => ⟨d, h, Int.le_refl _⟩, fun y d h => Or.inl h, by simp, by simp, by simp, by simp⟩
  | cons e es ih =>
    intro dist t0 t1 hb
    obtain ⟨c, y⟩ := e
    have hy := hb c y List.mem_cons_self
    have hb' : ∀ c y, (c, y) ∈ es → y < dist.length := fun c y h => hb c y (List.mem_cons_of_mem _ h)
    -- the two kinds of step
    have keep : Reach dist c y len → (∃ r, backScan len ((c, y) :: es) dist t0 t1 = r ∧ r = backScan len es dist t0 t1) →
        ∃ dist' n0 n1, backScan len ((c, y) :: es) dist t0 t1 = some (dist', t0 ++ n0, t1 ++ n1) ∧ dist'.length = dist.length ∧
      (∀ (y : Nat) (d : Int), dist[y]? = some d → ∃ d', dist'[y]? = some d' ∧ d ≤ d') ∧
      (∀ (y : Nat) (d' : Int), dist'[y]? = some d' → dist[y]? = some d' ∨ (d' = (len : Int) ∧ y ∈ n0) ∨ (d' = (len : Int) + 1 ∧ y ∈ n1)) ∧
      (∀ c' y', (c', y') ∈ (c, y) :: es → Reach dist' c' y' len) ∧
      (∀ y' ∈ n0, ∃ c', (c', y') ∈ (c, y) :: es ∧ CharSetLike.isEps c' = true) ∧
      (∀ y' ∈ n1, ∃ c', (c', y') ∈ (c, y) :: es ∧ CharSetLike.isEps c' = false) ∧
      ∀ M : Int, (∀ c' y', (c', y') ∈ (c, y) :: es → (if CharSetLike.isEps c' then (len : Int) else (len : Int) + 1) ≤ M) →
        slack M dist' + n0.length + n1.length ≤ slack M dist := by
      rintro ⟨d, hd, hk⟩ ⟨r, hr, hr'⟩
      obtain ⟨dist', n0, n1, h1, h2, h3, h4, h5, h6, h7, h8⟩ := ih dist t0 t1 hb'
      refine ⟨dist', n0, n1, by rw [hr, hr', h1], h2, h3, h4, ?_, ?_, ?_, ?_⟩
      · intro c' y' hm
        rcases List.mem_cons.mp hm with heq | hm
        · cases heq
          obtain ⟨d', e1, e2⟩ := h3 y d hd
          exact ⟨d', e1, by omega⟩
        · exact h5 c' y' hm
      · intro y' hm; obtain ⟨c', a, b⟩ := h6 y' hm; exact ⟨c', List.mem_cons_of_mem _ a, b⟩
      · intro y' hm; obtain ⟨c', a, b⟩ := h7 y' hm; exact ⟨c', List.mem_cons_of_mem _ a, b⟩
      · intro M hM; exact h8 M fun c' y' hm => hM c' y' (List.mem_cons_of_mem _ hm)
    have hd : dist[y]? = some dist[y] := List.getElem?_eq_getElem hy
    cases hc : CharSetLike.isEps c with
    | true =>
      by_cases hlt : dist[y] < (len : Int)
      · obtain ⟨dist', n0, n1, h1, h2, h3, h4, h5, h6, h7, h8⟩ := ih (dist.set y len) (t0 ++ [y]) t1 (by simpa using hb')
        have hy' : (dist.set y (len : Int))[y]? = some (len : Int) := by simp [hy]
        refine ⟨dist', y :: n0, n1, ?_, by simpa using h2, ?_, ?_, ?_, ?_, ?_, ?_⟩
        · simp only [backScan, hd, hc, if_true, if_pos hlt]; rw [h1]; simp
        · intro z d hz
          by_cases hzy : y = z
          · subst hzy
            rw [hd] at hz; cases hz
            obtain ⟨d', e1, e2⟩ := h3 y _ hy'
            exact ⟨d', e1, by omega⟩
          · exact h3 z d (by rw [List.getElem?_set_ne hzy]; exact hz)
        · intro z d' hz
          rcases h4 z d' hz with h | ⟨h, hm⟩ | ⟨h, hm⟩
          · by_cases hzy : y = z
            · subst hzy; rw [hy'] at h; cases h
              exact Or.inr (Or.inl ⟨rfl, List.mem_cons_self⟩)
            · rw [List.getElem?_set_ne hzy] at h; exact Or.inl h
          · exact Or.inr (Or.inl ⟨h, List.mem_cons_of_mem _ hm⟩)
          · exact Or.inr (Or.inr ⟨h, hm⟩)
        · intro c' y' hm
          rcases List.mem_cons.mp hm with heq | hm
          · cases heq
            obtain ⟨d', e1, e2⟩ := h3 y _ hy'
            exact ⟨d', e1, by rw [hc]; simpa using e2⟩
          · exact h5 c' y' hm
        · intro y' hm
          rcases List.mem_cons.mp hm with rfl | hm
          · exact ⟨c, List.mem_cons_self, hc⟩
          · obtain ⟨c', a, b⟩ := h6 y' hm; exact ⟨c', List.mem_cons_of_mem _ a, b⟩
        · intro y' hm; obtain ⟨c', a, b⟩ := h7 y' hm; exact ⟨c', List.mem_cons_of_mem _ a, b⟩
        · intro M hM
          have a := h8 M fun c' y' hm => hM c' y' (List.mem_cons_of_mem _ hm)
          have b := hM c y List.mem_cons_self
          rw [hc] at b; simp only [if_true] at b
          have := slack_set hy hlt b
          simp only [List.length_cons]; omega
      · refine keep ⟨dist[y], hd, by rw [hc]; simp; omega⟩ ⟨_, rfl, ?_⟩
        simp only [backScan, hd, hc, if_true, if_neg hlt]
    | false =>
      by_cases hlt : dist[y] ≤ (len : Int)
      · obtain ⟨dist', n0, n1, h1, h2, h3, h4, h5, h6, h7, h8⟩ := ih (dist.set y (len + 1)) t0 (t1 ++ [y]) (by simpa using hb')
        have hy' : (dist.set y ((len : Int) + 1))[y]? = some ((len : Int) + 1) := by simp [hy]
        refine ⟨dist', n0, y :: n1, ?_, by simpa using h2, ?_, ?_, ?_, ?_, ?_, ?_⟩
        · simp only [backScan, hd, hc, Bool.false_eq_true, if_false, if_pos hlt]; rw [h1]; simp
        · intro z d hz
          by_cases hzy : y = z
          · subst hzy
            rw [hd] at hz; cases hz
            obtain ⟨d', e1, e2⟩ := h3 y _ hy'
            exact ⟨d', e1, by omega⟩
          · exact h3 z d (by rw [List.getElem?_set_ne hzy]; exact hz)
        · intro z d' hz
          rcases h4 z d' hz with h | ⟨h, hm⟩ | ⟨h, hm⟩
          · by_cases hzy : y = z
            · subst hzy; rw [hy'] at h; cases h
              exact Or.inr (Or.inr ⟨rfl, List.mem_cons_self⟩)
            · rw [List.getElem?_set_ne hzy] at h; exact Or.inl h
          · exact Or.inr (Or.inl ⟨h, hm⟩)
          · exact Or.inr (Or.inr ⟨h, List.mem_cons_of_mem _ hm⟩)
        · intro c' y' hm
          rcases List.mem_cons.mp hm with heq | hm
          · cases heq
            obtain ⟨d', e1, e2⟩ := h3 y _ hy'
            exact ⟨d', e1, by rw [hc]; simpa using e2⟩
          · exact h5 c' y' hm
        · intro y' hm; obtain ⟨c', a, b⟩ := h6 y' hm; exact ⟨c', List.mem_cons_of_mem _ a, b⟩
        · intro y' hm
          rcases List.mem_cons.mp hm with rfl | hm
          · exact ⟨c, List.mem_cons_self, hc⟩
          · obtain ⟨c', a, b⟩ := h7 y' hm; exact ⟨c', List.mem_cons_of_mem _ a, b⟩
        · intro M hM
          have a := h8 M fun c' y' hm => hM c' y' (List.mem_cons_of_mem _ hm)
          have b := hM c y List.mem_cons_self
          rw [hc] at b; simp only [Bool.false_eq_true, if_false] at b
          have := slack_set hy (by omega : dist[y] < (len : Int) + 1) b
          simp only [List.length_cons]; omega
      · refine keep ⟨dist[y], hd, by rw [hc]; simp; omega⟩ ⟨_, rfl, ?_⟩
        simp only [backScan, hd, hc, Bool.false_eq_true, if_false, if_neg hlt]

/-- Invariant of the loop. -/
structure MaxInv (N : Nat) (rs : Rules C) (T : Nat → Prop) (len : Nat) (dist : List Int) (t0 t1 : List Nat) : Prop where
  size : dist.length = N
  q0 : ∀ x ∈ t0, To rs T len x
  q1 : ∀ x ∈ t1, To rs T (len + 1) x
  sound : ∀ (x : Nat) (d : Int), dist[x]? = some d → d = -1 ∨ ∃ k : Nat, d = k ∧ To rs T k x
  target : ∀ x, T x → ∃ d : Int, dist[x]? = some d ∧ 0 ≤ d
  work : ∀ (x : Nat) (d : Int), dist[x]? = some d → 0 ≤ d →
    (∀ c y, HasEdge rs y c x → Reach dist c y d) ∨ (x ∈ t0 ∧ d = len) ∨ (x ∈ t1 ∧ d = len + 1)

/-- What the result means. -/
structure MaxRes (N : Nat) (rs : Rules C) (T : Nat → Prop) (dist : List Int) : Prop where
  size : dist.length = N
  sound : ∀ (x : Nat) (d : Int), dist[x]? = some d → d = -1 ∨ ∃ k : Nat, d = k ∧ To rs T k x
  complete : ∀ k x, To rs T k x → ∃ d : Int, dist[x]? = some d ∧ k ≤ d

theorem maxInv_end {N : Nat} {rs : Rules C} {T : Nat → Prop} {len : Nat} {dist : List Int} (h : MaxInv N rs T len dist [] []) :
    MaxRes N rs T dist := by
  refine ⟨h.size, h.sound, fun k x hk => ?_⟩
  induction hk with
  | stop hx => simpa using h.target _ hx
  | @eps k x c y e he _ ih =>
    obtain ⟨d, h1, h2⟩ := ih
    rcases h.work y d h1 (by omega) with hw | hw | hw
    · obtain ⟨d', e1, e2⟩ := hw c x e
      rw [he] at e2; simp only [if_true] at e2
      exact ⟨d', e1, by omega⟩
    · simp at hw
    · simp at hw
  | @chr k x c y e he _ ih =>
    obtain ⟨d, h1, h2⟩ := ih
    rcases h.work y d h1 (by omega) with hw | hw | hw
    · obtain ⟨d', e1, e2⟩ := hw c x e
      rw [he] at e2; simp only [Bool.false_eq_true, if_false] at e2
      exact ⟨d', e1, by omega⟩
    · simp at hw
    · simp at hw

theorem maxInv_step {N : Nat} {rs : Rules C} {T : Nat → Prop} {len x : Nat} {dist : List Int} {t0 t1 : List Nat} (hsz : N ≤ rs.length)
    (hsrc : ∀ i c j, HasEdge rs i c j → i < N) (h : MaxInv N rs T len dist (x :: t0) t1) :
    ∃ dist' t0' t1', backScan len (backRules N rs x) dist t0 t1 = some (dist', t0', t1') ∧ MaxInv N rs T len dist' t0' t1' ∧
      ∀ M : Int, (∀ k z, To rs T k z → (k : Int) ≤ M) → slack M dist' + t0'.length + t1'.length ≤ slack M dist + t0.length + t1.length := by
  have hl := h.size
  have hx := h.q0 x List.mem_cons_self
  have hB := mem_backRules hsz (rs := rs) x
  obtain ⟨dist', n0, n1, h1, h2, h3, h4, h5, h6, h7, h8⟩ := backScan_spec len (backRules N rs x) dist t0 t1 (fun c y hm => by
    rw [hl]; exact ((hB c y).mp hm).1)
  refine ⟨dist', t0 ++ n0, t1 ++ n1, h1, ?_, ?_⟩
  · have q0 : ∀ y ∈ n0, To rs T len y := fun y hy => by
      obtain ⟨c, a, b⟩ := h6 y hy
      exact .eps ((hB c y).mp a).2 b hx
    have q1 : ∀ y ∈ n1, To rs T (len + 1) y := fun y hy => by
      obtain ⟨c, a, b⟩ := h7 y hy
      exact .chr ((hB c y).mp a).2 b hx
    refine ⟨by omega, ?_, ?_, ?_, ?_, ?_⟩
    · intro y hy
      rcases List.mem_append.mp hy with hy | hy
      · exact h.q0 y (List.mem_cons_of_mem _ hy)
      · exact q0 y hy
    · intro y hy
      rcases List.mem_append.mp hy with hy | hy
      · exact h.q1 y hy
      · exact q1 y hy
    · intro y d hy
      rcases h4 y d hy with hy' | ⟨rfl, hm⟩ | ⟨rfl, hm⟩
      · exact h.sound y d hy'
      · exact Or.inr ⟨len, rfl, q0 y hm⟩
      · exact Or.inr ⟨len + 1, by simp, q1 y hm⟩
    · intro y hy
      obtain ⟨d, a, b⟩ := h.target y hy
      obtain ⟨d', a', b'⟩ := h3 y d a
      exact ⟨d', a', by omega⟩
    · intro y d hy hd
      rcases h4 y d hy with hy' | ⟨rfl, hm⟩ | ⟨rfl, hm⟩
      · rcases h.work y d hy' hd with hw | ⟨hw, rfl⟩ | ⟨hw, rfl⟩
        · left
          intro c z e
          obtain ⟨d1, a, b⟩ := hw c z e
          obtain ⟨d2, a', b'⟩ := h3 z d1 a
          exact ⟨d2, a', by omega⟩
        · rcases List.mem_cons.mp hw with rfl | hw
          · left
            intro c z e
            exact h5 c z ((hB c z).mpr ⟨hsrc _ _ _ e, e⟩)
          · exact Or.inr (Or.inl ⟨List.mem_append_left _ hw, rfl⟩)
        · exact Or.inr (Or.inr ⟨List.mem_append_left _ hw, rfl⟩)
      · exact Or.inr (Or.inl ⟨List.mem_append_right _ hm, rfl⟩)
      · exact Or.inr (Or.inr ⟨List.mem_append_right _ hm, rfl⟩)
  · intro M hM
    have := h8 M (fun c y hm => by
      have e := ((hB c y).mp hm).2
      cases hc : CharSetLike.isEps c with
      | true => exact hM len y (.eps e hc hx)
      | false => have := hM (len + 1) y (.chr e hc hx); simp; omega)
    simp only [List.length_append]; omega

theorem maxInv_swap {N : Nat} {rs : Rules C} {T : Nat → Prop} {len : Nat} {dist : List Int} {t1 : List Nat} (h : MaxInv N rs T len dist [] t1) :
    MaxInv N rs T (len + 1) dist t1 [] := by
  refine ⟨h.size, h.q1, by simp, h.sound, h.target, fun x d hx hd => ?_⟩
  rcases h.work x d hx hd with hw | hw | ⟨hw, rfl⟩
  · exact Or.inl hw
  · simp at hw
  · exact Or.inr (Or.inl ⟨hw, by simp⟩)

theorem maxLenLoop_sound {N : Nat} {rs : Rules C} {T : Nat → Prop} (hsz : N ≤ rs.length) (hsrc : ∀ i c j, HasEdge rs i c j → i < N) (fuel : Nat) :
    ∀ (len : Nat) (dist : List Int) (t0 t1 : List Nat) (res : List Int), MaxInv N rs T len dist t0 t1 → (t0 = [] → t1 = []) →
      maxLenLoop N rs fuel len dist t0 t1 = some res → MaxRes N rs T res := by
  induction fuel with
  | zero =>
    intro len dist t0 t1 res h h0 hr
    cases t0 with
    | nil => simp [maxLenLoop] at hr; subst hr; have := h0 rfl; subst this; exact maxInv_end h
    | cons x t0 => simp [maxLenLoop] at hr
  | succ fuel ih =>
    intro len dist t0 t1 res h h0 hr
    cases t0 with
    | nil => simp [maxLenLoop] at hr; subst hr; have := h0 rfl; subst this; exact maxInv_end h
    | cons x t0 =>
      obtain ⟨dist', t0', t1', h1, h2, _⟩ := maxInv_step hsz hsrc h
      simp only [maxLenLoop, h1] at hr
      cases t0' with
      | nil => exact ih _ _ _ _ _ (maxInv_swap h2) (by simp) hr
      | cons y t0' => exact ih _ _ _ _ _ h2 (by simp) hr

theorem maxLenLoop_total {N : Nat} {rs : Rules C} {T : Nat → Prop} {M : Int} (hsz : N ≤ rs.length) (hsrc : ∀ i c j, HasEdge rs i c j → i < N)
    (hM : ∀ k z, To rs T k z → (k : Int) ≤ M) (fuel : Nat) :
    ∀ (len : Nat) (dist : List Int) (t0 t1 : List Nat), MaxInv N rs T len dist t0 t1 → slack M dist + t0.length + t1.length ≤ fuel →
      ∃ res, maxLenLoop N rs fuel len dist t0 t1 = some res := by
  induction fuel with
  | zero =>
    intro len dist t0 t1 h hf
    cases t0 with
    | nil => exact ⟨dist, by simp [maxLenLoop]⟩
    | cons x t0 => simp at hf
  | succ fuel ih =>
    intro len dist t0 t1 h hf
    cases t0 with
    | nil => exact ⟨dist, by simp [maxLenLoop]⟩
    | cons x t0 =>
      obtain ⟨dist', t0', t1', h1, h2, h3⟩ := maxInv_step hsz hsrc h
      have := h3 M hM
      simp only [List.length_cons] at hf
      simp only [maxLenLoop, h1]
      cases t0' with
      | nil => exact ih _ _ _ _ (maxInv_swap h2) (by simp only [List.length_nil] at this ⊢; omega)
      | cons y t0' => exact ih _ _ _ _ h2 (by omega)

/-- The states pushed first. -/
def initAcc (n : NFA C) : List Nat := (List.range (n.nstates - n.accept)).map (n.accept + ·)
def initDist (n : NFA C) : List Int := (List.range n.nstates).map fun i => if n.accept ≤ i then 0 else -1

/-- Accepting states. -/
def Acpt (n : NFA C) (k : Nat) : Prop := n.accept ≤ k ∧ k < n.nstates

theorem maxInv_init (n : NFA C) : MaxInv n.nstates n.rules (Acpt n) 0 (initDist n) (initAcc n) [] := by
  have hd : ∀ (x : Nat) (d : Int), (initDist n)[x]? = some d ↔ x < n.nstates ∧ d = if n.accept ≤ x then 0 else -1 := by
    intro x d
    simp only [initDist, List.getElem?_map]
    by_cases hx : x < n.nstates
    · rw [List.getElem?_range hx]; simp [hx, eq_comm]
    · rw [List.getElem?_eq_none (by simpa using hx)]; simp [hx]
  have ha : ∀ x, x ∈ initAcc n ↔ Acpt n x := by
    intro x
    simp only [initAcc, List.mem_map, List.mem_range, Acpt]
    constructor
    · rintro ⟨k, hk, rfl⟩; omega
    · intro h; exact ⟨x - n.accept, by omega, by omega⟩
  refine ⟨by simp [initDist], fun x hx => .stop ((ha x).mp hx), by simp, fun x d h => ?_, fun x hx => ?_, fun x d h hd0 => ?_⟩
  · rw [hd] at h
    obtain ⟨h1, h2⟩ := h
    by_cases hax : n.accept ≤ x
    · rw [if_pos hax] at h2; exact Or.inr ⟨0, by simp [h2], .stop ⟨hax, h1⟩⟩
    · rw [if_neg hax] at h2; exact Or.inl h2
  · exact ⟨0, (hd x 0).mpr ⟨hx.2, by rw [if_pos hx.1]⟩, Int.le_refl _⟩
  · rw [hd] at h
    obtain ⟨h1, h2⟩ := h
    by_cases hax : n.accept ≤ x
    · rw [if_pos hax] at h2; exact Or.inr (Or.inl ⟨(ha x).mpr ⟨hax, h1⟩, by simp [h2]⟩)
    · rw [if_neg hax] at h2; omega

/-- Steps with their number of characters. -/
inductive Walk (rs : Rules C) : Nat → Nat → Nat → Prop
  | refl {i} : Walk rs 0 i i
  | eps {k i c j l} : HasEdge rs i c j → CharSetLike.isEps c = true → Walk rs k j l → Walk rs k i l
  | chr {k i c j l} : HasEdge rs i c j → CharSetLike.isEps c = false → Walk rs k j l → Walk rs (k + 1) i l

theorem walk_of_path {rs : Rules C} {i j : Nat} (h : Path (fun _ => true) rs i j) : ∃ k, Walk rs k i j := by
  induction h with
  | refl => exact ⟨0, .refl⟩
  | @step i c j l e _ _ ih =>
    obtain ⟨k, hk⟩ := ih
    cases hc : CharSetLike.isEps c with
    | true => exact ⟨k, .eps e hc hk⟩
    | false => exact ⟨k + 1, .chr e hc hk⟩

theorem walk_from {rs : Rules C} {k i j : Nat} (h : Walk rs k i j) : ∀ m, From rs m i → From rs (m + k) j := by
  induction h with
  | refl => intro m hm; exact hm
  | eps e he _ ih => intro m hm; exact ih m (.eps hm e he)
  | @chr k i c j l e he _ ih =>
    intro m hm
    have := ih (m + 1) (.chr hm e he)
    rw [Nat.add_comm k 1, ← Nat.add_assoc]; exact this

theorem walk_rank {rs : Rules C} {rk : Nat → Nat} (hr : ∀ i c j, HasEdge rs i c j → CharSetLike.isEps c = true → rk j < rk i)
    {k i j : Nat} (h : Walk rs k i j) : k = 0 → rk j ≤ rk i := by
  induction h with
  | refl => intro _; exact Nat.le_refl _
  | eps e he _ ih => intro hk; have := ih hk; have := hr _ _ _ e he; omega
  | chr _ _ _ _ => intro hk; omega

/-- Going round a cycle. -/
theorem cyclic_long {n : NFA C} (hr : Ranked n.rules) (ht : Trim n) (hn : n.Wf) (hc : Cyclic n.rules 0) (K : Nat) :
    ∃ m, K ≤ m ∧ From n.rules m n.accept := by
  obtain ⟨u, c, v, h1, h2, h3⟩ := hc
  obtain ⟨rk, hrk⟩ := hr
  obtain ⟨k, hk⟩ := walk_of_path h3
  obtain ⟨m, hm⟩ := path_from h1 0 .start
  have hcyc : ∃ q, 0 < q ∧ Walk n.rules q u u := by
    cases hc : CharSetLike.isEps c with
    | true =>
      refine ⟨k, ?_, .eps h2 hc hk⟩
      refine Classical.byContradiction fun h0 => ?_
      have := walk_rank hrk hk (by omega)
      have := hrk _ _ _ h2 hc
      omega
    | false => exact ⟨k + 1, by omega, .chr h2 hc hk⟩
  obtain ⟨q, hq, hw⟩ := hcyc
  have rounds : ∀ r, From n.rules (m + r * q) u := by
    intro r
    induction r with
    | zero => simpa using hm
    | succ r ih =>
      have := walk_from hw _ ih
      rwa [Nat.succ_mul, ← Nat.add_assoc]
  obtain ⟨e, he⟩ := walk_of_path (ht.cyc u c v h2 h3).2
  refine ⟨m + K * q + e, ?_, walk_from he _ (rounds K)⟩
  have : K * 1 ≤ K * q := Nat.mul_le_mul_left K hq
  omega

end Verif.Auto
