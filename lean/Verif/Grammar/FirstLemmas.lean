import Verif.Grammar.Spec

/-!
# Lemmas on the FIRST computation
-/

namespace Verif.Grammar

/-! ### Growth of the sets -/

/-- Nothing changed, or something was added and noted. -/
def Comp.Le (c d : Comp) : Prop := d = c ∨ (d.changed = true ∧ ∀ p ∈ c.sets, p ∈ d.sets)

theorem Comp.Le.refl (c : Comp) : c.Le c := Or.inl rfl

theorem Comp.Le.trans {a b c : Comp} (h : a.Le b) (g : b.Le c) : a.Le c := by
  rcases h with rfl | ⟨h1, h2⟩
  · exact g
  · rcases g with rfl | ⟨g1, g2⟩
    · exact Or.inr ⟨h1, h2⟩
    · exact Or.inr ⟨g1, fun p hp => g2 p (h2 p hp)⟩

theorem Comp.Le.sub {c d : Comp} (h : c.Le d) : ∀ p ∈ c.sets, p ∈ d.sets := by
  rcases h with rfl | ⟨_, h⟩
  · exact fun p hp => hp
  · exact h

theorem Comp.Le.eq {c d : Comp} (h : c.Le d) (hd : d.changed = false) : d = c := by
  rcases h with h | ⟨h, _⟩
  · exact h
  · rw [hd] at h; cases h

/-- If the end is unchanged, so is everything on the way. -/
theorem Comp.Le.mid {a b c : Comp} (h : a.Le b) (g : b.Le c) (e : c = a) (ha : a.changed = false) : b = a := by
  subst e
  have := g.eq ha
  exact this.symm

theorem Comp.insert_le (c : Comp) (n x : Nat) : c.Le (c.insert n x) := by
  unfold Comp.insert
  split
  · exact Or.inl rfl
  · exact Or.inr ⟨rfl, fun p hp => by simp [hp]⟩

theorem foldl_insert_le (n : Nat) (xs : List Nat) (c : Comp) : c.Le (xs.foldl (fun c x => c.insert n x) c) := by
  induction xs generalizing c with
  | nil => exact .refl c
  | cons x xs ih => exact (c.insert_le n x).trans (ih _)

theorem mem_insert {c : Comp} {n x : Nat} {p : Nat × Nat} : p ∈ (c.insert n x).sets ↔ p ∈ c.sets ∨ p = (n, x) := by
  unfold Comp.insert
  split
  · next h =>
    constructor
    · exact Or.inl
    · rintro (h' | rfl)
      · exact h'
      · exact h
  · simp [or_comm]

theorem mem_foldl_insert (n : Nat) (xs : List Nat) (c : Comp) (p : Nat × Nat) :
    p ∈ (xs.foldl (fun c x => c.insert n x) c).sets ↔ p ∈ c.sets ∨ (p.1 = n ∧ p.2 ∈ xs) := by
  induction xs generalizing c with
  | nil => simp
  | cons x xs ih =>
    rw [List.foldl_cons, ih, mem_insert]
    constructor
    · rintro ((h | rfl) | ⟨h1, h2⟩)
      · exact Or.inl h
      · exact Or.inr ⟨rfl, by simp⟩
      · exact Or.inr ⟨h1, by simp [h2]⟩
    · rintro (h | ⟨h1, h2⟩)
      · exact Or.inl (Or.inl h)
      · rcases List.mem_cons.1 h2 with h2 | h2
        · exact Or.inl (Or.inr (by rw [← h1, ← h2]))
        · exact Or.inr ⟨h1, h2⟩

theorem mem_of {F : Sets} {n x : Nat} : x ∈ F.of n ↔ (n, x) ∈ F := by
  simp only [Sets.of, List.mem_map, List.mem_filter]
  constructor
  · rintro ⟨⟨a, b⟩, ⟨h1, h2⟩, rfl⟩
    simp at h2; subst h2; exact h1
  · intro h
    exact ⟨(n, x), ⟨h, by simp⟩, rfl⟩

theorem mergeFirst_le (W : World) (b : Bool) (d s : Nat) (c : Comp) : c.Le (mergeFirst W b d s c) := foldl_insert_le _ _ _

theorem mem_mergeFirst {W : World} {b : Bool} {d s : Nat} {c : Comp} {p : Nat × Nat} :
    p ∈ (mergeFirst W b d s c).sets ↔ p ∈ c.sets ∨ (p.1 = d ∧ (s, p.2) ∈ c.sets ∧ passes W b p.2 = true) := by
  rw [mergeFirst, mem_foldl_insert, List.mem_filter, mem_of]

theorem merge_closed {W : World} {b : Bool} {d s : Nat} {c : Comp} (h : mergeFirst W b d s c = c) {x : Nat}
    (hx : (s, x) ∈ c.sets) (hp : passes W b x = true) : (d, x) ∈ c.sets := by
  rw [← h, mem_mergeFirst]
  exact Or.inr ⟨rfl, hx, hp⟩

theorem firstOfSymbol_le (W : World) (b : Bool) (n s : Nat) (c : Comp) : c.Le (firstOfSymbol W b n s c) := by
  unfold firstOfSymbol
  cases W.searchRule s with
  | none => exact mergeFirst_le _ _ _ _ _
  | some r => exact (mergeFirst_le _ _ _ _ _).trans (mergeFirst_le _ _ _ _ _)

theorem enter_le {go : List Nat → Nat → Comp → Option Comp} (hgo : ∀ V n c c', go V n c = some c' → c.Le c') {V : List Nat} {n : Nat} {c c' : Comp}
    (h : enter go V n c = some c') : c.Le c' := by
  unfold enter at h
  split at h
  · cases h; exact .refl _
  · exact hgo _ _ _ _ h

theorem firstGo_le (W : World) (f : Nat) : ∀ b V n c c', firstGo W f b V n c = some c' → c.Le c' := by
  induction f with
  | zero => intro b V n c c' h; simp [firstGo] at h
  | succ f ih =>
    intro b V n c c' h
    have hE : ∀ b V n c c', enter (firstGo W f b) V n c = some c' → c.Le c' := fun b V n c c' => enter_le (ih b)
    have hM := fun b d s c => mergeFirst_le W b d s c
    unfold firstGo at h
    split at h
    · cases h
    · cases h; exact .refl _
    · cases h; exact .refl _
    · cases h; exact .refl _
    · cases h; exact firstOfSymbol_le _ _ _ _ _
    · cases h; exact .refl _
    · cases h; exact firstOfSymbol_le _ _ _ _ _
    · split at h
      · cases h
      · obtain ⟨d, hd, rfl⟩ := Option.map_eq_some_iff.1 h
        exact (ih _ _ _ _ _ hd).trans (hM _ _ _ _)
    · split at h
      · cases h
      · obtain ⟨d, hd, rfl⟩ := Option.map_eq_some_iff.1 h
        exact (ih _ _ _ _ _ hd).trans (hM _ _ _ _)
    · split at h
      · cases h
      · obtain ⟨d, hd, rfl⟩ := Option.map_eq_some_iff.1 h
        exact (ih _ _ _ _ _ hd).trans (hM _ _ _ _)
    · obtain ⟨d, hd, rfl⟩ := Option.map_eq_some_iff.1 h
      exact (hE _ _ _ _ _ hd).trans (hM _ _ _ _)
    · obtain ⟨d, hd, rfl⟩ := Option.map_eq_some_iff.1 h
      exact (hE _ _ _ _ _ hd).trans (hM _ _ _ _)
    · cases h; exact .refl _
    · obtain ⟨d, hd, rfl⟩ := Option.map_eq_some_iff.1 h
      exact (ih _ _ _ _ _ hd).trans (hM _ _ _ _)
    · obtain ⟨d, hd, rfl⟩ := Option.map_eq_some_iff.1 h
      exact (ih _ _ _ _ _ hd).trans (hM _ _ _ _)
    · obtain ⟨d, hd, h⟩ := Option.bind_eq_some_iff.1 h
      obtain ⟨e, he, rfl⟩ := Option.map_eq_some_iff.1 h
      exact ((hE _ _ _ _ _ hd).trans (hE _ _ _ _ _ he)).trans ((hM _ _ _ _).trans (hM _ _ _ _))
    · obtain ⟨d, hd, h⟩ := Option.bind_eq_some_iff.1 h
      obtain ⟨e, he, rfl⟩ := Option.map_eq_some_iff.1 h
      exact ((hE _ _ _ _ _ hd).trans (hE _ _ _ _ _ he)).trans ((hM _ _ _ _).trans (hM _ _ _ _))
    · obtain ⟨d, hd, h⟩ := Option.bind_eq_some_iff.1 h
      obtain ⟨er, _, h⟩ := Option.bind_eq_some_iff.1 h
      obtain ⟨e, he, h⟩ := Option.bind_eq_some_iff.1 h
      obtain ⟨el, _, h⟩ := Option.bind_eq_some_iff.1 h
      have h1 := (hE _ _ _ _ _ hd).trans (hE _ _ _ _ _ he)
      split at h
      · obtain ⟨g, hg, rfl⟩ := Option.map_eq_some_iff.1 h
        exact ((h1.trans (hM _ _ _ _)).trans (hE _ _ _ _ _ hg)).trans (hM _ _ _ _)
      · cases h; exact h1.trans (hM _ _ _ _)
    · obtain ⟨d, hd, rfl⟩ := Option.map_eq_some_iff.1 h
      exact (hE _ _ _ _ _ hd).trans ((hM _ _ _ _).trans (hM _ _ _ _))

theorem firstPass_le (W : World) (f : Nat) (rs : List Nat) : ∀ c c', firstPass W f rs c = some c' → c.Le c' := by
  induction rs with
  | nil => intro c c' h; cases h; exact .refl _
  | cons r rs ih =>
    intro c c' h
    obtain ⟨d, hd, h⟩ := Option.bind_eq_some_iff.1 h
    exact (enter_le (firstGo_le W f false) hd).trans (ih _ _ h)

/-! ### The last round: nothing changes -/

/-- A call that changes nothing. -/
def Ev (W : World) (F : Sets) (b : Bool) (V : List Nat) (n : Nat) : Prop := ∃ f, firstGo W f b V n ⟨F, false⟩ = some ⟨F, false⟩

/-- `m` is visited from `n` through the test of `mVisited`, with blocking `b'` if `n` was visited with `b`. -/
inductive Calls (W : World) (F : Sets) (n : Nat) : Bool → Bool → Nat → Prop
  | annot {b i} : W.node n = some (.annot i) → Calls W F n b b i
  | cond {b i} : W.node n = some (.cond i) → Calls W F n b b i
  | evolve {b i s} : W.node n = some (.evolve i s) → Calls W F n b b i
  | altL {b l r} : W.node n = some (.alt l r) → Calls W F n b b l
  | altR {b l r} : W.node n = some (.alt l r) → Calls W F n b b r
  | tryL {b l r} : W.node n = some (.tryc l (some r)) → Calls W F n b b l
  | tryR {b l r} : W.node n = some (.tryc l (some r)) → Calls W F n b b r
  | consR {b l r} : W.node n = some (.cons l r) → Calls W F n b b r
  | consL {b l r er} : W.node n = some (.cons l r) → reduces W F r = some er → Calls W F n b (b || !er) l

/-- `m` is visited from `n` without that test. -/
inductive Direct (W : World) (n : Nat) : Nat → Prop
  | plus {i k} : W.node n = some (.plus i) → W.bnf n = some k → Direct W n k
  | star {i k} : W.node n = some (.star i) → W.bnf n = some k → Direct W n k
  | op {o k} : W.node n = some (.op o) → W.bnf n = some k → Direct W n k
  | action {i} : W.node n = some (.action (some i)) → Direct W n i
  | tryc {t} : W.node n = some (.tryc t none) → Direct W n t

/-- `FIRST(s)`, but for what is blocked, is contained in `FIRST(d)`. -/
def Incl (W : World) (F : Sets) (b : Bool) (s d : Nat) : Prop := ∀ x, (s, x) ∈ F → passes W b x = true → (d, x) ∈ F

theorem incl_of_merge {W : World} {F : Sets} {b : Bool} {s d : Nat} (h : mergeFirst W b d s ⟨F, false⟩ = ⟨F, false⟩) : Incl W F b s d :=
  fun _ hx hp => merge_closed h hx hp

theorem eq_of_le {F : Sets} {c : Comp} (h : c.Le ⟨F, false⟩) : c = ⟨F, false⟩ := (h.eq rfl).symm

theorem enter_ev {W : World} {F : Sets} {f : Nat} {b : Bool} {V : List Nat} {m : Nat}
    (h : enter (firstGo W f b) V m ⟨F, false⟩ = some ⟨F, false⟩) (hm : m ∉ V) : Ev W F b (m :: V) m := by
  rw [enter, if_neg hm] at h; exact ⟨f, h⟩

section
variable {W : World} {F : Sets} {b : Bool} {V : List Nat} {n : Nat}

theorem ev_unfold (h : Ev W F b V n) : ∃ f, firstGo W (f + 1) b V n ⟨F, false⟩ = some ⟨F, false⟩ := by
  obtain ⟨f, h⟩ := h
  cases f with
  | zero => simp [firstGo] at h
  | succ f => exact ⟨f, h⟩

theorem firstOfSymbol_incl {s : Nat} (h : firstOfSymbol W b n s ⟨F, false⟩ = ⟨F, false⟩) : Incl W F b s n := by
  refine incl_of_merge (eq_of_le ?_)
  unfold firstOfSymbol at h
  cases e : W.searchRule s with
  | none => rw [e] at h; simp only at h; rw [h]; exact .refl _
  | some r => rw [e] at h; simp only at h; rw (occs := .pos [2]) [← h]; exact mergeFirst_le _ _ _ _ _

theorem ev_nonterm (h : Ev W F b V n) {s : Nat} (hn : W.node n = some (.nonterm s)) : Incl W F b s n := by
  obtain ⟨f, h⟩ := ev_unfold h
  rw [firstGo, hn] at h
  exact firstOfSymbol_incl (Option.some.inj h)

theorem ev_inlined (h : Ev W F b V n) {s : Nat} (hn : W.node n = some (.inlined (some s))) : Incl W F b s n := by
  obtain ⟨f, h⟩ := ev_unfold h
  rw [firstGo, hn] at h
  exact firstOfSymbol_incl (Option.some.inj h)

/-- `(go c).map merge`, with nothing changed. -/
theorem map_merge {s d : Nat} {o : Option Comp} (ho : ∀ c, o = some c → Comp.Le ⟨F, false⟩ c)
    (h : o.map (mergeFirst W b d s) = some ⟨F, false⟩) : o = some ⟨F, false⟩ ∧ Incl W F b s d := by
  obtain ⟨c, hc, h⟩ := Option.map_eq_some_iff.1 h
  have : c = ⟨F, false⟩ := eq_of_le (by rw [← h]; exact mergeFirst_le _ _ _ _ _)
  subst this
  exact ⟨hc, incl_of_merge h⟩

theorem ev_direct (h : Ev W F b V n) {m : Nat} (hm : Direct W n m) : Ev W F b V m ∧ Incl W F b m n := by
  obtain ⟨f, h⟩ := ev_unfold h
  rw [firstGo] at h
  cases hm with
  | plus h1 h2 =>
    rw [h1] at h; simp only [h2] at h
    have := map_merge (fun c hc => firstGo_le _ _ _ _ _ _ _ hc) h
    exact ⟨⟨f, this.1⟩, this.2⟩
  | star h1 h2 =>
    rw [h1] at h; simp only [h2] at h
    have := map_merge (fun c hc => firstGo_le _ _ _ _ _ _ _ hc) h
    exact ⟨⟨f, this.1⟩, this.2⟩
  | op h1 h2 =>
    rw [h1] at h; simp only [h2] at h
    have := map_merge (fun c hc => firstGo_le _ _ _ _ _ _ _ hc) h
    exact ⟨⟨f, this.1⟩, this.2⟩
  | action h1 =>
    rw [h1] at h; simp only at h
    have := map_merge (fun c hc => firstGo_le _ _ _ _ _ _ _ hc) h
    exact ⟨⟨f, this.1⟩, this.2⟩
  | tryc h1 =>
    rw [h1] at h; simp only at h
    have := map_merge (fun c hc => firstGo_le _ _ _ _ _ _ _ hc) h
    exact ⟨⟨f, this.1⟩, this.2⟩

theorem ev_annot (h : Ev W F b V n) {i : Nat} (hn : W.node n = some (.annot i) ∨ W.node n = some (.cond i)) :
    (i ∉ V → Ev W F b (i :: V) i) ∧ Incl W F b i n := by
  obtain ⟨f, h⟩ := ev_unfold h
  rw [firstGo] at h
  rcases hn with hn | hn <;>
  · rw [hn] at h; simp only at h
    have := map_merge (fun c hc => enter_le (firstGo_le W f b) hc) h
    exact ⟨enter_ev this.1, this.2⟩

theorem ev_two (h : Ev W F b V n) {l r : Nat} (hn : W.node n = some (.alt l r) ∨ W.node n = some (.tryc l (some r))) :
    (l ∉ V → Ev W F b (l :: V) l) ∧ (r ∉ V → Ev W F b (r :: V) r) ∧ Incl W F b l n ∧ Incl W F b r n := by
  obtain ⟨f, h⟩ := ev_unfold h
  rw [firstGo] at h
  rcases hn with hn | hn <;>
  · rw [hn] at h; simp only at h
    obtain ⟨d, hd, g1⟩ := Option.bind_eq_some_iff.1 h
    obtain ⟨e, he, g2⟩ := Option.map_eq_some_iff.1 g1
    have h3 : mergeFirst W b n l e = ⟨F, false⟩ := eq_of_le (by rw [← g2]; exact mergeFirst_le _ _ _ _ _)
    have h2 : e = ⟨F, false⟩ := eq_of_le (by rw [← h3]; exact mergeFirst_le _ _ _ _ _)
    subst h2
    have h1 : d = ⟨F, false⟩ := eq_of_le (enter_le (firstGo_le W f b) he)
    subst h1
    exact ⟨enter_ev hd, enter_ev he, incl_of_merge h3, incl_of_merge (by rw [h3] at g2; exact g2)⟩

theorem ev_evolve (h : Ev W F b V n) {i s : Nat} (hn : W.node n = some (.evolve i s)) :
    (i ∉ V → Ev W F b (i :: V) i) ∧ Incl W F b i n ∧ Incl W F b n s := by
  obtain ⟨f, h⟩ := ev_unfold h
  rw [firstGo, hn] at h; simp only at h
  obtain ⟨d, hd, g2⟩ := Option.map_eq_some_iff.1 h
  have h3 : mergeFirst W b n i d = ⟨F, false⟩ := eq_of_le (by rw [← g2]; exact mergeFirst_le _ _ _ _ _)
  have h2 : d = ⟨F, false⟩ := eq_of_le (by rw [← h3]; exact mergeFirst_le _ _ _ _ _)
  subst h2
  exact ⟨enter_ev hd, incl_of_merge h3, incl_of_merge (by rw [h3] at g2; exact g2)⟩

theorem ev_cons (h : Ev W F b V n) {l r : Nat} (hn : W.node n = some (.cons l r)) :
    ∃ er el, reduces W F r = some er ∧ reduces W F l = some el ∧ (r ∉ V → Ev W F b (r :: V) r) ∧
      (l ∉ V → Ev W F (b || !er) (l :: V) l) ∧ Incl W F (b || !er) l n ∧ (el = true → Incl W F (b || !er) r n) := by
  obtain ⟨f, h⟩ := ev_unfold h
  rw [firstGo, hn] at h; simp only at h
  obtain ⟨d, hd, g1⟩ := Option.bind_eq_some_iff.1 h
  obtain ⟨er, her, g2⟩ := Option.bind_eq_some_iff.1 g1
  obtain ⟨e, he, g3⟩ := Option.bind_eq_some_iff.1 g2
  obtain ⟨el, hel, g4⟩ := Option.bind_eq_some_iff.1 g3
  clear h g1 g2 g3
  have h3 : mergeFirst W (b || !er) n l e = ⟨F, false⟩ := by
    split at g4
    · obtain ⟨g, hg, g5⟩ := Option.map_eq_some_iff.1 g4
      exact eq_of_le (((enter_le (firstGo_le W f _) hg)).trans (by rw [← g5]; exact mergeFirst_le _ _ _ _ _))
    · exact Option.some.inj g4
  have h2 : e = ⟨F, false⟩ := eq_of_le (by rw [← h3]; exact mergeFirst_le _ _ _ _ _)
  subst h2
  have h1 : d = ⟨F, false⟩ := eq_of_le (enter_le (firstGo_le W f _) he)
  subst h1
  rw [h3] at g4 hel
  refine ⟨er, el, her, hel, enter_ev hd, enter_ev he, incl_of_merge h3, fun hel' => ?_⟩
  rw [if_pos hel'] at g4
  exact (map_merge (fun c hc => enter_le (firstGo_le W f _) hc) g4).2

theorem ev_calls (h : Ev W F b V n) {m : Nat} {b' : Bool} (hc : Calls W F n b b' m) (hm : m ∉ V) : Ev W F b' (m :: V) m := by
  cases hc with
  | annot hn => exact (ev_annot h (.inl hn)).1 hm
  | cond hn => exact (ev_annot h (.inr hn)).1 hm
  | evolve hn => exact (ev_evolve h hn).1 hm
  | altL hn => exact (ev_two h (.inl hn)).1 hm
  | altR hn => exact (ev_two h (.inl hn)).2.1 hm
  | tryL hn => exact (ev_two h (.inr hn)).1 hm
  | tryR hn => exact (ev_two h (.inr hn)).2.1 hm
  | consR hn =>
    obtain ⟨er, el, h1, h2, h3, h4, h5, h6⟩ := ev_cons h hn
    exact h3 hm
  | consL hn hr =>
    obtain ⟨er, el, h1, h2, h3, h4, h5, h6⟩ := ev_cons h hn
    rw [h1] at hr; cases hr
    exact h4 hm
end

/-! ### The nodes visited in the last round -/

inductive Vis (W : World) (F : Sets) : Bool → List Nat → Nat → Prop
  | rule {r} : r ∈ W.rules → Vis W F false [r] r
  | calls {b b' V n m} : Vis W F b V n → Calls W F n b b' m → m ∉ V → Vis W F b' (m :: V) m
  | direct {b V n m} : Vis W F b V n → Direct W n m → Vis W F b V m

/-- The last round. -/
def Quiet (W : World) (F : Sets) : Prop := ∃ f, firstPass W f W.rules ⟨F, false⟩ = some ⟨F, false⟩

theorem pass_ev {W : World} {F : Sets} {f : Nat} {rs : List Nat} (h : firstPass W f rs ⟨F, false⟩ = some ⟨F, false⟩) :
    ∀ r ∈ rs, Ev W F false [r] r := by
  induction rs with
  | nil => simp
  | cons r rs ih =>
    obtain ⟨d, hd, h⟩ := Option.bind_eq_some_iff.1 h
    have : d = ⟨F, false⟩ := eq_of_le (firstPass_le W f rs _ _ h)
    subst this
    intro r' hr'
    rcases List.mem_cons.1 hr' with rfl | hr'
    · exact enter_ev hd (by simp)
    · exact ih h r' hr'

theorem Vis.ev {W : World} {F : Sets} (hq : Quiet W F) {b : Bool} {V : List Nat} {n : Nat} (h : Vis W F b V n) : Ev W F b V n := by
  induction h with
  | rule hr => obtain ⟨f, hf⟩ := hq; exact pass_ev hf _ hr
  | calls _ hc hm ih => exact ev_calls ih hc hm
  | direct _ hd ih => exact (ev_direct ih hd).1

theorem Calls.mono {W : World} {F : Sets} {n m : Nat} {b b' : Bool} (h : Calls W F n b b' m) (hb : b' = false) : b = false := by
  cases h <;> simp_all

theorem Vis.anc {W : World} {F : Sets} {b : Bool} {V : List Nat} {n : Nat} (h : Vis W F b V n) :
    ∀ m ∈ V, ∃ b' V', Vis W F b' V' m ∧ (b = false → b' = false) := by
  induction h with
  | rule hr => intro m hm; rw [List.mem_singleton] at hm; subst hm; exact ⟨_, _, .rule hr, id⟩
  | calls hv hc hm ih =>
    intro k hk
    rcases List.mem_cons.1 hk with rfl | hk
    · exact ⟨_, _, .calls hv hc hm, id⟩
    · obtain ⟨b', V', h1, h2⟩ := ih k hk
      exact ⟨b', V', h1, fun hb => h2 (hc.mono hb)⟩
  | direct hv hd ih => exact ih

/-- Visited at all (`b = true`), or visited without blocking (`b = false`). -/
def Seen (W : World) (F : Sets) (b : Bool) (n : Nat) : Prop := ∃ b' V, Vis W F b' V n ∧ (b = false → b' = false)

theorem Seen.calls {W : World} {F : Sets} {b b' : Bool} {n m : Nat} (h : Seen W F b n) (hc : ∀ b₀, Calls W F n b₀ (b₀ || b') m) :
    Seen W F (b || b') m := by
  obtain ⟨b₀, V, hv, hb⟩ := h
  by_cases hm : m ∈ V
  · obtain ⟨b₁, V', h1, h2⟩ := hv.anc m hm
    refine ⟨b₁, V', h1, fun hbb => h2 (hb ?_)⟩
    cases b <;> simp_all
  · refine ⟨_, _, .calls hv (hc b₀) hm, fun hbb => ?_⟩
    have := hb (by cases b <;> simp_all)
    cases b <;> simp_all

theorem Seen.direct {W : World} {F : Sets} {b : Bool} {n m : Nat} (h : Seen W F b n) (hd : Direct W n m) : Seen W F b m := by
  obtain ⟨b₀, V, hv, hb⟩ := h
  exact ⟨b₀, V, .direct hv hd, hb⟩

theorem Seen.weaken {W : World} {F : Sets} {b : Bool} {n : Nat} (h : Seen W F b n) : Seen W F true n := by
  obtain ⟨b₀, V, hv, _⟩ := h
  exact ⟨b₀, V, hv, by simp⟩

theorem Seen.rule {W : World} {F : Sets} {r : Nat} (h : r ∈ W.rules) : Seen W F false r := ⟨_, _, .rule h, id⟩

end Verif.Grammar
