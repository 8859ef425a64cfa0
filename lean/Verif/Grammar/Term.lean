import Verif.Grammar.FirstLemmas
import Verif.Grammar.R2e
import Mathlib.Data.List.Perm.Subperm

/-!
# Termination of the FIRST and FOLLOW computations: lemmas
-/

namespace Verif.Grammar

variable {W : World} {F : Sets}

/-- The number of nodes that are not in `v`. -/
def unvis (W : World) (v : List Nat) : Nat := ((List.range W.heap.length).filter fun n => !(v.contains n)).length

theorem unvis_mono {v v' : List Nat} (h : ∀ m ∈ v, m ∈ v') : unvis W v' ≤ unvis W v := by
  unfold unvis
  have : ∀ l : List Nat, (l.filter fun n => !(v'.contains n)).length ≤ (l.filter fun n => !(v.contains n)).length := by
    intro l
    induction l with
    | nil => simp
    | cons a l ih =>
      simp only [List.filter_cons]
      by_cases h1 : a ∈ v
      · simpa [h1, h a h1] using ih
      · by_cases h2 : a ∈ v'
        · simp [h1, h2]; simp at ih; omega
        · simpa [h1, h2] using ih
  exact this _

theorem unvis_cons {v : List Nat} {n : Nat} (hn : n < W.heap.length) (hv : n ∉ v) : unvis W (n :: v) < unvis W v := by
  unfold unvis
  have : ∀ l : List Nat, (l.filter fun m => !((n :: v).contains m)).length + (if n ∈ l then 1 else 0) ≤ (l.filter fun m => !(v.contains m)).length := by
    intro l
    induction l with
    | nil => simp
    | cons a l ih =>
      simp only [List.filter_cons, List.mem_cons]
      by_cases h1 : a = n
      · subst h1
        simp [hv]
        have : (l.filter fun m => !((a :: v).contains m)).length ≤ (l.filter fun m => !(v.contains m)).length := by omega
        simpa using this
      · have h1' : ¬ n = a := fun h => h1 h.symm
        by_cases h2 : a ∈ v
        · simp only [List.contains_eq_mem, List.mem_cons, h1, h2] at ih ⊢
          simpa [h1'] using ih
        · simp only [List.contains_eq_mem, List.mem_cons, h1, h2] at ih ⊢
          simp [h1'] at ih ⊢
          omega
  have := this (List.range W.heap.length)
  simp only [List.mem_range, hn, if_true] at this
  omega

theorem unvis_le (v : List Nat) : unvis W v ≤ W.heap.length := by
  have := List.length_filter_le (fun n => !(v.contains n)) (List.range W.heap.length)
  simpa [unvis] using this

theorem lt_heap {n : Nat} {it : Item} (h : W.node n = some it) : n < W.heap.length := by
  unfold World.node at h
  rcases Nat.lt_or_ge n W.heap.length with h' | h'
  · exact h'
  · rw [List.getElem?_eq_none h'] at h; cases h

theorem r2e_total (hw : Wf W) : ∀ (f n : Nat) (v : List Nat), (∃ it, W.node n = some it) → unvis W v < f → ∃ p, r2e W F f n v = some p := by
  intro f
  induction f with
  | zero => intro n v _ h; omega
  | succ f ih =>
    intro n v ⟨it, hit⟩ hf
    by_cases hn : n ∈ v
    · exact ⟨(true, v), by simp [r2e, hn]⟩
    have hlt := unvis_cons (lt_heap hit) hn
    have sub : ∀ {m}, Part W n m → ∃ p, r2e W F f m (n :: v) = some p := fun hp => ih _ _ (hw.valid _ _ hp) (by omega)
    have sub2 : ∀ {m l b v'}, Part W n m → r2e W F f l (n :: v) = some (b, v') → ∃ p, r2e W F f m v' = some p := by
      intro m l b v' hp h
      have := unvis_mono (W := W) (r2e_mono h)
      exact ih _ _ (hw.valid _ _ hp) (by omega)
    simp only [r2e, hn, if_false, hit]
    cases it with
    | cons l r =>
      obtain ⟨⟨b, v'⟩, e⟩ := sub (.consL hit)
      simp only [e]
      cases b with
      | true => exact sub2 (.consR hit) e
      | false => exact ⟨_, rfl⟩
    | alt l r =>
      obtain ⟨⟨b, v'⟩, e⟩ := sub (.altL hit)
      simp only [e]
      cases b with
      | false => exact sub2 (.altR hit) e
      | true => exact ⟨_, rfl⟩
    | tryc l r =>
      obtain ⟨⟨b, v'⟩, e⟩ := sub (.tryL hit)
      simp only [e]
      cases b with
      | false =>
        cases r with
        | none => exact ⟨_, rfl⟩
        | some r => exact sub2 (.tryR hit) e
      | true => exact ⟨_, rfl⟩
    | action i => cases i with
      | none => exact ⟨_, rfl⟩
      | some i => exact sub (.action hit)
    | inlined s => cases s with
      | none => exact ⟨_, rfl⟩
      | some s => exact ih _ _ ⟨_, hw.symbols _ _ (.inr (.inl hit))⟩ (by omega)
    | nonterm s => exact ih _ _ ⟨_, hw.symbols _ _ (.inl hit)⟩ (by omega)
    | cond i => exact sub (.cond hit)
    | annot i => exact sub (.annot hit)
    | plus i => exact sub (.plus hit)
    | zero => exact ⟨_, rfl⟩
    | sym => exact ⟨_, rfl⟩
    | term => exact ⟨_, rfl⟩
    | star i => exact ⟨_, rfl⟩
    | op o => exact ⟨_, rfl⟩
    | evolve i s => exact ⟨_, rfl⟩

theorem reduces_total (hw : Wf W) {n : Nat} (hn : ∃ it, W.node n = some it) : ∃ b, reduces W F n = some b := by
  obtain ⟨p, h⟩ := r2e_total (F := F) hw (W.heap.length + 1) n [] hn (by have := unvis_le (W := W) []; omega)
  exact ⟨p.1, by simp [reduces, h]⟩

/-! ### The recursion -/

/- Decreases when a node is dispatched directly, without entry into the list of visited nodes. -/
open Classical in
noncomputable def weight (W : World) (n : Nat) : Nat := if W.parsed ≤ n ∨ ∃ s, W.node n = some (.nonterm s) then 0 else n + 1

noncomputable def rank (W : World) (V : List Nat) (n : Nat) : Nat := unvis W V * (W.heap.length + 2) + weight W n

theorem weight_le {n : Nat} {it : Item} (hn : W.node n = some it) : weight W n ≤ W.heap.length := by
  unfold weight
  have := lt_heap hn
  split <;> omega

theorem rank_enter {V : List Nat} {n m : Nat} {it : Item} (hm : W.node m = some it) (hv : m ∉ V) : rank W (m :: V) m < rank W V n := by
  have h1 := unvis_cons (lt_heap hm) hv
  have h2 := weight_le hm
  unfold rank
  have : (unvis W (m :: V) + 1) * (W.heap.length + 2) ≤ unvis W V * (W.heap.length + 2) := Nat.mul_le_mul_right _ (by omega)
  rw [Nat.add_mul] at this
  omega

theorem direct_weight (hw : Wf W) {n m : Nat} (h : Direct W n m) : weight W m < weight W n ∧ ∃ it, W.node m = some it := by
  have made : ∀ {n m : Nat} {it it'}, W.node n = some it → (∀ l r, it ≠ .cons l r) → (∀ l r, it ≠ .alt l r) → (∀ s, it ≠ .nonterm s) → W.node m = some it' →
      weight W m = 0 ∨ m < n → weight W m < weight W n := by
    intro n m it it' hn h1 h2 h3 hm h
    have hp := parsed_of hw hn h1 h2
    have : weight W n = n + 1 := by
      unfold weight
      rw [if_neg]
      rintro (h | ⟨s, h⟩)
      · omega
      · rw [hn] at h; cases h; exact h3 s rfl
    rw [this]
    rcases h with h | h
    · omega
    · unfold weight; split <;> omega
  have zero : ∀ {m}, W.parsed ≤ m → weight W m = 0 := fun h => by simp [weight, h]
  have lt : ∀ {n m it}, W.node n = some it → (∀ l r, it ≠ .cons l r) → (∀ l r, it ≠ .alt l r) → (∀ o, it ≠ .op o) → Part W n m → m < n := by
    intro n m it hn h1 h2 h3 hp
    exact part_lt hw (parsed_of hw hn h1 h2) hp (fun o h => by rw [hn] at h; cases h; exact h3 o rfl)
  -- the node made for a loop is not one of the parser: its second part is a choice that refers to it
  cases h with
  | plus hn hb =>
    obtain ⟨c, a, e1, e2, e3⟩ := hw.bnf.plus _ _ hn
    rw [e1] at hb; cases hb
    refine ⟨made hn (by simp) (by simp) (by simp) e2 (.inl (zero ?_)), _, e2⟩
    rcases Nat.lt_or_ge m W.parsed with h | h
    · have h1 := part_lt hw h (.consR e2) (by simp [e2])
      have h2 := part_lt hw (by omega) (.altR e3) (by simp [e3])
      omega
    · exact h
  | star hn hb =>
    obtain ⟨c, a, e1, e2, e3⟩ := hw.bnf.star _ _ hn
    rw [e1] at hb; cases hb
    refine ⟨made hn (by simp) (by simp) (by simp) e3 (.inl (zero ?_)), _, e3⟩
    rcases Nat.lt_or_ge m W.parsed with h | h
    · have h1 := part_lt hw h (.altR e3) (by simp [e3])
      have h2 := part_lt hw (by omega) (.consR e2) (by simp [e2])
      omega
    · exact h
  | op hn hb =>
    obtain ⟨k, e1, e2, e3⟩ := hw.bnf.op _ _ hn
    rw [e1] at hb; cases hb
    rename_i o
    by_cases e : o.bodies = []
    · rw [e] at e2; cases e2
      obtain ⟨s, hs⟩ := hw.opBase _ _ hn
      refine ⟨made hn (by simp) (by simp) (by simp) hs (.inl ?_), _, hs⟩
      unfold weight; rw [if_pos]; exact .inr ⟨s, hs⟩
    · have hk := e3 e
      cases hb : o.bodies with
      | nil => exact absurd hb e
      | cons b bs =>
        rw [hb] at e2
        obtain ⟨r, g, _⟩ := e2
        exact ⟨made hn (by simp) (by simp) (by simp) g (.inl (zero hk)), _, g⟩
  | action hn =>
    obtain ⟨it, hit⟩ := hw.valid _ _ (.action hn)
    exact ⟨made hn (by simp) (by simp) (by simp) hit (.inr (lt hn (by simp) (by simp) (by simp) (.action hn))), it, hit⟩
  | tryc hn =>
    obtain ⟨it, hit⟩ := hw.valid _ _ (.tryL hn)
    exact ⟨made hn (by simp) (by simp) (by simp) hit (.inr (lt hn (by simp) (by simp) (by simp) (.tryL hn))), it, hit⟩

theorem rank_direct (hw : Wf W) {V : List Nat} {n m : Nat} (h : Direct W n m) : rank W V m < rank W V n := by
  have := (direct_weight hw h).1
  unfold rank; omega

theorem firstGo_total (hw : Wf W) : ∀ (f : Nat) (b : Bool) (V : List Nat) (n : Nat) (c : Comp), (∃ it, W.node n = some it) → rank W V n < f →
    ∃ c', firstGo W f b V n c = some c' := by
  intro f
  induction f with
  | zero => intro b V n c _ h; omega
  | succ f ih =>
    intro b V n c ⟨it, hn⟩ hf
    have ent : ∀ {b : Bool} {m : Nat} (c : Comp), Part W n m → ∃ c', enter (firstGo W f b) V m c = some c' := by
      intro b m c hp
      unfold enter
      split
      · exact ⟨_, rfl⟩
      · next hv =>
        obtain ⟨it', hm⟩ := hw.valid _ _ hp
        exact ih _ _ _ _ ⟨it', hm⟩ (by have := rank_enter (n := n) hm hv; omega)
    have dir : ∀ {m : Nat}, Direct W n m → ∃ c', (firstGo W f b V m c).map (mergeFirst W b n m) = some c' := by
      intro m hd
      obtain ⟨c', h⟩ := ih b V m c (direct_weight hw hd).2 (by have := rank_direct (V := V) hw hd; omega)
      exact ⟨_, by rw [h]; rfl⟩
    have one : ∀ {m : Nat}, Part W n m → ∃ c', (enter (firstGo W f b) V m c).map (mergeFirst W b n m) = some c' := by
      intro m hp
      obtain ⟨c', h⟩ := ent c hp
      exact ⟨_, by rw [h]; rfl⟩
    have two : ∀ {l r : Nat}, Part W n l → Part W n r → ∃ c', ((enter (firstGo W f b) V l c).bind fun c =>
        (enter (firstGo W f b) V r c).map fun c => mergeFirst W b n r (mergeFirst W b n l c)) = some c' := by
      intro l r hl hr
      obtain ⟨c1, h1⟩ := ent (b := b) c hl
      obtain ⟨c2, h2⟩ := ent (b := b) c1 hr
      exact ⟨_, by rw [h1, Option.bind_some, h2]; rfl⟩
    simp only [firstGo, hn]
    cases it with
    | zero => exact ⟨_, rfl⟩
    | sym => exact ⟨_, rfl⟩
    | term => exact ⟨_, rfl⟩
    | nonterm s => exact ⟨_, rfl⟩
    | inlined s => cases s <;> exact ⟨_, rfl⟩
    | plus i =>
      obtain ⟨k, a, e1, _⟩ := hw.bnf.plus n i hn
      simp only [e1]
      exact dir (.plus hn e1)
    | star i =>
      obtain ⟨k, a, e1, _⟩ := hw.bnf.star n i hn
      simp only [e1]
      exact dir (.star hn e1)
    | op o =>
      obtain ⟨k, e1, _⟩ := hw.bnf.op n o hn
      simp only [e1]
      exact dir (.op hn e1)
    | annot i => exact one (.annot hn)
    | cond i => exact one (.cond hn)
    | action i => cases i with
      | none => exact ⟨_, rfl⟩
      | some i => exact dir (.action hn)
    | tryc l r => cases r with
      | none => exact dir (.tryc hn)
      | some r => exact two (.tryL hn) (.tryR hn)
    | alt l r => exact two (.altL hn) (.altR hn)
    | evolve i s =>
      obtain ⟨c1, h1⟩ := ent (b := b) c (.evolve hn)
      exact ⟨_, by simp only [h1]; rfl⟩
    | cons l r =>
      obtain ⟨c1, h1⟩ := ent (b := b) c (.consR hn)
      simp only [h1, Option.bind_some]
      obtain ⟨er, h2⟩ := reduces_total (F := c1.sets) hw (hw.valid _ _ (.consR hn))
      simp only [h2, Option.bind_some]
      obtain ⟨c2, h3⟩ := ent (b := b || !er) c1 (.consL hn)
      simp only [h3, Option.bind_some]
      obtain ⟨el, h4⟩ := reduces_total (F := (mergeFirst W (b || !er) n l c2).sets) hw (hw.valid _ _ (.consL hn))
      simp only [h4, Option.bind_some]
      cases el with
      | false => exact ⟨_, rfl⟩
      | true =>
        obtain ⟨c3, h5⟩ := ent (b := b || !er) (mergeFirst W (b || !er) n l c2) (.consR hn)
        simp only [if_true, h5]
        exact ⟨_, rfl⟩

/-- Enough fuel for any grammar with that many nodes. -/
def enough (W : World) : Nat := (W.heap.length + 1) * (W.heap.length + 2)

theorem rank_lt_enough {V : List Nat} {n : Nat} {it : Item} (hn : W.node n = some it) : rank W V n < enough W := by
  have h1 := unvis_le (W := W) V
  have h2 := weight_le hn
  unfold rank enough
  have : unvis W V * (W.heap.length + 2) ≤ W.heap.length * (W.heap.length + 2) := Nat.mul_le_mul_right _ h1
  rw [Nat.add_mul]
  omega

theorem firstPass_total (hw : Wf W) {f : Nat} (hf : enough W ≤ f) : ∀ (rs : List Nat), (∀ r ∈ rs, r ∈ W.rules) → ∀ c, ∃ c', firstPass W f rs c = some c' := by
  intro rs
  induction rs with
  | nil => exact fun _ c => ⟨c, rfl⟩
  | cons r rs ih =>
    intro hrs c
    obtain ⟨_, i, s, hr⟩ := hw.rules r (hrs r (by simp))
    obtain ⟨c1, h1⟩ := firstGo_total hw f false [r] r c ⟨_, hr⟩ (by have := rank_lt_enough (V := [r]) hr; omega)
    obtain ⟨c2, h2⟩ := ih (fun r hr => hrs r (by simp [hr])) c1
    exact ⟨c2, by simp [firstPass, enter, h1, h2]⟩

/-! ### The number of rounds -/

/-- All pairs of nodes; no pair twice. -/
def Bounded (W : World) (F : Sets) : Prop := F.Nodup ∧ ∀ p ∈ F, p.1 < W.heap.length ∧ p.2 < W.heap.length

theorem Bounded.length (h : Bounded W F) : F.length ≤ W.heap.length * W.heap.length := by
  have hs : F ⊆ (List.range W.heap.length).flatMap fun a => (List.range W.heap.length).map fun b => (a, b) := by
    intro p hp
    obtain ⟨h1, h2⟩ := h.2 p hp
    simp only [List.mem_flatMap, List.mem_range, List.mem_map]
    exact ⟨p.1, h1, p.2, h2, rfl⟩
  have := (List.subperm_of_subset h.1 hs).length_le
  have hl : ∀ (l m : List Nat), (l.flatMap fun a => m.map fun b => (a, b)).length = l.length * m.length := by
    intro l m
    induction l with
    | nil => simp
    | cons a l ih => simp only [List.flatMap_cons, List.length_append, List.length_map, ih, List.length_cons, Nat.add_mul]; omega
  rw [hl] at this
  simpa using this

/-- A step of the computation: bounded sets stay bounded, and `changed` means they have grown. -/
def Step (W : World) (c d : Comp) : Prop := (Bounded W c.sets → Bounded W d.sets) ∧ c.sets.length ≤ d.sets.length ∧
  (d.changed = true → c.changed = true ∨ c.sets.length < d.sets.length)

theorem Step.refl (c : Comp) : Step W c c := ⟨id, Nat.le_refl _, .inl⟩

theorem Step.trans {a b c : Comp} (h : Step W a b) (g : Step W b c) : Step W a c := by
  refine ⟨fun x => g.1 (h.1 x), Nat.le_trans h.2.1 g.2.1, fun hc => ?_⟩
  have h2 := h.2.1
  have g2 := g.2.1
  rcases g.2.2 hc with hb | hb
  · rcases h.2.2 hb with ha | ha
    · exact .inl ha
    · exact .inr (by omega)
  · exact .inr (by omega)

theorem insert_step {c : Comp} {n x : Nat} (hn : n < W.heap.length) (hx : x < W.heap.length) : Step W c (c.insert n x) := by
  unfold Comp.insert
  split
  · exact .refl c
  · next h =>
    refine ⟨fun hb => ⟨List.nodup_cons.2 ⟨h, hb.1⟩, ?_⟩, by simp, fun _ => .inr (by simp)⟩
    intro p hp
    rcases List.mem_cons.1 hp with rfl | hp
    · exact ⟨hn, hx⟩
    · exact hb.2 p hp

theorem foldl_step {n : Nat} (hn : n < W.heap.length) : ∀ (xs : List Nat) (c : Comp), (∀ x ∈ xs, x < W.heap.length) → Step W c (xs.foldl (fun c x => c.insert n x) c) := by
  intro xs
  induction xs with
  | nil => exact fun c _ => .refl c
  | cons x xs ih => exact fun c h => (insert_step hn (h x (by simp))).trans (ih _ fun y hy => h y (by simp [hy]))

/-- The elements of the sets are nodes. -/
def InHeap (W : World) (c : Comp) : Prop := ∀ p ∈ c.sets, p.1 < W.heap.length ∧ p.2 < W.heap.length

theorem mergeFirst_step {b : Bool} {d s : Nat} {c : Comp} (hd : d < W.heap.length) (hc : InHeap W c) :
    Step W c (mergeFirst W b d s c) ∧ InHeap W (mergeFirst W b d s c) := by
  constructor
  · refine foldl_step hd _ c fun x hx => ?_
    rw [List.mem_filter, mem_of] at hx
    exact (hc _ hx.1).2
  · intro p hp
    rcases mem_mergeFirst.1 hp with h | ⟨h1, h2, _⟩
    · exact hc p h
    · rw [h1]; exact ⟨hd, (hc _ h2).2⟩

theorem symbol_step {b : Bool} {n s : Nat} {c : Comp} (hn : n < W.heap.length) (hc : InHeap W c) :
    Step W c (firstOfSymbol W b n s c) ∧ InHeap W (firstOfSymbol W b n s c) := by
  unfold firstOfSymbol
  have h1 := mergeFirst_step (b := b) (s := s) hn hc
  cases W.searchRule s with
  | none => exact h1
  | some r =>
    have h2 := mergeFirst_step (b := b) (s := r) hn h1.2
    exact ⟨h1.1.trans h2.1, h2.2⟩

theorem firstGo_step (hw : Wf W) : ∀ (f : Nat) (b : Bool) (V : List Nat) (n : Nat) (c c' : Comp), InHeap W c → firstGo W f b V n c = some c' →
    Step W c c' ∧ InHeap W c' := by
  intro f
  induction f with
  | zero => intro b V n c c' _ h; cases h
  | succ f ih =>
    intro b V n c c' hc h
    have ent : ∀ {b : Bool} {m : Nat} {c c' : Comp}, InHeap W c → enter (firstGo W f b) V m c = some c' → Step W c c' ∧ InHeap W c' := by
      intro b m c c' hc h
      unfold enter at h
      split at h
      · cases h; exact ⟨.refl c, hc⟩
      · exact ih _ _ _ _ _ hc h
    cases hn : W.node n with
    | none => simp [firstGo, hn] at h
    | some it =>
      simp only [firstGo, hn] at h
      have hlt := lt_heap hn
      have dir : ∀ {k : Nat}, (firstGo W f b V k c).map (mergeFirst W b n k) = some c' → Step W c c' ∧ InHeap W c' := by
        intro k h
        obtain ⟨c1, h1, rfl⟩ := Option.map_eq_some_iff.1 h
        have g1 := ih _ _ _ _ _ hc h1
        have g2 := mergeFirst_step (b := b) (s := k) hlt g1.2
        exact ⟨g1.1.trans g2.1, g2.2⟩
      have one : ∀ {k : Nat}, (enter (firstGo W f b) V k c).map (mergeFirst W b n k) = some c' → Step W c c' ∧ InHeap W c' := by
        intro k h
        obtain ⟨c1, h1, rfl⟩ := Option.map_eq_some_iff.1 h
        have g1 := ent hc h1
        have g2 := mergeFirst_step (b := b) (s := k) hlt g1.2
        exact ⟨g1.1.trans g2.1, g2.2⟩
      have two : ∀ {l r : Nat}, ((enter (firstGo W f b) V l c).bind fun c => (enter (firstGo W f b) V r c).map fun c =>
          mergeFirst W b n r (mergeFirst W b n l c)) = some c' → Step W c c' ∧ InHeap W c' := by
        intro l r h
        obtain ⟨c1, h1, h2⟩ := Option.bind_eq_some_iff.1 h
        obtain ⟨c2, h3, rfl⟩ := Option.map_eq_some_iff.1 h2
        have g1 := ent hc h1
        have g2 := ent g1.2 h3
        have g3 := mergeFirst_step (b := b) (s := l) hlt g2.2
        have g4 := mergeFirst_step (b := b) (s := r) hlt g3.2
        exact ⟨((g1.1.trans g2.1).trans g3.1).trans g4.1, g4.2⟩
      cases it with
      | zero => cases h; exact ⟨.refl _, hc⟩
      | sym => cases h; exact ⟨.refl _, hc⟩
      | term => cases h; exact ⟨.refl _, hc⟩
      | nonterm s => cases h; exact symbol_step hlt hc
      | inlined s => cases s with
        | none => cases h; exact ⟨.refl _, hc⟩
        | some s => cases h; exact symbol_step hlt hc
      | plus i =>
        cases e : W.bnf n with
        | none => simp [e] at h
        | some k => simp only [e] at h; exact dir h
      | star i =>
        cases e : W.bnf n with
        | none => simp [e] at h
        | some k => simp only [e] at h; exact dir h
      | op o =>
        cases e : W.bnf n with
        | none => simp [e] at h
        | some k => simp only [e] at h; exact dir h
      | annot i => exact one h
      | cond i => exact one h
      | action i => cases i with
        | none => cases h; exact ⟨.refl _, hc⟩
        | some i => exact dir h
      | tryc l r => cases r with
        | none => exact dir h
        | some r => exact two h
      | alt l r => exact two h
      | evolve i s =>
        obtain ⟨c1, h1, rfl⟩ := Option.map_eq_some_iff.1 h
        have g1 := ent hc h1
        have g2 := mergeFirst_step (b := b) (s := i) hlt g1.2
        have g3 := mergeFirst_step (b := b) (s := n) (lt_heap (hw.symbols n s (.inr (.inr ⟨i, hn⟩)))) g2.2
        exact ⟨(g1.1.trans g2.1).trans g3.1, g3.2⟩
      | cons l r =>
        obtain ⟨c1, h1, h⟩ := Option.bind_eq_some_iff.1 h
        have g1 := ent hc h1
        obtain ⟨er, h2, h⟩ := Option.bind_eq_some_iff.1 h
        obtain ⟨c2, h3, h⟩ := Option.bind_eq_some_iff.1 h
        have g2 := ent g1.2 h3
        have g3 := mergeFirst_step (b := b || !er) (s := l) hlt g2.2
        obtain ⟨el, h4, h⟩ := Option.bind_eq_some_iff.1 h
        have g123 := (g1.1.trans g2.1).trans g3.1
        cases el with
        | false => cases h; exact ⟨g123, g3.2⟩
        | true =>
          simp only [if_true] at h
          obtain ⟨c4, h5, rfl⟩ := Option.map_eq_some_iff.1 h
          have g4 := ent g3.2 h5
          have g5 := mergeFirst_step (b := b || !er) (s := r) hlt g4.2
          exact ⟨(g123.trans g4.1).trans g5.1, g5.2⟩

theorem firstPass_step (hw : Wf W) {f : Nat} : ∀ (rs : List Nat) (c c' : Comp), InHeap W c → firstPass W f rs c = some c' → Step W c c' ∧ InHeap W c' := by
  intro rs
  induction rs with
  | nil => intro c c' hc h; cases h; exact ⟨.refl _, hc⟩
  | cons r rs ih =>
    intro c c' hc h
    obtain ⟨c1, h1, h2⟩ := Option.bind_eq_some_iff.1 h
    have g1 : Step W c c1 ∧ InHeap W c1 := by
      unfold enter at h1
      split at h1
      · cases h1; exact ⟨.refl c, hc⟩
      · exact firstGo_step hw _ _ _ _ _ _ hc h1
    have g2 := ih _ _ g1.2 h2
    exact ⟨g1.1.trans g2.1, g2.2⟩

theorem firstLoop_total (hw : Wf W) {f : Nat} (hf : enough W ≤ f) : ∀ (k : Nat) (F : Sets), Bounded W F → W.heap.length * W.heap.length < F.length + k →
    ∃ F', firstLoop W f k F = some F' := by
  intro k
  induction k with
  | zero => intro F hb h; have := hb.length; omega
  | succ k ih =>
    intro F hb h
    obtain ⟨c, hc⟩ := firstPass_total hw hf W.rules (fun _ => id) ⟨F, false⟩
    have g := (firstPass_step hw _ _ _ (fun p hp => hb.2 p hp) hc).1
    rw [firstLoop, hc]
    simp only
    split
    · next hch =>
      rcases g.2.2 hch with h1 | h1
      · cases h1
      · exact ih _ (g.1 hb) (by simp only at h1; omega)
    · exact ⟨_, rfl⟩

theorem init_bounded (hw : Wf W) (hnd : W.terminals.Nodup) : Bounded W (initFirst W) := by
  have hz := lt_heap hw.zero
  constructor
  · unfold initFirst
    rw [List.nodup_cons]
    constructor
    · simp only [List.mem_map, Prod.mk.injEq, not_exists, not_and]
      intro t ht e _
      have := hw.terminals t ht
      rw [e, hw.zero] at this; cases this
    · exact hnd.map _ (fun a b h e => h (Prod.mk.inj e).1)
  · intro p hp
    simp only [initFirst, List.mem_cons, List.mem_map] at hp
    rcases hp with rfl | ⟨t, ht, rfl⟩
    · exact ⟨hz, hz⟩
    · have := lt_heap (hw.terminals t ht); exact ⟨this, this⟩

/-! ### FOLLOW -/

theorem followGo_total (hw : Wf W) : ∀ (f : Nat) (V : List Nat) (n : Nat) (c : Comp), (∃ it, W.node n = some it) → rank W V n < f →
    ∃ c', followGo W F f V n c = some c' := by
  intro f
  induction f with
  | zero => intro V n c _ h; omega
  | succ f ih =>
    intro V n c ⟨it, hn⟩ hf
    have ent : ∀ {m : Nat} (c : Comp), Part W n m → ∃ c', enter (followGo W F f) V m c = some c' := by
      intro m c hp
      unfold enter
      split
      · exact ⟨_, rfl⟩
      · next hv =>
        obtain ⟨it', hm⟩ := hw.valid _ _ hp
        exact ih _ _ _ ⟨it', hm⟩ (by have := rank_enter (n := n) hm hv; omega)
    have dir : ∀ {m : Nat} (c : Comp), Direct W n m → ∃ c', followGo W F f V m c = some c' := by
      intro m c hd
      exact ih V m c (direct_weight hw hd).2 (by have := rank_direct (V := V) hw hd; omega)
    have two : ∀ {l r : Nat} (c : Comp), Part W n l → Part W n r → ∃ c', ((enter (followGo W F f) V l c).bind (enter (followGo W F f) V r)) = some c' := by
      intro l r c hl hr
      obtain ⟨c1, h1⟩ := ent c hl
      obtain ⟨c2, h2⟩ := ent c1 hr
      exact ⟨c2, by rw [h1, Option.bind_some, h2]⟩
    simp only [followGo, hn]
    cases it with
    | zero => exact ⟨_, rfl⟩
    | sym => exact ⟨_, rfl⟩
    | term => exact ⟨_, rfl⟩
    | nonterm s => exact ⟨_, rfl⟩
    | inlined s => cases s <;> exact ⟨_, rfl⟩
    | plus i =>
      obtain ⟨k, a, e1, _⟩ := hw.bnf.plus n i hn
      simp only [e1]
      exact dir _ (.plus hn e1)
    | star i =>
      obtain ⟨k, a, e1, _⟩ := hw.bnf.star n i hn
      simp only [e1]
      exact dir _ (.star hn e1)
    | op o =>
      obtain ⟨k, e1, _⟩ := hw.bnf.op n o hn
      simp only [e1]
      exact dir _ (.op hn e1)
    | annot i => exact ent _ (.annot hn)
    | cond i => exact ent _ (.cond hn)
    | action i => cases i with
      | none => exact ⟨_, rfl⟩
      | some i => exact dir _ (.action hn)
    | tryc l r => cases r with
      | none => exact dir _ (.tryc hn)
      | some r => exact two _ (.tryL hn) (.tryR hn)
    | alt l r => exact two _ (.altL hn) (.altR hn)
    | evolve i s => exact ent _ (.evolve hn)
    | cons l r =>
      obtain ⟨er, h2⟩ := reduces_total (F := F) hw (hw.valid _ _ (.consR hn))
      simp only [h2, Option.bind_some]
      exact two _ (.consL hn) (.consR hn)

theorem followPass_total (hw : Wf W) {f : Nat} (hf : enough W ≤ f) : ∀ (rs : List Nat), (∀ r ∈ rs, r ∈ W.rules) → ∀ c, ∃ c', followPass W F f rs c = some c' := by
  intro rs
  induction rs with
  | nil => exact fun _ c => ⟨c, rfl⟩
  | cons r rs ih =>
    intro hrs c
    obtain ⟨_, i, s, hr⟩ := hw.rules r (hrs r (by simp))
    obtain ⟨c1, h1⟩ := followGo_total (F := F) hw f [r] r c ⟨_, hr⟩ (by have := rank_lt_enough (V := [r]) hr; omega)
    obtain ⟨c2, h2⟩ := ih (fun r hr => hrs r (by simp [hr])) c1
    exact ⟨c2, by simp [followPass, enter, h1, h2]⟩

theorem mergeFollow_step {d : Nat} {xs : List Nat} {c : Comp} (hd : d < W.heap.length) (hc : InHeap W c) :
    Step W c (mergeFollow W d xs c) ∧ InHeap W (mergeFollow W d xs c) := by
  have key : ∀ xs : List Nat, (∀ x ∈ xs, x < W.heap.length) → ∀ c : Comp, InHeap W c → InHeap W (xs.foldl (fun c x => c.insert d x) c) := by
    intro xs
    induction xs with
    | nil => exact fun _ c hc => hc
    | cons x xs ih =>
      intro hx c hc
      refine ih (fun y hy => hx y (by simp [hy])) _ ?_
      simp only [Comp.insert]
      split
      · exact hc
      · intro p hp
        rcases List.mem_cons.1 hp with rfl | hp
        · exact ⟨hd, hx x (by simp)⟩
        · exact hc p hp
  have hx : ∀ x ∈ xs.filter (isTerm W), x < W.heap.length := by
    intro x hx
    have := (List.mem_filter.1 hx).2
    simp only [isTerm, decide_eq_true_eq] at this
    exact lt_heap this
  unfold mergeFollow
  split
  · exact ⟨.refl c, hc⟩
  · exact ⟨foldl_step hd _ c hx, key _ hx c hc⟩

theorem Step.comp {a b c : Comp} (h : Step W a b ∧ InHeap W b) (g : Step W b c ∧ InHeap W c) : Step W a c ∧ InHeap W c :=
  ⟨h.1.trans g.1, g.2⟩

theorem searchRule_lt (hw : Wf W) {s r : Nat} (h : W.searchRule s = some r) : r < W.heap.length := by
  unfold World.searchRule at h
  obtain ⟨_, i, s, hr⟩ := hw.rules r (List.mem_of_find?_eq_some h)
  exact lt_heap hr

theorem followOfSymbol_step (hw : Wf W) {n s : Nat} {c : Comp} (hs : s < W.heap.length) (hc : InHeap W c) :
    Step W c (followOfSymbol W n s c) ∧ InHeap W (followOfSymbol W n s c) := by
  unfold followOfSymbol
  cases e : W.searchRule s with
  | none => exact mergeFollow_step hs hc
  | some r =>
    have h1 := mergeFollow_step (xs := c.sets.of n) (searchRule_lt hw e) hc
    exact Step.comp h1 (mergeFollow_step hs h1.2)

theorem followGo_step (hw : Wf W) : ∀ (f : Nat) (V : List Nat) (n : Nat) (c c' : Comp), InHeap W c → followGo W F f V n c = some c' →
    Step W c c' ∧ InHeap W c' := by
  intro f
  induction f with
  | zero => intro V n c c' _ h; cases h
  | succ f ih =>
    intro V n c c' hc h
    have ent : ∀ {m : Nat} {c c' : Comp}, InHeap W c → enter (followGo W F f) V m c = some c' → Step W c c' ∧ InHeap W c' := by
      intro m c c' hc h
      unfold enter at h
      split at h
      · cases h; exact ⟨.refl c, hc⟩
      · exact ih _ _ _ _ hc h
    have pre : ∀ {s d : Nat} {c : Comp}, s < W.heap.length → InHeap W c → Step W c (preCopy W s d c) ∧ InHeap W (preCopy W s d c) :=
      fun hs hc => mergeFollow_step hs hc
    have two : ∀ {l r : Nat} {c : Comp}, InHeap W c → ((enter (followGo W F f) V l c).bind (enter (followGo W F f) V r)) = some c' → Step W c c' ∧ InHeap W c' := by
      intro l r c hc h
      obtain ⟨c1, h1, h2⟩ := Option.bind_eq_some_iff.1 h
      have g1 := ent hc h1
      exact Step.comp g1 (ent g1.2 h2)
    have part : ∀ {m}, Part W n m → m < W.heap.length := by
      intro m hp
      obtain ⟨it, h⟩ := hw.valid _ _ hp
      exact lt_heap h
    have direct : ∀ {m}, Direct W n m → m < W.heap.length := by
      intro m hp
      obtain ⟨it, h⟩ := (direct_weight hw hp).2
      exact lt_heap h
    cases hn : W.node n with
    | none => simp [followGo, hn] at h
    | some it =>
      simp only [followGo, hn] at h
      cases it with
      | zero => cases h; exact ⟨.refl _, hc⟩
      | sym => cases h; exact ⟨.refl _, hc⟩
      | term => cases h; exact ⟨.refl _, hc⟩
      | nonterm s => cases h; exact followOfSymbol_step hw (lt_heap (hw.symbols n s (.inl hn))) hc
      | inlined s => cases s with
        | none => cases h; exact ⟨.refl _, hc⟩
        | some s => cases h; exact followOfSymbol_step hw (lt_heap (hw.symbols n s (.inr (.inl hn)))) hc
      | plus i =>
        cases e : W.bnf n with
        | none => simp [e] at h
        | some k =>
          simp only [e] at h
          have g := pre (d := n) (direct (.plus hn e)) hc
          exact Step.comp g (ih _ _ _ _ g.2 h)
      | star i =>
        cases e : W.bnf n with
        | none => simp [e] at h
        | some k =>
          simp only [e] at h
          have g := pre (d := n) (direct (.star hn e)) hc
          exact Step.comp g (ih _ _ _ _ g.2 h)
      | op o =>
        cases e : W.bnf n with
        | none => simp [e] at h
        | some k =>
          simp only [e] at h
          have g := pre (d := n) (direct (.op hn e)) hc
          exact Step.comp g (ih _ _ _ _ g.2 h)
      | annot i =>
        have g := pre (d := n) (part (.annot hn)) hc
        exact Step.comp g (ent g.2 h)
      | cond i =>
        have g := pre (d := n) (part (.cond hn)) hc
        exact Step.comp g (ent g.2 h)
      | action i => cases i with
        | none => cases h; exact ⟨.refl _, hc⟩
        | some i =>
          have g := pre (d := n) (direct (.action hn)) hc
          exact Step.comp g (ih _ _ _ _ g.2 h)
      | tryc l r => cases r with
        | none =>
          have g := pre (d := n) (direct (.tryc hn)) hc
          exact Step.comp g (ih _ _ _ _ g.2 h)
        | some r =>
          have g := pre (d := n) (part (.tryL hn)) hc
          have g' := Step.comp g (pre (d := n) (part (.tryR hn)) g.2)
          exact Step.comp g' (two g'.2 h)
      | alt l r =>
        have g := pre (d := n) (part (.altL hn)) hc
        have g' := Step.comp g (pre (d := n) (part (.altR hn)) g.2)
        exact Step.comp g' (two g'.2 h)
      | evolve i s =>
        have g := pre (s := n) (d := s) (lt_heap hn) hc
        have g' := Step.comp g (pre (d := n) (part (.evolve hn)) g.2)
        exact Step.comp g' (ent g'.2 h)
      | cons l r =>
        obtain ⟨er, h1, h⟩ := Option.bind_eq_some_iff.1 h
        have g := pre (d := n) (part (.consR hn)) hc
        have g' := Step.comp g (mergeFollow_step (xs := F.of r) (part (.consL hn)) g.2)
        cases er with
        | false => exact Step.comp g' (two g'.2 h)
        | true =>
          have g3 := Step.comp g' (pre (d := n) (part (.consL hn)) g'.2)
          exact Step.comp g3 (two g3.2 h)

theorem followPass_step (hw : Wf W) {f : Nat} : ∀ (rs : List Nat) (c c' : Comp), InHeap W c → followPass W F f rs c = some c' → Step W c c' ∧ InHeap W c' := by
  intro rs
  induction rs with
  | nil => intro c c' hc h; cases h; exact ⟨.refl _, hc⟩
  | cons r rs ih =>
    intro c c' hc h
    obtain ⟨c1, h1, h2⟩ := Option.bind_eq_some_iff.1 h
    have g1 : Step W c c1 ∧ InHeap W c1 := by
      unfold enter at h1
      split at h1
      · cases h1; exact ⟨.refl c, hc⟩
      · exact followGo_step hw _ _ _ _ _ hc h1
    exact Step.comp g1 (ih _ _ g1.2 h2)

theorem followLoop_total (hw : Wf W) {f : Nat} (hf : enough W ≤ f) : ∀ (k : Nat) (S : Sets), Bounded W S → W.heap.length * W.heap.length < S.length + k →
    ∃ F', followLoop W F f k ⟨S, false⟩ = some F' := by
  intro k
  induction k with
  | zero => intro S hb h; have := hb.length; omega
  | succ k ih =>
    intro S hb h
    obtain ⟨c, hc⟩ := followPass_total (F := F) hw hf W.rules (fun _ => id) ⟨S, false⟩
    have g := (followPass_step hw _ _ _ (fun p hp => hb.2 p hp) hc).1
    rw [followLoop, hc]
    simp only
    split
    · next hch =>
      rcases g.2.2 hch with h1 | h1
      · cases h1
      · exact ih _ (g.1 hb) (by simp only at h1; omega)
    · exact ⟨_, rfl⟩

theorem initFollow_bounded (hw : Wf W) {eof : Nat} (he : W.node eof = some .term) : Bounded W (initFollow W eof).sets := by
  have key : ∀ (rs : List Nat), (∀ r ∈ rs, r ∈ W.rules) → ∀ c : Comp, Bounded W c.sets → Bounded W (rs.foldl (fun c r => match W.node r with
    | some (.evolve i s) => if s ∈ W.start then ((c.insert r eof).insert s eof).insert i eof else c
    | _ => c) c).sets := by
    intro rs
    induction rs with
    | nil => exact fun _ c h => h
    | cons r rs ih =>
      intro hrs c hc
      refine ih (fun r hr => hrs r (by simp [hr])) _ ?_
      obtain ⟨_, i, s, hr⟩ := hw.rules r (hrs r (by simp))
      simp only [hr]
      split
      · have he' := lt_heap he
        obtain ⟨it, hi⟩ := hw.valid _ _ (.evolve hr)
        exact (insert_step (lt_heap hi) he').1 ((insert_step (lt_heap (hw.symbols _ s (.inr (.inr ⟨i, hr⟩)))) he').1
          ((insert_step (lt_heap hr) he').1 hc))
      · exact hc
  exact key _ (fun _ => id) _ ⟨List.nodup_nil, by simp⟩

theorem followLoop_first (hw : Wf W) {f : Nat} (hf : enough W ≤ f) {S : Sets} (hb : Bounded W S) {k : Nat} (hk : W.heap.length * W.heap.length + 1 < k) :
    ∃ F', followLoop W F f k ⟨S, true⟩ = some F' := by
  cases k with
  | zero => omega
  | succ k =>
    obtain ⟨c, hc⟩ := followPass_total (F := F) hw hf W.rules (fun _ => id) ⟨S, true⟩
    have g := (followPass_step hw _ _ _ (fun p hp => hb.2 p hp) hc).1
    rw [followLoop, hc]
    simp only
    split
    · exact followLoop_total hw hf k _ (g.1 hb) (by omega)
    · exact ⟨_, rfl⟩

end Verif.Grammar
