import Verif.Auto.SuccLemmas

set_option linter.unusedSectionVars false

/-! # Lemmas about the main loop of `dfa` and the numbering of states -/

namespace Verif.Auto

variable {C : Type} [CharSetLike C]

/-! ### All sets of states -/

def allBits : Nat → List Bits
  | 0 => [[]]
  | n + 1 => (allBits n).map (true :: ·) ++ (allBits n).map (false :: ·)

theorem mem_allBits (s : Bits) : s ∈ allBits s.length := by
  induction s with
  | nil => simp [allBits]
  | cons b s ih => cases b <;> simp [allBits, ih]

/-- The number of sets not yet processed. -/
def open_ (N : Nat) (keys : List Bits) : Nat := (allBits N).countP fun x => !keys.contains x

theorem open_congr {N : Nat} {a b : List Bits} (h : ∀ x, x ∈ a ↔ x ∈ b) : open_ N a = open_ N b := by
  unfold open_
  refine List.countP_congr fun x _ => ?_
  simp [h x]

theorem countP_lt {α : Type} {p q : α → Bool} (hpq : ∀ a, p a = true → q a = true) : ∀ {l : List α} {a : α}, a ∈ l → p a = false → q a = true →
    l.countP p < l.countP q := by
  intro l
  induction l with
  | nil => intro a h; cases h
  | cons b l ih =>
    intro a ha hp hq
    have hle : l.countP p ≤ l.countP q := List.countP_mono_left fun x _ => hpq x
    rw [List.countP_cons, List.countP_cons]
    rcases List.mem_cons.mp ha with rfl | ha
    · simp [hp, hq]; omega
    · have := ih ha hp hq
      cases hb : p b
      · simp; omega
      · simp [hpq b hb]; omega

theorem open_lt {N : Nat} {a b : List Bits} {x : Bits} (hx : x.length = N) (hxa : x ∉ a) (h : ∀ y, y ∈ b ↔ y ∈ a ∨ y = x) :
    open_ N b < open_ N a := by
  unfold open_
  refine countP_lt (a := x) (fun y hy => ?_) (hx ▸ mem_allBits x) ?_ ?_
  · simp only [Bool.not_eq_true', List.contains_eq_mem, decide_eq_false_iff_not] at *
    exact fun hya => hy ((h y).mpr (Or.inl hya))
  · simp [(h x).mpr (Or.inr rfl)]
  · simp [hxa]

/-! ### The main loop -/

abbrev keys (log : Log C) : List Bits := log.map (·.1)

structure LoopInv (n : NFA C) (log : Log C) (todo : List Bits) : Prop where
  entry : ∀ x t, (x, t) ∈ log → x.length = n.nstates ∧ n.succs x = some t
  len : ∀ y ∈ todo, y.length = n.nstates
  succ : ∀ x t, (x, t) ∈ log → ∀ e ∈ t, e.2 ∈ keys log ∨ ∃ A D, todo = A ++ e.2 :: D ∧ x ∉ A

theorem dfaLoop_spec {n : NFA C} (hn : n.WfM) (log : Log C) (todo : List Bits) (h : LoopInv n log todo) :
    ∃ F log', (∀ fuel, F ≤ fuel → n.dfaLoop fuel log todo = some log') ∧ LoopInv n log' [] ∧
      (∀ x, x ∈ keys log ∨ x ∈ todo → x ∈ keys log') := by
  match htd : todo with
  | [] => exact ⟨0, log, fun fuel _ => by cases fuel <;> rfl, h, by simp⟩
  | x :: todo' =>
    have hxl := h.len x List.mem_cons_self
    obtain ⟨t, ht, hts⟩ := succs_spec hn hxl
    have hkeys : ∀ y, y ∈ keys (log ++ [(x, t)]) ↔ y ∈ keys log ∨ y = x := by intro y; simp [keys]
    by_cases hx : x ∈ keys log
    · -- processed before: nothing new
      have hallin : ∀ e ∈ t, e.2 ∈ keys log := by
        intro e he
        obtain ⟨⟨x', t'⟩, hm, hxe⟩ := List.mem_map.mp hx
        simp only at hxe; subst hxe
        have ht' := (h.entry _ _ hm).2
        rw [ht] at ht'; cases ht'
        rcases h.succ _ _ hm e he with hk | ⟨A, D, hA, hnA⟩
        · exact hk
        · cases A with
          | nil => simp at hA; rw [← hA.1]; exact hx
          | cons a A => simp at hA; rw [hA.1] at hnA; simp at hnA
      have hnew : (t.map (·.2)).filter (fun y => !((log ++ [(x, t)]).map (·.1)).contains y) = [] := by
        rw [List.filter_eq_nil_iff]
        intro y hy
        obtain ⟨e, he, rfl⟩ := List.mem_map.mp hy
        have := (hkeys e.2).mpr (Or.inl (hallin e he))
        rw [Bool.not_eq_true, Bool.not_eq_false', List.contains_iff_mem]
        exact this
      have hinv : LoopInv n (log ++ [(x, t)]) todo' := by
        refine ⟨?_, fun y hy => h.len y (List.mem_cons_of_mem _ hy), ?_⟩
        · intro y s hm
          rcases List.mem_append.mp hm with hm | hm
          · exact h.entry _ _ hm
          · simp at hm; obtain ⟨rfl, rfl⟩ := hm; exact ⟨hxl, ht⟩
        · intro y s hm e he
          rcases List.mem_append.mp hm with hm | hm
          · rcases h.succ _ _ hm e he with hk | ⟨A, D, hA, hnA⟩
            · exact Or.inl ((hkeys _).mpr (Or.inl hk))
            · cases A with
              | nil => simp at hA; exact Or.inl ((hkeys _).mpr (Or.inr hA.1.symm))
              | cons a A =>
                simp at hA hnA
                exact Or.inr ⟨A, D, hA.2, hnA.2⟩
          · simp at hm; obtain ⟨rfl, rfl⟩ := hm
            exact Or.inl ((hkeys _).mpr (Or.inl (hallin e he)))
      have hdec1 : open_ n.nstates (keys (log ++ [(x, t)])) = open_ n.nstates (keys log) :=
        open_congr fun y => (hkeys y).trans ⟨fun h => h.elim id (fun h => h ▸ hx), Or.inl⟩
      obtain ⟨F, log', hF, hI, hsub⟩ := dfaLoop_spec hn (log ++ [(x, t)]) todo' hinv
      refine ⟨F + 1, log', fun fuel hf => ?_, hI, fun y hy => hsub y ?_⟩
      · obtain ⟨f, rfl⟩ : ∃ f, fuel = f + 1 := ⟨fuel - 1, by omega⟩
        simp only [NFA.dfaLoop, ht, Option.bind_eq_bind, Option.bind_some, hnew, List.reverse_nil, List.nil_append]
        exact hF f (by omega)
      · rcases hy with hy | hy
        · exact Or.inl ((hkeys y).mpr (Or.inl hy))
        · rcases List.mem_cons.mp hy with rfl | hy
          · exact Or.inl ((hkeys y).mpr (Or.inr rfl))
          · exact Or.inr hy
    · -- a new set
      let new := (t.map (·.2)).filter fun y => !((log ++ [(x, t)]).map (·.1)).contains y
      have hnew : ∀ y, y ∈ new ↔ (∃ e ∈ t, e.2 = y) ∧ y ∉ keys (log ++ [(x, t)]) := by
        intro y; simp [new, keys]
      have hinv : LoopInv n (log ++ [(x, t)]) (new.reverse ++ todo') := by
        refine ⟨?_, ?_, ?_⟩
        · intro y s hm
          rcases List.mem_append.mp hm with hm | hm
          · exact h.entry _ _ hm
          · simp at hm; obtain ⟨rfl, rfl⟩ := hm; exact ⟨hxl, ht⟩
        · intro y hy
          rcases List.mem_append.mp hy with hy | hy
          · rw [List.mem_reverse, hnew] at hy
            obtain ⟨⟨e, he, rfl⟩, _⟩ := hy
            exact hts.len e he
          · exact h.len y (List.mem_cons_of_mem _ hy)
        · intro y s hm e he
          rcases List.mem_append.mp hm with hm | hm
          · rcases h.succ _ _ hm e he with hk | ⟨A, D, hA, hnA⟩
            · exact Or.inl ((hkeys _).mpr (Or.inl hk))
            · cases A with
              | nil => simp at hA; exact Or.inl ((hkeys _).mpr (Or.inr hA.1.symm))
              | cons a A =>
                simp at hA hnA
                refine Or.inr ⟨new.reverse ++ A, D, by rw [hA.2, List.append_assoc], ?_⟩
                intro hmem
                rcases List.mem_append.mp hmem with hmem | hmem
                · rw [List.mem_reverse, hnew] at hmem
                  exact hmem.2 ((hkeys _).mpr (Or.inl (List.mem_map.mpr ⟨_, hm, rfl⟩)))
                · exact hnA.2 hmem
          · simp at hm; obtain ⟨rfl, rfl⟩ := hm
            by_cases hk : e.2 ∈ keys (log ++ [(y, s)])
            · exact Or.inl hk
            · right
              have hm' : e.2 ∈ new.reverse := List.mem_reverse.mpr ((hnew _).mpr ⟨⟨e, he, rfl⟩, hk⟩)
              obtain ⟨A, D, hAD⟩ := List.append_of_mem hm'
              refine ⟨A, D ++ todo', by rw [hAD]; simp, fun hyA => ?_⟩
              have : y ∈ new := by
                rw [← List.mem_reverse, hAD]; exact List.mem_append_left _ hyA
              exact ((hnew y).mp this).2 ((hkeys y).mpr (Or.inr rfl))
      have hdec2 : open_ n.nstates (keys (log ++ [(x, t)])) < open_ n.nstates (keys log) := open_lt hxl hx hkeys
      obtain ⟨F, log', hF, hI, hsub⟩ := dfaLoop_spec hn (log ++ [(x, t)]) (new.reverse ++ todo') hinv
      refine ⟨F + 1, log', fun fuel hf => ?_, hI, fun y hy => hsub y ?_⟩
      · obtain ⟨f, rfl⟩ : ∃ f, fuel = f + 1 := ⟨fuel - 1, by omega⟩
        simp only [NFA.dfaLoop, ht, Option.bind_eq_bind, Option.bind_some]
        exact hF f (by omega)
      · rcases hy with hy | hy
        · exact Or.inl ((hkeys y).mpr (Or.inl hy))
        · rcases List.mem_cons.mp hy with rfl | hy
          · exact Or.inl ((hkeys y).mpr (Or.inr rfl))
          · exact Or.inr (List.mem_append_right _ hy)
termination_by (open_ n.nstates (keys log), todo.length)
decreasing_by
  · rw [hdec1]; apply Prod.Lex.right; subst htd; simp
  · apply Prod.Lex.left; exact hdec2

/-! ### Numbering -/

theorem idxOf_ne {a b : Bits} {l : List Bits} (h : a ≠ b) : (a :: l).idxOf b = l.idxOf b + 1 := by
  rw [List.idxOf_cons]
  have : (a == b) = false := by simpa using h
  simp [this]

theorem numberLoop_spec (start first : Bits) : ∀ (l : List Bits) (cnt : Nat) (st : Bits → Option Nat), l.Nodup → first ∉ l → 1 ≤ cnt →
    ∀ x, numberLoop start first l cnt st x =
      if start ∈ l ∧ x = start then some 0
      else if start ∈ l ∧ x = first then some (cnt + l.idxOf start)
      else if x ∈ l then some (cnt + l.idxOf x) else st x := by
  intro l
  induction l with
  | nil => intro cnt st _ _ _ x; simp [numberLoop]
  | cons i l ih =>
    intro cnt st hnd hf hc x
    rw [List.nodup_cons] at hnd
    have hfi : first ≠ i := fun h => hf (h ▸ List.mem_cons_self)
    have hfl : first ∉ l := fun h => hf (List.mem_cons_of_mem _ h)
    rw [numberLoop, ih (cnt + 1) _ hnd.2 hfl (by omega)]
    by_cases hs : i = start
    · have hstep : (if i = start ∧ cnt ≠ 0 then upd (upd st first cnt) i 0 else upd st i cnt) = upd (upd st first cnt) i 0 :=
        if_pos ⟨hs, by omega⟩
      rw [hstep]
      subst hs
      simp only [hnd.1, false_and, if_false, List.mem_cons, true_or, true_and, List.idxOf_cons_self]
      by_cases hx : x = i
      · subst hx; simp [hnd.1, upd]
      · simp only [hx, if_false, false_or]
        by_cases hxf : x = first
        · subst hxf; simp [hfl, upd, hx]
        · simp only [hxf, if_false, upd, hx]
          by_cases hxl : x ∈ l
          · simp only [hxl, if_true]
            rw [idxOf_ne (fun h => hx h.symm)]
            congr 1; omega
          · simp [hxl]
    · have hstep : (if i = start ∧ cnt ≠ 0 then upd (upd st first cnt) i 0 else upd st i cnt) = upd st i cnt :=
        if_neg fun h => hs h.1
      rw [hstep]
      have hs' : start ≠ i := fun h => hs h.symm
      have hm : start ∈ i :: l ↔ start ∈ l := by simp [hs']
      simp only [hm]
      by_cases h1 : start ∈ l ∧ x = start
      · rw [if_pos h1, if_pos h1]
      · rw [if_neg h1, if_neg h1]
        by_cases h2 : start ∈ l ∧ x = first
        · rw [if_pos h2, if_pos h2, idxOf_ne hs]
          congr 1; omega
        · rw [if_neg h2, if_neg h2]
          by_cases hx : x = i
          · subst hx; simp [hnd.1, upd]
          · by_cases hxl : x ∈ l
            · simp only [hxl, if_true, List.mem_cons, or_true]
              rw [idxOf_ne (fun h => hx h.symm)]
              congr 1; omega
            · simp [hxl, hx, upd]

theorem number_spec {start first : Bits} {ord : List Bits} (hnd : ord.Nodup) (hs : start ∈ ord) (hf : ord.head? = some first) :
    numberLoop start first ord 0 (fun _ => none) start = some 0 ∧
    (∀ x ∈ ord, ∃ k, k < ord.length ∧ numberLoop start first ord 0 (fun _ => none) x = some k) ∧
    (∀ k, k < ord.length → ∃ x ∈ ord, numberLoop start first ord 0 (fun _ => none) x = some k) ∧
    (∀ x y k, x ∈ ord → y ∈ ord → numberLoop start first ord 0 (fun _ => none) x = some k →
      numberLoop start first ord 0 (fun _ => none) y = some k → x = y) := by
  cases ord with
  | nil => cases hs
  | cons i l =>
    simp at hf; subst hf
    rw [List.nodup_cons] at hnd
    have key : ∀ x, numberLoop start i (i :: l) 0 (fun _ => none) x =
      if start ∈ l ∧ x = start then some 0
      else if start ∈ l ∧ x = i then some (1 + l.idxOf start)
      else if x ∈ l then some (1 + l.idxOf x) else if x = i then some 0 else none := by
      intro x
      rw [numberLoop, numberLoop_spec start i l 1 _ hnd.2 hnd.1 (Nat.le_refl _)]
      simp [upd]
    have idx : ∀ x ∈ l, l.idxOf x < l.length := fun x hx => List.idxOf_lt_length_of_mem hx
    have inj : ∀ x y, x ∈ l → y ∈ l → l.idxOf x = l.idxOf y → x = y := by
      intro x y hx hy h
      have h1 := List.getElem_idxOf (idx x hx)
      have h2 := List.getElem_idxOf (idx y hy)
      rw [← h1, ← h2]; simp only [h]
    by_cases hsl : start ∈ l
    · have hsi : start ≠ i := fun h => hnd.1 (h ▸ hsl)
      simp only [hsl, true_and] at key
      refine ⟨by simp [key], ?_, ?_, ?_⟩
      · intro x hx
        rw [key]
        by_cases h1 : x = start
        · exact ⟨0, by simp, by simp [h1]⟩
        · by_cases h2 : x = i
          · have := idx start hsl
            exact ⟨1 + l.idxOf start, by simp; omega, by simp [h2, hsi.symm]⟩
          · have hxl : x ∈ l := by simpa [h2] using hx
            have := idx x hxl
            exact ⟨1 + l.idxOf x, by simp; omega, by simp [h1, h2, hxl]⟩
      · intro k hk
        by_cases h0 : k = 0
        · subst h0; exact ⟨start, hs, by simp [key]⟩
        · by_cases h1 : k = 1 + l.idxOf start
          · subst h1; exact ⟨i, by simp, by simp [key, hsi.symm]⟩
          · have hk' : k - 1 < l.length := by simp at hk; omega
            have hi : l.idxOf l[k - 1] = k - 1 := hnd.2.idxOf_getElem (k - 1) hk'
            refine ⟨l[k - 1], by simp, ?_⟩
            rw [key, if_neg, if_neg, if_pos (List.getElem_mem hk'), hi]
            · congr 1; omega
            · intro h; exact hnd.1 (h ▸ List.getElem_mem hk')
            · intro h; rw [h] at hi; omega
      · intro x y k hx hy hkx hky
        rw [key] at hkx hky
        have hxl : x ≠ i → x ∈ l := fun h => by simpa [h] using hx
        have hyl : y ≠ i → y ∈ l := fun h => by simpa [h] using hy
        by_cases hx1 : x = start <;> by_cases hy1 : y = start
        · rw [hx1, hy1]
        · rw [if_pos hx1] at hkx; cases hkx
          rw [if_neg hy1] at hky
          by_cases hy2 : y = i
          · rw [if_pos hy2] at hky; simp at hky
          · rw [if_neg hy2, if_pos (hyl hy2)] at hky; simp at hky
        · rw [if_pos hy1] at hky; cases hky
          rw [if_neg hx1] at hkx
          by_cases hx2 : x = i
          · rw [if_pos hx2] at hkx; simp at hkx
          · rw [if_neg hx2, if_pos (hxl hx2)] at hkx; simp at hkx
        · rw [if_neg hx1] at hkx
          rw [if_neg hy1] at hky
          by_cases hx2 : x = i <;> by_cases hy2 : y = i
          · rw [hx2, hy2]
          · rw [if_pos hx2] at hkx
            rw [if_neg hy2, if_pos (hyl hy2)] at hky
            simp at hkx hky
            exact absurd (inj y start (hyl hy2) hsl (by omega)) hy1
          · rw [if_pos hy2] at hky
            rw [if_neg hx2, if_pos (hxl hx2)] at hkx
            simp at hkx hky
            exact absurd (inj x start (hxl hx2) hsl (by omega)) hx1
          · rw [if_neg hx2, if_pos (hxl hx2)] at hkx
            rw [if_neg hy2, if_pos (hyl hy2)] at hky
            simp at hkx hky
            exact inj x y (hxl hx2) (hyl hy2) (by omega)
    · have hsi : start = i := by simpa [hsl] using hs
      subst hsi
      simp only [hsl, false_and, if_false] at key
      refine ⟨by simp [key, hsl], ?_, ?_, ?_⟩
      · intro x hx
        rw [key]
        by_cases h2 : x = start
        · exact ⟨0, by simp, by simp [h2, hsl]⟩
        · have hxl : x ∈ l := by simpa [h2] using hx
          have := idx x hxl
          exact ⟨1 + l.idxOf x, by simp; omega, by simp [hxl]⟩
      · intro k hk
        by_cases h0 : k = 0
        · subst h0; exact ⟨start, by simp, by simp [key, hsl]⟩
        · have hk' : k - 1 < l.length := by simp at hk; omega
          have hi : l.idxOf l[k - 1] = k - 1 := hnd.2.idxOf_getElem (k - 1) hk'
          refine ⟨l[k - 1], by simp, ?_⟩
          rw [key, if_pos (List.getElem_mem hk'), hi]
          congr 1; omega
      · intro x y k hx hy hkx hky
        rw [key] at hkx hky
        by_cases hx2 : x = start <;> by_cases hy2 : y = start
        · rw [hx2, hy2]
        · have hyl : y ∈ l := by simpa [hy2] using hy
          rw [if_neg (hx2 ▸ hsl), if_pos hx2] at hkx
          rw [if_pos hyl] at hky
          simp at hkx hky; omega
        · have hxl : x ∈ l := by simpa [hx2] using hx
          rw [if_neg (hy2 ▸ hsl), if_pos hy2] at hky
          rw [if_pos hxl] at hkx
          simp at hkx hky; omega
        · have hxl : x ∈ l := by simpa [hx2] using hx
          have hyl : y ∈ l := by simpa [hy2] using hy
          rw [if_pos hxl] at hkx
          rw [if_pos hyl] at hky
          simp at hkx hky
          exact inj x y hxl hyl (by omega)

end Verif.Auto
