import Verif.Auto.FilterLemmas

set_option linter.unusedSectionVars false

/-! # Lemmas about states from which no accepting state can be reached -/

namespace Verif.Auto

variable {C : Type} [CharSetLike C]

theorem anyActive_spec {act : Bits} (es : List (C × Nat)) (h : ∀ c j, (c, j) ∈ es → j < act.length) :
    ∃ b, anyActive act es = some b ∧ (b = true ↔ ∃ c j, (c, j) ∈ es ∧ B act j) := by
  induction es with
  | nil => exact ⟨false, rfl, by simp⟩
  | cons e es ih =>
    obtain ⟨c, j⟩ := e
    have hj := h c j List.mem_cons_self
    have hb : act[j]? = some act[j] := List.getElem?_eq_getElem hj
    simp only [anyActive, hb]
    cases hv : act[j] with
    | true =>
      rw [hv] at hb
      exact ⟨true, rfl, by simp; exact ⟨c, j, by simp, hb⟩⟩
    | false =>
      rw [hv] at hb
      obtain ⟨b, h1, h2⟩ := ih fun c j hm => h c j (List.mem_cons_of_mem _ hm)
      refine ⟨b, h1, h2.trans ⟨?_, ?_⟩⟩
      · rintro ⟨c', j', hm, hB⟩; exact ⟨c', j', List.mem_cons_of_mem _ hm, hB⟩
      · rintro ⟨c', j', hm, hB⟩
        rcases List.mem_cons.mp hm with heq | hm
        · simp only [Prod.mk.injEq] at heq
          rw [heq.2] at hB; unfold B at hB; rw [hb] at hB; simp at hB
        · exact ⟨c', j', hm, hB⟩

theorem sweep_spec {rs : Rules C} {N : Nat} (hsz : rs.length = N) (ht : ∀ i c j, HasEdge rs i c j → j < N) (is : List Nat)
    (his : ∀ i ∈ is, i < N) (act : Bits) (ch : Bool) (hl : act.length = N) :
    ∃ act' ch', sweep rs is act ch = some (act', ch') ∧ act'.length = N ∧ (∀ i, B act i → B act' i) ∧
      (∀ i, B act' i → ∃ k, Path (fun _ => true) rs i k ∧ B act k) ∧
      (ch' = false → ch = false ∧ act' = act ∧ ∀ i ∈ is, ∀ c j, HasEdge rs i c j → B act j → B act i) := by
  induction is generalizing act ch with
  | nil => exact ⟨act, ch, rfl, hl, fun _ h => h, fun i h => ⟨i, .refl, h⟩, fun h => ⟨h, rfl, by simp⟩⟩
  | cons i is ih =>
    have hi := his i List.mem_cons_self
    have his' : ∀ i ∈ is, i < N := fun j hj => his j (List.mem_cons_of_mem _ hj)
    have hb : act[i]? = some act[i] := List.getElem?_eq_getElem (by omega)
    have hr : rs[i]? = some rs[i] := List.getElem?_eq_getElem (by omega)
    simp only [sweep, hb]
    cases hv : act[i] with
    | true =>
      rw [hv] at hb
      obtain ⟨act', ch', h1, h2, h3, h4, h5⟩ := ih his' act ch hl
      refine ⟨act', ch', h1, h2, h3, h4, fun h => ⟨(h5 h).1, (h5 h).2.1, fun p hp c j he hB => ?_⟩⟩
      rcases List.mem_cons.mp hp with rfl | hp
      · exact hb
      · exact (h5 h).2.2 p hp c j he hB
    | false =>
      rw [hv] at hb
      obtain ⟨b, b1, b2⟩ := anyActive_spec (act := act) rs[i] (fun c j hm => by have := ht i c j ⟨_, hr, hm⟩; omega)
      simp only [hr, b1]
      cases b with
      | true =>
        obtain ⟨act', ch', h1, h2, h3, h4, h5⟩ := ih his' (act.set i true) true (by simpa using hl)
        have hset := fun k => B_set (i := k) (show i < act.length by omega)
        obtain ⟨c, j, hm, hBj⟩ := b2.mp rfl
        refine ⟨act', ch', h1, h2, fun k hk => h3 k ((hset k).mpr (Or.inl hk)), fun k hk => ?_, fun h => ?_⟩
        · obtain ⟨q, hq, hB⟩ := h4 k hk
          rcases (hset q).mp hB with hB | rfl
          · exact ⟨q, hq, hB⟩
          · exact ⟨j, hq.trans (.step ⟨_, hr, hm⟩ rfl .refl), hBj⟩
        · have := (h5 h).1; cases this
      | false =>
        obtain ⟨act', ch', h1, h2, h3, h4, h5⟩ := ih his' act ch hl
        refine ⟨act', ch', h1, h2, h3, h4, fun h => ⟨(h5 h).1, (h5 h).2.1, fun p hp c j he hB => ?_⟩⟩
        rcases List.mem_cons.mp hp with rfl | hp
        · obtain ⟨es, hes, hm⟩ := he
          rw [hr] at hes; cases hes
          exact absurd (b2.mpr ⟨c, j, hm, hB⟩) (by simp)
        · exact (h5 h).2.2 p hp c j he hB

theorem activeLoop_spec {rs : Rules C} {N : Nat} (hsz : rs.length = N) (ht : ∀ i c j, HasEdge rs i c j → j < N) (act : Bits)
    (hl : act.length = N) :
    ∃ t, activeLoop rs N act = some t ∧ t.length = N ∧ ∀ i, B t i ↔ ∃ k, Path (fun _ => true) rs i k ∧ B act k := by
  obtain ⟨act', ch', h1, h2, h3, h4, h5⟩ := sweep_spec hsz ht (List.range N) (fun i hi => by simpa using hi) act false hl
  have hm := sweep_measure h1
  rw [activeLoop]
  cases ch' with
  | false =>
    refine ⟨act', ?_, h2, fun i => ⟨fun hi => h4 i hi, ?_⟩⟩
    · split
      · rename_i he; rw [h1] at he; cases he
      · rename_i he; rw [h1] at he; cases he
      · rename_i he; rw [h1] at he; cases he; rfl
    · rintro ⟨k, hp, hk⟩
      obtain ⟨_, rfl, hc⟩ := h5 rfl
      induction hp with
      | refl => exact hk
      | @step p c j k e _ _ ih =>
        exact hc p (by have := e.lt; simp; omega) c j e (ih hk)
  | true =>
    have hdec := hm.2 rfl rfl
    obtain ⟨t, g1, g2, g3⟩ := activeLoop_spec hsz ht act' h2
    refine ⟨t, ?_, g2, fun i => ?_⟩
    · split
      · rename_i he; rw [h1] at he; cases he
      · rename_i he; rw [h1] at he; cases he; exact g1
      · rename_i he; rw [h1] at he; cases he
    · rw [g3]
      constructor
      · rintro ⟨k, hp, hk⟩
        obtain ⟨q, hq, hB⟩ := h4 k hk
        exact ⟨q, hp.trans hq, hB⟩
      · rintro ⟨k, hp, hk⟩
        exact ⟨k, hp, h3 k hk⟩
termination_by act.count false

theorem eliminateInactive_spec {d : DFA C} (hd : d.Wf) :
    ∃ d', d.eliminateInactive = some d' ∧ d'.Wf ∧ d'.numActions = d.numActions ∧ (∀ a ∈ d'.accept, a ∈ d.accept) ∧
      (NoEmpty d.rules → NoEmpty d'.rules) ∧
      (∀ i, i < d'.nstates → ∃ k a, Path (fun _ => true) d'.rules i k ∧ d'.accept[k]? = some a ∧ a ≠ 0) ∧
      ((∀ i, i < d.nstates → Path (fun _ => true) d.rules 0 i) →
        (∀ i, i < d'.nstates → Path (fun _ => true) d'.rules 0 i) ∧
        (∀ w a, a ≠ 0 → (d'.Ends w a ↔ d.Ends w a)) ∧
        (∀ w a, d'.Ends w a → d.Ends w a)) := by
  have hacc := hd.accept
  obtain ⟨t, h1, h2, h3⟩ := activeLoop_spec hd.rules hd.target ((d.accept.take d.nstates).map (· != 0)) (by simp; omega)
  have hB : ∀ k, B ((d.accept.take d.nstates).map (· != 0)) k ↔ ∃ a, d.accept[k]? = some a ∧ a ≠ 0 := by
    intro k
    unfold B
    rw [List.getElem?_map, List.take_of_length_le (by omega)]
    cases d.accept[k]? <;> simp
  obtain ⟨d', f1, f2⟩ := filterStates_spec hd h2
  have hsurj : ∀ i', i' < d'.nstates → ∃ i, B t i ∧ rank t i = i' := by
    intro i' hi'
    rw [f2.nstates] at hi'
    obtain ⟨i, _, hBi, hri⟩ := rank_surj (by omega) hi'
    exact ⟨i, hBi, hri⟩
  have hfwd : ∀ i j, Path (fun _ => true) d.rules i j → B t j → B t i := by
    intro i j hp hj
    obtain ⟨k, hk, hBk⟩ := (h3 j).mp hj
    exact (h3 i).mpr ⟨k, hp.trans hk, hBk⟩
  have hpath : ∀ i j, Path (fun _ => true) d.rules i j → B t j → Path (fun _ => true) d'.rules (rank t i) (rank t j) := by
    intro i j hp
    induction hp with
    | refl => intro _; exact .refl
    | @step i c j k e he hp ih =>
      intro hk
      have hj := hfwd _ _ hp hk
      have hi := hfwd _ _ (.step e he hp) hk
      exact .step ((f2.edge _ _ _).mpr ⟨i, j, hi, hj, rfl, rfl, e⟩) he (ih hk)
  refine ⟨d', ?_, f2.wf, ?_, ?_, ?_, ?_, ?_⟩
  · simp only [DFA.eliminateInactive, if_neg (show ¬ d.accept.length < d.nstates by omega), h1, Option.bind_eq_bind, Option.bind_some]
    exact f1
  · simp only [DFA.filterStates, Option.bind_eq_bind] at f1
    cases hk : compactLoop t (List.range d.nstates) ⟨0, d.rules, d.accept, List.replicate d.nstates 0⟩ with
    | none => rw [hk] at f1; simp at f1
    | some k =>
      rw [hk] at f1
      simp only [Option.bind_some] at f1
      cases hr : (k.rules.take k.curr).mapM (keepRules t k.mapping) with
      | none => rw [hr] at f1; simp at f1
      | some r => rw [hr] at f1; simp at f1; rw [← f1]
  · intro a ha
    obtain ⟨i', hi'⟩ := List.mem_iff_getElem?.mp ha
    have hlt := (List.getElem?_eq_some_iff.mp hi').1
    rw [f2.wf.accept] at hlt
    obtain ⟨i, hBi, hri⟩ := hsurj i' hlt
    rw [← hri, f2.accept i hBi] at hi'
    exact List.mem_of_getElem? hi'
  · intro hne i c j he hc
    obtain ⟨_, _, _, _, _, _, e⟩ := (f2.edge _ _ _).mp he
    exact hne _ _ _ e hc
  · intro i' hi'
    obtain ⟨i, hBi, rfl⟩ := hsurj i' hi'
    obtain ⟨k, hk, hBk⟩ := (h3 i).mp hBi
    have hBk' : B t k := (h3 k).mpr ⟨k, .refl, hBk⟩
    obtain ⟨a, ha, ha0⟩ := (hB k).mp hBk
    exact ⟨rank t k, a, hpath i k hk hBk', by rw [f2.accept k hBk', ha], ha0⟩
  · intro hreach
    have h0 : ∀ i, B t i → B t 0 := fun i hi => hfwd 0 i (hreach i (by have := hi.lt; omega)) hi
    have hbk : ∀ w a, d'.Ends w a → d.Ends w a := by
      rintro w a ⟨q', hr, ha⟩
      have hlt : q' < d'.nstates := by
        have := (List.getElem?_eq_some_iff.mp ha).1
        rw [f2.wf.accept] at this; exact this
      obtain ⟨i, hBi, _⟩ := hsurj q' hlt
      rw [← rank_zero t] at hr
      obtain ⟨q, rfl, hBq, hr⟩ := f2.run (h0 i hBi) hr
      exact ⟨q, hr, by rw [← f2.accept q hBq, ha]⟩
    refine ⟨?_, fun w a ha0 => ⟨hbk w a, ?_⟩, hbk⟩
    · intro i' hi'
      obtain ⟨i, hBi, rfl⟩ := hsurj i' hi'
      have := hpath 0 i (hreach i (by have := hBi.lt; omega)) hBi
      rwa [rank_zero] at this
    · rintro ⟨q, hr, ha⟩
      have hBq : B t q := (h3 q).mpr ⟨q, .refl, (hB q).mpr ⟨a, ha, ha0⟩⟩
      refine ⟨rank t q, ?_, by rw [f2.accept q hBq, ha]⟩
      have := f2.run_back hr fun p _ ⟨v, hv⟩ => hfwd p q (run_path hv) hBq
      rwa [rank_zero] at this

theorem eliminateInactive_one {d d' : DFA C} (hd : d.Wf) (h : d.eliminateInactive = some d') (ho : OnePer d.rules) :
    OnePer d'.rules := by
  have hacc := hd.accept
  obtain ⟨t, h1, h2, h3⟩ := activeLoop_spec hd.rules hd.target ((d.accept.take d.nstates).map (· != 0)) (by simp; omega)
  obtain ⟨d2, f1, f2⟩ := filterStates_spec hd h2
  have hlen : ¬ (d.accept.length < d.nstates) := by omega
  simp only [DFA.eliminateInactive, h1, Option.bind_eq_bind, Option.bind_some, f1] at h
  first
  | (cases h; exact f2.one ho)
  | (split at h <;> first | (cases h; exact f2.one ho) | omega)

end Verif.Auto
