import Verif.Auto.InactiveLemmas

set_option linter.unusedSectionVars false

/-! # Lemmas about `DFA::nfa` and the complement -/

namespace Verif.Auto

variable {C : Type} [CharSetLike C]

/-! ### Runs without epsilon transitions -/

def EpsFree (rs : Rules C) : Prop := ∀ i c j, HasEdge rs i c j → CharSetLike.isEps c = false

theorem run_nil_iff {rs : Rules C} (h : EpsFree rs) {i k : Nat} : Run rs i [] k ↔ i = k :=
  ⟨run_nil_noEps h, fun h => h ▸ .nil⟩

theorem run_cons_iff {rs : Rules C} (h : EpsFree rs) {i k x : Nat} {w : List Nat} :
    Run rs i (x :: w) k ↔ ∃ c j, HasEdge rs i c j ∧ CharSetLike.accepts c x = true ∧ Run rs j w k := by
  constructor
  · intro hr
    cases hr with
    | eps e he _ => rw [h _ _ _ e] at he; cases he
    | chr e _ ha hr => exact ⟨_, _, e, ha, hr⟩
  · rintro ⟨c, j, e, ha, hr⟩
    exact .chr e (h _ _ _ e) ha hr

theorem run_words {rs : Rules C} {i k : Nat} {w : List Nat} (h : Run rs i w k) : ∀ x ∈ w, x < CharSetLike.size C := by
  induction h with
  | nil => simp
  | eps _ _ _ ih => exact ih
  | chr _ _ ha _ ih =>
    intro y hy
    rcases List.mem_cons.mp hy with rfl | hy
    · exact CharSetLike.accepts_lt _ _ ha
    · exact ih y hy

theorem DFA.Wf.run_det {d : DFA C} (hd : d.Wf) {w : List Nat} : ∀ {i p q : Nat}, Run d.rules i w p → Run d.rules i w q → p = q := by
  induction w with
  | nil =>
    intro i p q h1 h2
    rw [run_nil_iff hd.noEps] at h1 h2; omega
  | cons x w ih =>
    intro i p q h1 h2
    rw [run_cons_iff hd.noEps] at h1 h2
    obtain ⟨c, j, e, ha, hr⟩ := h1
    obtain ⟨c', j', e', ha', hr'⟩ := h2
    have := hd.det _ _ _ _ _ _ e e' ha ha'
    subst this
    exact ih hr hr'

theorem DFA.Wf.ends_det {d : DFA C} (hd : d.Wf) {w : List Nat} {a b : Nat} (h1 : d.Ends w a) (h2 : d.Ends w b) : a = b := by
  obtain ⟨p, hp, ha⟩ := h1
  obtain ⟨q, hq, hb⟩ := h2
  have := hd.run_det hp hq
  subst this
  rw [ha] at hb; exact Option.some.inj hb

theorem DFA.Wf.run_lt {d : DFA C} (hd : d.Wf) {i k : Nat} {w : List Nat} (h : Run d.rules i w k) (hi : i < d.nstates) : k < d.nstates := by
  induction h with
  | nil => exact hi
  | eps e _ _ ih => exact ih (hd.target _ _ _ e)
  | chr e _ _ _ ih => exact ih (hd.target _ _ _ e)

/-! ### `nfa()` -/

theorem nfaLoop_spec (N : Nat) (l : List (Nat × Nat)) : ∀ (ns : Nat) (rs : Rules C), N ≤ ns → rs.length = ns →
    (∀ e ∈ l, e.1 < N) →
    ∃ ns' rs', nfaLoop N l ns rs = some (ns', rs') ∧ rs'.length = ns' ∧ ns ≤ ns' ∧ (∀ e ∈ l, N + e.2 ≤ ns') ∧
      (ns' = ns ∨ ∃ e ∈ l, ns' = N + e.2) ∧
      ∀ p c j, HasEdge rs' p c j ↔ HasEdge rs p c j ∨ (c = CharSetLike.eps ∧ ∃ a, (p, a + 1) ∈ l ∧ j = N + a) := by
  induction l with
  | nil => intro ns rs h1 h2 _; exact ⟨ns, rs, rfl, h2, Nat.le_refl _, by simp, Or.inl rfl, by simp⟩
  | cons e l ih =>
    intro ns rs h1 h2 h3
    obtain ⟨i, a⟩ := e
    have hi : i < N := h3 _ List.mem_cons_self
    have h3' : ∀ e ∈ l, e.1 < N := fun e he => h3 e (List.mem_cons_of_mem _ he)
    -- the resized vector
    generalize hns : (if ns < N + a then N + a else ns) = ns1
    generalize hrs : (if ns < N + a then resize rs (N + a) else rs) = rs1
    have k1 : ns ≤ ns1 ∧ N + a ≤ ns1 ∧ (ns1 = ns ∨ ns1 = N + a) := by rw [← hns]; split <;> omega
    have k2 : rs1.length = ns1 := by
      rw [← hns, ← hrs]; split
      · exact resize_length _ _
      · exact h2
    have k3 : ∀ p c j, HasEdge rs1 p c j ↔ HasEdge rs p c j := by
      intro p c j
      rw [← hrs]; split
      · rw [hasEdge_resize]
        exact ⟨fun h => h.2, fun h => ⟨by have := h.lt; omega, h⟩⟩
      · rfl
    simp only [nfaLoop, hns, hrs]
    by_cases ha : a = 0
    · rw [if_pos ha]
      obtain ⟨ns', rs', g1, g2, g3, g4, g5, g6⟩ := ih ns1 rs1 (by omega) k2 h3'
      refine ⟨ns', rs', g1, g2, by omega, ?_, ?_, ?_⟩
      · intro e he
        rcases List.mem_cons.mp he with rfl | he
        · simp only; omega
        · exact g4 e he
      · rcases g5 with g5 | ⟨e, he, g5⟩
        · rcases k1.2.2 with h | h
          · left; omega
          · right; exact ⟨(i, a), List.mem_cons_self, by simp only; omega⟩
        · right; exact ⟨e, List.mem_cons_of_mem _ he, g5⟩
      · intro p c j
        rw [g6, k3]
        constructor
        · rintro (h | ⟨hc, b, hb, hj⟩)
          · exact Or.inl h
          · exact Or.inr ⟨hc, b, List.mem_cons_of_mem _ hb, hj⟩
        · rintro (h | ⟨hc, b, hb, hj⟩)
          · exact Or.inl h
          · rcases List.mem_cons.mp hb with heq | hb
            · simp only [Prod.mk.injEq] at heq; omega
            · exact Or.inr ⟨hc, b, hb, hj⟩
    · rw [if_neg ha]
      obtain ⟨rs2, p1, p2, p3⟩ := pushAt_eq (rs := rs1) (i := i) (by omega) (CharSetLike.eps, N + a - 1)
      simp only [p1, Option.bind_eq_bind, Option.bind_some]
      obtain ⟨ns', rs', g1, g2, g3, g4, g5, g6⟩ := ih ns1 rs2 (by omega) (by omega) h3'
      refine ⟨ns', rs', g1, g2, by omega, ?_, ?_, ?_⟩
      · intro e he
        rcases List.mem_cons.mp he with rfl | he
        · simp only; omega
        · exact g4 e he
      · rcases g5 with g5 | ⟨e, he, g5⟩
        · rcases k1.2.2 with h | h
          · left; omega
          · right; exact ⟨(i, a), List.mem_cons_self, by simp only; omega⟩
        · right; exact ⟨e, List.mem_cons_of_mem _ he, g5⟩
      · intro p c j
        rw [g6, p3, k3]
        constructor
        · rintro ((h | ⟨rfl, heq⟩) | ⟨hc, b, hb, hj⟩)
          · exact Or.inl h
          · simp only [Prod.mk.injEq] at heq
            obtain ⟨a', rfl⟩ : ∃ a', a = a' + 1 := ⟨a - 1, by omega⟩
            exact Or.inr ⟨heq.1, a', List.mem_cons_self, by omega⟩
          · exact Or.inr ⟨hc, b, List.mem_cons_of_mem _ hb, hj⟩
        · rintro (h | ⟨hc, b, hb, hj⟩)
          · exact Or.inl (Or.inl h)
          · rcases List.mem_cons.mp hb with heq | hb
            · simp only [Prod.mk.injEq] at heq
              exact Or.inl (Or.inr ⟨heq.1, by simp only [Prod.mk.injEq]; exact ⟨hc, by omega⟩⟩)
            · exact Or.inr ⟨hc, b, hb, hj⟩

theorem nfa_spec {d : DFA C} (hd : d.Wf) :
    ∃ n, d.nfa = some n ∧ n.WfM ∧ n.accept < n.nstates ∧ (∀ k w, n.LangAt k w ↔ d.Ends w (k + 1)) ∧
      ((∀ a ∈ d.accept, a ≤ 1) → n.Wf) ∧ (NoEmpty d.rules → NoEmpty n.rules) ∧ (d.nstates = 0 → n = .empty) ∧
      (0 < d.nstates → n.accept = d.nstates ∧ ∀ p c j, HasEdge n.rules p c j ↔ HasEdge d.rules p c j ∨
        (c = CharSetLike.eps ∧ ∃ a, d.accept[p]? = some (a + 1) ∧ j = d.nstates + a)) := by
  by_cases h0 : d.nstates = 0
  · refine ⟨.empty, by rw [DFA.nfa, if_pos h0], wf_empty.toM, by simp [NFA.empty], fun k w => ?_, fun _ => wf_empty, fun _ => ?_,
      fun _ => rfl, fun h => absurd h0 (by omega)⟩
    · constructor
      · intro h; exact absurd ⟨k, h⟩ (lang_empty w)
      · rintro ⟨q, _, hq⟩
        have := (List.getElem?_eq_some_iff.mp hq).1
        rw [hd.accept] at this; omega
    · intro i c j h; simp [NFA.empty, hasEdge_cons, hasEdge_nil] at h
  · have hacc := hd.accept
    have hmem : ∀ p a, (p, a) ∈ (List.range d.nstates).zip d.accept ↔ d.accept[p]? = some a := by
      intro p a
      constructor
      · intro h
        obtain ⟨i, hi⟩ := List.mem_iff_getElem?.mp h
        rw [List.getElem?_zip_eq_some] at hi
        obtain ⟨hi1, hi2⟩ := hi
        rw [List.getElem?_range] at hi1
        · cases hi1; exact hi2
        · have := (List.getElem?_eq_some_iff.mp hi2).1; omega
      · intro h
        have := (List.getElem?_eq_some_iff.mp h).1
        refine List.mem_iff_getElem?.mpr ⟨p, ?_⟩
        rw [List.getElem?_zip_eq_some]
        exact ⟨List.getElem?_range (by omega), h⟩
    obtain ⟨ns, rs, g1, g2, g3, g4, g5, g6⟩ := nfaLoop_spec d.nstates ((List.range d.nstates).zip d.accept) d.nstates d.rules
      (Nat.le_refl _) hd.rules (fun e he => by
        obtain ⟨p, a⟩ := e
        have := (List.getElem?_eq_some_iff.mp ((hmem p a).mp he)).1
        simp only; omega)
    simp only [hmem] at g6
    have key : ∃ n, d.nfa = some n ∧ n.nstates = max ns (d.nstates + 1) ∧ n.accept = d.nstates ∧ n.rules.length = n.nstates ∧
        ∀ p c j, HasEdge n.rules p c j ↔ HasEdge rs p c j := by
      rw [DFA.nfa, if_neg h0, if_neg (by omega)]
      simp only [g1, Option.bind_eq_bind, Option.bind_some]
      by_cases he : ns = d.nstates
      · rw [if_pos he]
        refine ⟨_, rfl, by simp only; omega, rfl, by simp; omega, fun p c j => ?_⟩
        rw [hasEdge_append]
        constructor
        · rintro (h | ⟨_, h⟩)
          · exact h
          · rw [hasEdge_cons] at h
            simp [hasEdge_nil] at h
        · exact Or.inl
      · rw [if_neg he]
        exact ⟨_, rfl, by simp only; omega, rfl, g2, fun p c j => Iff.rfl⟩
    obtain ⟨n, n1, n2, n3, n4, n5⟩ := key
    have ed : ∀ p c j, HasEdge n.rules p c j ↔ HasEdge d.rules p c j ∨
        (c = CharSetLike.eps ∧ ∃ a, d.accept[p]? = some (a + 1) ∧ j = d.nstates + a) := fun p c j => (n5 p c j).trans (g6 p c j)
    have out : ∀ p c j, d.nstates ≤ p → ¬ HasEdge n.rules p c j := by
      intro p c j hp h
      rcases (ed p c j).mp h with h | ⟨_, a, h, _⟩
      · have := h.lt; have := hd.rules; omega
      · have := (List.getElem?_eq_some_iff.mp h).1; omega
    have run1 : ∀ {i w q}, Run n.rules i w q → i < d.nstates →
        (q < d.nstates ∧ Run d.rules i w q) ∨ ∃ p a, Run d.rules i w p ∧ d.accept[p]? = some (a + 1) ∧ q = d.nstates + a := by
      intro i w q h
      induction h with
      | nil => intro hi; exact Or.inl ⟨hi, .nil⟩
      | @eps i c j w k e he hr ih =>
        intro hi
        rcases (ed _ _ _).mp e with e | ⟨rfl, a, ha, rfl⟩
        · rw [hd.noEps _ _ _ e] at he; cases he
        · right
          cases hr with
          | nil => exact ⟨i, a, .nil, ha, rfl⟩
          | eps e _ _ => exact absurd e (out _ _ _ (by omega))
          | chr e _ _ _ => exact absurd e (out _ _ _ (by omega))
      | @chr i c j x w k e he ha hr ih =>
        intro hi
        rcases (ed _ _ _).mp e with e | ⟨rfl, a, _, _⟩
        · rcases ih (hd.target _ _ _ e) with ⟨h1, h2⟩ | ⟨p, a, h1, h2⟩
          · exact Or.inl ⟨h1, .chr e he ha h2⟩
          · exact Or.inr ⟨p, a, .chr e he ha h1, h2⟩
        · rw [CharSetLike.isEps_eps] at he; cases he
    have run2 : ∀ {i w q}, Run d.rules i w q → Run n.rules i w q := by
      intro i w q h
      induction h with
      | nil => exact .nil
      | eps e he _ ih => exact .eps ((ed _ _ _).mpr (Or.inl e)) he ih
      | chr e he ha _ ih => exact .chr ((ed _ _ _).mpr (Or.inl e)) he ha ih
    have hbound : ∀ (p a : Nat), d.accept[p]? = some a → d.nstates + a ≤ n.nstates := by
      intro p a h
      have := g4 (p, a) ((hmem p a).mpr h)
      simp only at this; omega
    have tgt : ∀ i c j, HasEdge n.rules i c j → i < n.nstates ∧ j < n.nstates := by
      intro i c j h
      have := h.lt
      refine ⟨by omega, ?_⟩
      rcases (ed _ _ _).mp h with e | ⟨_, a, e, rfl⟩
      · have := hd.target _ _ _ e; omega
      · have := hbound i _ e; omega
    have hgo : (∀ a ∈ d.accept, a ≤ 1) → ns ≤ d.nstates + 1 := by
      intro hone
      rcases g5 with h | ⟨e, he, h⟩
      · omega
      · obtain ⟨p, a⟩ := e
        have := hone a (List.mem_of_getElem? ((hmem p a).mp he))
        simp only at h; omega
    clear g5
    refine ⟨n, n1, ⟨by omega, by omega, by omega, tgt⟩, by omega, fun k w => ?_, fun hone => ?_, fun hne => ?_,
      fun h => absurd h h0, fun _ => ⟨n3, ed⟩⟩
    · constructor
      · rintro ⟨hk, hr⟩
        rcases run1 hr (by omega) with ⟨h, _⟩ | ⟨p, a, h1, h2, h3⟩
        · omega
        · have : a = k := by omega
          subst this; exact ⟨p, h1, h2⟩
      · rintro ⟨q, hr, ha⟩
        refine ⟨by have := hbound q _ ha; omega, ?_⟩
        rw [n3]
        exact (run2 hr).epsStep ((ed _ _ _).mpr (Or.inr ⟨rfl, k, ha, rfl⟩)) CharSetLike.isEps_eps
    · refine ⟨?_, by omega, tgt⟩
      have := hgo hone; omega
    · intro i c j h hc
      rcases (ed _ _ _).mp h with h | ⟨rfl, _⟩
      · exact hne _ _ _ h hc
      · rw [CharSetLike.isEps_eps] at hc; cases hc

/-! ### The complement -/

theorem restSet_spec (es : List (C × Nat)) (hes : ∀ e ∈ es, CharSetLike.isEps e.1 = false) (s : C) (hs : CharSetLike.isEps s = false) :
    CharSetLike.isEps (es.foldl (fun s e => CharSetLike.interNeg s e.1) s) = false ∧
    ∀ x, CharSetLike.accepts (es.foldl (fun s e => CharSetLike.interNeg s e.1) s) x = true ↔
      CharSetLike.accepts s x = true ∧ ∀ e ∈ es, CharSetLike.accepts e.1 x = false := by
  induction es generalizing s with
  | nil => simp [hs]
  | cons e es ih =>
    have he := hes e List.mem_cons_self
    obtain ⟨h1, h2⟩ := ih (fun e' h => hes e' (List.mem_cons_of_mem _ h)) (CharSetLike.interNeg s e.1) (CharSetLike.interNeg_eps _ _ hs he)
    refine ⟨h1, fun x => ?_⟩
    rw [List.foldl_cons, h2, CharSetLike.accepts_interNeg _ _ _ he]
    simp only [Bool.and_eq_true, Bool.not_eq_true', List.mem_cons, forall_eq_or_imp]
    constructor
    · rintro ⟨⟨a, b⟩, c⟩; exact ⟨a, b, c⟩
    · rintro ⟨a, b, c⟩; exact ⟨⟨a, b⟩, c⟩

theorem complete_edge {d : DFA C} (i : Nat) (c : C) (j : Nat) :
    HasEdge d.complete.rules i c j ↔ ∃ es, (d.rules ++ [[(CharSetLike.full, d.nstates)]])[i]? = some es ∧
      ((c, j) ∈ es ∨ (CharSetLike.empty (restSet es) = false ∧ c = restSet es ∧ j = d.nstates)) := by
  simp only [DFA.complete, HasEdge, List.getElem?_map, Option.map_eq_some_iff]
  constructor
  · rintro ⟨_, ⟨es, h, rfl⟩, hm⟩
    refine ⟨es, h, ?_⟩
    split at hm
    · exact Or.inl hm
    · rename_i he
      rcases List.mem_append.mp hm with hm | hm
      · exact Or.inl hm
      · simp at hm
        exact Or.inr ⟨by simpa using he, hm⟩
  · rintro ⟨es, h, hm⟩
    refine ⟨_, ⟨es, h, rfl⟩, ?_⟩
    rcases hm with hm | ⟨h1, rfl, rfl⟩
    · split
      · exact hm
      · exact List.mem_append_left _ hm
    · rw [if_neg (by simp [h1])]
      simp

theorem complete_spec {d : DFA C} (hd : d.Wf) (h1 : 0 < d.nstates) (hact : 1 ≤ d.numActions) :
    d.complete.Wf ∧ (∀ a ∈ d.complete.accept, a ≤ 1) ∧
      ∀ w, d.complete.Ends w 1 ↔ (∀ x ∈ w, x < CharSetLike.size C) ∧ ¬ d.Lang w := by
  have hrl := hd.rules
  have hget : ∀ i es, (d.rules ++ [[(CharSetLike.full, d.nstates)]])[i]? = some es ↔
      d.rules[i]? = some es ∨ (i = d.nstates ∧ es = [(CharSetLike.full, d.nstates)]) := by
    intro i es
    by_cases hi : i < d.nstates
    · rw [List.getElem?_append_left (by omega)]
      constructor
      · exact Or.inl
      · rintro (h | h)
        · exact h
        · omega
    · rw [List.getElem?_append_right (by omega), hrl]
      have hn : d.rules[i]? = none := List.getElem?_eq_none (by omega)
      rw [hn]
      by_cases he : i = d.nstates
      · subst he; simp [eq_comm]
      · constructor
        · intro h
          have := (List.getElem?_eq_some_iff.mp h).1
          simp at this; omega
        · rintro (h | h)
          · cases h
          · omega
  have hes : ∀ (i : Nat) (es : List (C × Nat)), (d.rules ++ [[(CharSetLike.full, d.nstates)]])[i]? = some es → ∀ e ∈ es, CharSetLike.isEps e.1 = false := by
    intro i es h e he
    rcases (hget i es).mp h with h | ⟨_, rfl⟩
    · exact hd.noEps i e.1 e.2 ⟨es, h, he⟩
    · simp at he; subst he; exact CharSetLike.full_eps
  have hrest : ∀ (i : Nat) (es : List (C × Nat)), (d.rules ++ [[(CharSetLike.full, d.nstates)]])[i]? = some es →
      CharSetLike.isEps (restSet es) = false ∧ ∀ x, CharSetLike.accepts (restSet es) x = true ↔
        x < CharSetLike.size C ∧ ∀ e ∈ es, CharSetLike.accepts e.1 x = false := by
    intro i es h
    obtain ⟨a, b⟩ := restSet_spec es (hes i es h) CharSetLike.full CharSetLike.full_eps
    refine ⟨a, fun x => ?_⟩
    have := b x
    rw [CharSetLike.accepts_full] at this
    simpa [restSet] using this
  have hwf : d.complete.Wf := by
    refine ⟨by simp [DFA.complete]; omega, by simp [DFA.complete, hd.accept], ?_, ?_, ?_, ?_⟩
    · intro i c j h
      show j < d.nstates + 1
      obtain ⟨es, he, hm⟩ := (complete_edge i c j).mp h
      rcases hm with hm | ⟨_, _, rfl⟩
      · rcases (hget i es).mp he with he | ⟨_, rfl⟩
        · have := hd.target i c j ⟨es, he, hm⟩; omega
        · simp at hm; omega
      · omega
    · intro i c j h
      obtain ⟨es, he, hm⟩ := (complete_edge i c j).mp h
      rcases hm with hm | ⟨_, rfl, _⟩
      · exact hes i es he _ hm
      · exact (hrest i es he).1
    · intro i c j c' j' y h h' hy hy'
      obtain ⟨es, he, hm⟩ := (complete_edge i c j).mp h
      obtain ⟨es', he', hm'⟩ := (complete_edge i c' j').mp h'
      rw [he] at he'; cases he'
      rcases hm with hm | ⟨_, rfl, rfl⟩ <;> rcases hm' with hm' | ⟨_, rfl, rfl⟩
      · rcases (hget i es).mp he with he | ⟨_, rfl⟩
        · exact hd.det i c j c' j' y ⟨es, he, hm⟩ ⟨es, he, hm'⟩ hy hy'
        · simp at hm hm'; omega
      · have := (((hrest i es he).2 y).mp hy').2 _ hm
        simp only at this; rw [hy] at this; cases this
      · have := (((hrest i es he).2 y).mp hy).2 _ hm'
        simp only at this; rw [hy'] at this; cases this
      · rfl
    · intro a ha
      show a ≤ d.numActions
      simp only [DFA.complete, List.mem_append, List.mem_map, List.mem_singleton] at ha
      rcases ha with ⟨b, _, rfl⟩ | rfl
      · split <;> omega
      · omega
  have hone : ∀ a ∈ d.complete.accept, a ≤ 1 := by
    intro a ha
    simp only [DFA.complete, List.mem_append, List.mem_map, List.mem_singleton] at ha
    rcases ha with ⟨b, _, rfl⟩ | rfl
    · split <;> omega
    · omega
  -- the sink
  have sink : ∀ w q, Run d.complete.rules d.nstates w q ↔ q = d.nstates ∧ ∀ x ∈ w, x < CharSetLike.size C := by
    intro w
    induction w with
    | nil => intro q; rw [run_nil_iff hwf.noEps]; simp [eq_comm]
    | cons x w ih =>
      intro q
      rw [run_cons_iff hwf.noEps]
      constructor
      · rintro ⟨c, j, he, ha, hr⟩
        have hj : j = d.nstates := by
          obtain ⟨es, he, hm⟩ := (complete_edge _ c j).mp he
          rcases hm with hm | ⟨_, _, h⟩
          · rcases (hget _ es).mp he with he | ⟨_, rfl⟩
            · have := (List.getElem?_eq_some_iff.mp he).1; omega
            · simp at hm; exact hm.2
          · exact h
        subst hj
        obtain ⟨h, h'⟩ := (ih q).mp hr
        exact ⟨h, fun y hy => by
          rcases List.mem_cons.mp hy with rfl | hy
          · exact CharSetLike.accepts_lt _ _ ha
          · exact h' y hy⟩
      · rintro ⟨rfl, h⟩
        refine ⟨CharSetLike.full, d.nstates, (complete_edge _ _ _).mpr ⟨_, (hget _ _).mpr (Or.inr ⟨rfl, rfl⟩), Or.inl (by simp)⟩, ?_,
          (ih _).mpr ⟨rfl, fun y hy => h y (List.mem_cons_of_mem _ hy)⟩⟩
        rw [CharSetLike.accepts_full]; simpa using h x List.mem_cons_self
  have main : ∀ w i q, i < d.nstates → (Run d.complete.rules i w q ↔ (q < d.nstates ∧ Run d.rules i w q) ∨
      (q = d.nstates ∧ (∀ x ∈ w, x < CharSetLike.size C) ∧ ¬ ∃ p, Run d.rules i w p)) := by
    intro w
    induction w with
    | nil =>
      intro i q hi
      rw [run_nil_iff hwf.noEps, run_nil_iff hd.noEps]
      constructor
      · rintro rfl; exact Or.inl ⟨hi, rfl⟩
      · rintro (⟨_, h⟩ | ⟨_, _, h⟩)
        · exact h
        · exact absurd ⟨i, .nil⟩ h
    | cons x w ih =>
      intro i q hi
      have hri : d.rules[i]? = some d.rules[i] := List.getElem?_eq_getElem (by omega)
      have hri' := (hget i d.rules[i]).mpr (Or.inl hri)
      rw [run_cons_iff hwf.noEps]
      constructor
      · rintro ⟨c, j, he, ha, hr⟩
        obtain ⟨es, hes', hm⟩ := (complete_edge i c j).mp he
        rw [hri'] at hes'; cases hes'
        rcases hm with hm | ⟨_, rfl, rfl⟩
        · have hE : HasEdge d.rules i c j := ⟨_, hri, hm⟩
          rcases (ih j q (hd.target i c j hE)).mp hr with ⟨h, h'⟩ | ⟨h, h', hn⟩
          · exact Or.inl ⟨h, .chr hE (hd.noEps _ _ _ hE) ha h'⟩
          · refine Or.inr ⟨h, ?_, ?_⟩
            · intro y hy
              rcases List.mem_cons.mp hy with rfl | hy
              · exact CharSetLike.accepts_lt _ _ ha
              · exact h' y hy
            · rintro ⟨p, hp⟩
              rw [run_cons_iff hd.noEps] at hp
              obtain ⟨c', j', he', ha', hr'⟩ := hp
              have := hd.det _ _ _ _ _ _ hE he' ha ha'
              subst this
              exact hn ⟨p, hr'⟩
        · obtain ⟨hx, hno⟩ := ((hrest i _ hri').2 x).mp ha
          obtain ⟨h, h'⟩ := (sink w q).mp hr
          refine Or.inr ⟨h, ?_, ?_⟩
          · intro y hy
            rcases List.mem_cons.mp hy with rfl | hy
            · exact hx
            · exact h' y hy
          · rintro ⟨p, hp⟩
            rw [run_cons_iff hd.noEps] at hp
            obtain ⟨c', j', ⟨es, hes', hm⟩, ha', _⟩ := hp
            rw [hri] at hes'; cases hes'
            have := hno _ hm
            simp only at this; rw [ha'] at this; cases this
      · rintro (⟨hq, hr⟩ | ⟨rfl, hw, hn⟩)
        · rw [run_cons_iff hd.noEps] at hr
          obtain ⟨c, j, hE, ha, hr⟩ := hr
          obtain ⟨es, hes', hm⟩ := hE
          exact ⟨c, j, (complete_edge i c j).mpr ⟨es, (hget _ _).mpr (Or.inl hes'), Or.inl hm⟩, ha,
            (ih j q (hd.target i c j ⟨es, hes', hm⟩)).mpr (Or.inl ⟨hq, hr⟩)⟩
        · by_cases hex : ∃ c j, HasEdge d.rules i c j ∧ CharSetLike.accepts c x = true
          · obtain ⟨c, j, hE, ha⟩ := hex
            obtain ⟨es, hes', hm⟩ := hE
            have hE : HasEdge d.rules i c j := ⟨es, hes', hm⟩
            refine ⟨c, j, (complete_edge i c j).mpr ⟨es, (hget _ _).mpr (Or.inl hes'), Or.inl hm⟩, ha,
              (ih j _ (hd.target i c j hE)).mpr (Or.inr ⟨rfl, fun y hy => hw y (List.mem_cons_of_mem _ hy), ?_⟩)⟩
            rintro ⟨p, hp⟩
            exact hn ⟨p, .chr hE (hd.noEps _ _ _ hE) ha hp⟩
          · have hacc : CharSetLike.accepts (restSet d.rules[i]) x = true := by
              refine ((hrest i _ hri').2 x).mpr ⟨hw x List.mem_cons_self, fun e he => ?_⟩
              cases hv : CharSetLike.accepts e.1 x
              · rfl
              · exact absurd ⟨e.1, e.2, ⟨_, hri, he⟩, hv⟩ hex
            exact ⟨_, _, (complete_edge i _ _).mpr ⟨_, hri', Or.inr ⟨not_empty_of_accepts hacc, rfl, rfl⟩⟩, hacc,
              (sink w _).mpr ⟨rfl, fun y hy => hw y (List.mem_cons_of_mem _ hy)⟩⟩
  refine ⟨hwf, hone, fun w => ?_⟩
  have hacc : ∀ q, q < d.nstates → (d.complete.accept[q]? = some 1 ↔ d.accept[q]? = some 0) := by
    intro q hq
    have h2 := hd.accept
    have : d.complete.accept[q]? = (d.accept[q]?).map (fun a => if a = 0 then 1 else 0) := by
      simp only [DFA.complete]
      rw [List.getElem?_append_left (by simp; omega), List.getElem?_map]
    rw [this, List.getElem?_eq_getElem (by omega)]
    simp
  have hsink : d.complete.accept[d.nstates]? = some 1 := by
    simp only [DFA.complete]
    rw [List.getElem?_append_right (by simp [hd.accept])]
    simp [hd.accept]
  constructor
  · rintro ⟨q, hr, ha⟩
    refine ⟨run_words hr, ?_⟩
    rintro ⟨a, ha0, p, hp, hpa⟩
    rcases (main w 0 q h1).mp hr with ⟨hq, hrq⟩ | ⟨_, _, hn⟩
    · have := hd.run_det hp hrq
      subst this
      rw [(hacc p hq)] at ha
      rw [ha] at hpa; exact ha0 (Option.some.inj hpa).symm
    · exact hn ⟨p, hp⟩
  · rintro ⟨hw, hn⟩
    by_cases hex : ∃ p, Run d.rules 0 w p
    · obtain ⟨p, hp⟩ := hex
      have hlt := hd.run_lt hp h1
      have hla : p < d.accept.length := by have := hd.accept; omega
      refine ⟨p, (main w 0 p h1).mpr (Or.inl ⟨hlt, hp⟩), (hacc p hlt).mpr ?_⟩
      have hg : d.accept[p]? = some d.accept[p] := List.getElem?_eq_getElem hla
      rw [hg]
      by_cases h0 : d.accept[p] = 0
      · rw [h0]
      · exact absurd ⟨_, h0, p, hp, hg⟩ hn
    · exact ⟨d.nstates, (main w 0 _ h1).mpr (Or.inr ⟨rfl, hw, hex⟩), hsink⟩

theorem negate_spec {n : NFA C} (hn : n.WfM) (ha : n.accept < n.nstates) (order : List Bits → List Bits) (ho : Enumerates order) :
    ∃ F r, (∀ fuel, F ≤ fuel → n.negate order fuel = some r) ∧ r.Wf ∧
      ∀ w, r.Lang w ↔ (∀ x ∈ w, x < CharSetLike.size C) ∧ ¬ n.Lang w := by
  obtain ⟨F, d, hF, hd⟩ := dfa_spec hn order ho
  have hpos : 0 < d.nstates := by
    obtain ⟨st, s1, _, _, _, ⟨s, hs, _⟩, _⟩ := hd.sets
    have := (s1 s 0 hs).2; omega
  obtain ⟨c1, c2, c3⟩ := complete_spec hd.wf hpos (by rw [hd.nactions]; omega)
  obtain ⟨d1, u1, u2, u3, u4, u5, u6, _, _⟩ := eliminateUnarrivable_spec c1 (by show 0 < d.nstates + 1; omega)
  obtain ⟨d2, i1, i2, _, i3, _, _, i4⟩ := eliminateInactive_spec u2
  obtain ⟨_, i5, _⟩ := i4 u5
  obtain ⟨r, r1, r2, r3, r4, r5, _⟩ := nfa_spec i2
  have hr : r.Wf := r5 fun a h => c2 a (u6 a (i3 a h))
  refine ⟨F, r, fun fuel hf => ?_, hr, fun w => ?_⟩
  · simp only [NFA.negate, hF fuel hf, u1, i1, r1, Option.bind_eq_bind, Option.bind_some]
  · rw [← hd.lang w, ← c3 w, ← u4 w, ← i5 w 1 (by omega)]
    constructor
    · rintro ⟨k, hk⟩
      have hlt := hk.1
      have := hr.single
      have : k = 0 := by omega
      subst this
      exact (r4 0 w).mp hk
    · intro h; exact ⟨0, (r4 0 w).mpr h⟩

theorem lang_words {n : NFA C} {w : List Nat} (h : n.Lang w) : ∀ x ∈ w, x < CharSetLike.size C := by
  obtain ⟨k, _, hr⟩ := h; exact run_words hr

end Verif.Auto
