import Verif.LexSyn.Sections

set_option linter.unusedSectionVars false

/-!
# From conditions on the text to automata of a whole file
-/

namespace Verif.LexSyn

open Verif.Auto

variable {C : Type} [CharSetLike C]

local notation "size" => CharSetLike.size C

variable {A : Chars C} {order : List Bits → List Bits} {ns : Text → Option (Rx C)} {K : Spec.Reading} {N : Text → Lang}

theorem resolves_safe (hK : K.Bounded) (hN : Named ns N) (hns : ∀ s a, ns s = some a → a.Safe) {x : E} (hf : Faithful A K x)
    (hc : Spec.Closed (fun s => ns s ≠ none) x) (hs : Spec.Safe K size N x) :
    ∃ a, Resolves A ns x a ∧ a.Safe ∧ (Spec.Fresh K x → a.Fresh) ∧ ∀ y, x = .plus y → ∃ b, a = .plus b := by
  obtain ⟨⟨B, hB, hBd⟩, ⟨ud, hud⟩⟩ := hK
  have leaf : ∀ {o : Option (NFA C)} {L : Lang}, Made o L → ∃ n, ∃ h : n.Wf, o = some n ∧ ((∃ u, L u) → (∃ b, ∀ w, L w → w.length ≤ b) → ∀ w, n.Loop w ↔ w = []) := by
    rintro o L ⟨n, h1, h2, h3⟩
    refine ⟨n, h2, h1, ?_⟩
    rintro ⟨u, hu⟩ ⟨b, hb⟩
    exact fresh_of_bounded h2 ((h3 u).2 hu) fun w hw => hb w ((h3 w).1 hw)
  have iter : ∀ {y : E} {a : Rx C}, Faithful A K y → Resolves A ns y a → (Spec.Fresh K y → a.Fresh) → (∀ z, y = .plus z → ∃ b, a = .plus b) →
      Spec.Iter K size N y → a.Iter := by
    intro y a hfy hr h1 h2 h
    rcases h with h | h | ⟨z, h⟩
    · exact Or.inl (h1 h)
    · exact Or.inr (Or.inl ((resolves_den hN hr hfy []).2 h))
    · exact Or.inr (Or.inr (h2 z h))
  induction x with
  | eps => exact ⟨_, .eps, trivial, fun _ => trivial, by simp⟩
  | dot =>
    obtain ⟨n, h, e, hl⟩ := leaf hf
    exact ⟨_, .dot h e, trivial, fun _ => hl ⟨ud, hud⟩ ⟨B, hBd⟩, by simp⟩
  | str s =>
    obtain ⟨n, h, e, hl⟩ := leaf hf
    exact ⟨_, .str h e, trivial, fun _ => hl ⟨_, rfl⟩ ⟨_, fun w hw => by rw [hw]⟩, by simp⟩
  | word s =>
    obtain ⟨n, h, e, hl⟩ := leaf hf
    exact ⟨_, .word h e, trivial, fun _ => hl ⟨_, rfl⟩ ⟨_, fun w hw => by rw [hw]⟩, by simp⟩
  | coll s =>
    obtain ⟨n, h, e, hl⟩ := leaf hf
    refine ⟨_, .coll h e, trivial, fun hne => hl ?_ ⟨B, ?_⟩, by simp⟩
    · obtain ⟨c, hc⟩ := List.exists_mem_of_ne_nil _ hne
      exact ⟨_, c, hc, rfl⟩
    · rintro w ⟨c, _, rfl⟩; exact hB c
  | range s =>
    obtain ⟨n, h, e, hl⟩ := leaf hf
    refine ⟨_, .range h e, trivial, fun hne => hl ?_ ⟨B, ?_⟩, by simp⟩
    · obtain ⟨b, e, c, h1, h2, h3, h4⟩ := hne
      exact ⟨_, b, e, c, h1, h2, h3, h4, rfl⟩
    · rintro w ⟨_, _, c, _, _, _, _, rfl⟩; exact hB c
  | named s =>
    cases ha : ns s with
    | none => exact absurd ha hc
    | some a =>
      obtain ⟨w, v, h1, h2⟩ := hs
      exact ⟨_, .named ha, ⟨hns s a ha, w, v, fun h => h1 ((hN s a ha w).1 h), (hN s a ha _).2 h2⟩, fun h => h.elim, by simp⟩
  | alt x y ih1 ih2 =>
    obtain ⟨a, a1, a2, a3, a4⟩ := ih1 hf.1 hc.1 hs.1
    obtain ⟨b, b1, b2, b3, b4⟩ := ih2 hf.2 hc.2 hs.2
    exact ⟨_, .alt a1 b1, ⟨a2, b2⟩, fun _ => trivial, by simp⟩
  | and x y ih1 ih2 =>
    obtain ⟨a, a1, a2, a3, a4⟩ := ih1 hf.1 hc.1 hs.1
    obtain ⟨b, b1, b2, b3, b4⟩ := ih2 hf.2 hc.2 hs.2
    exact ⟨_, .and a1 b1, ⟨a2, b2⟩, fun h => h.elim, by simp⟩
  | but x y ih1 ih2 =>
    obtain ⟨a, a1, a2, a3, a4⟩ := ih1 hf.1 hc.1 hs.1
    obtain ⟨b, b1, b2, b3, b4⟩ := ih2 hf.2 hc.2 hs.2
    exact ⟨_, .but a1 b1, ⟨a2, b2⟩, fun h => h.elim, by simp⟩
  | cat x y ih1 ih2 =>
    obtain ⟨a, a1, a2, a3, a4⟩ := ih1 hf.1 hc.1 hs.1
    obtain ⟨b, b1, b2, b3, b4⟩ := ih2 hf.2 hc.2 hs.2
    exact ⟨_, .cat a1 b1, ⟨a2, b2⟩, fun h => a3 h, by simp⟩
  | neg x ih =>
    obtain ⟨a, a1, a2, a3, a4⟩ := ih hf hc hs
    exact ⟨_, .neg a1, a2, fun h => h.elim, by simp⟩
  | opt x ih =>
    obtain ⟨a, a1, a2, a3, a4⟩ := ih hf hc hs
    exact ⟨_, .opt a1, a2, fun _ => trivial, by simp⟩
  | sepBy x y ih1 ih2 =>
    obtain ⟨a, a1, a2, a3, a4⟩ := ih1 hf.1 hc.1 hs.1
    obtain ⟨b, b1, b2, b3, b4⟩ := ih2 hf.2 hc.2 hs.2.1
    refine ⟨_, .sepBy a1 b1, ⟨a2, b2, ?_⟩, fun h => a3 h, by simp⟩
    rcases hs.2.2 with h | ⟨h1, h2⟩
    · exact Or.inl (b3 h)
    · exact Or.inr ⟨iter hf.2 b1 b3 b4 h1, (resolves_den hN a1 hf.1 []).2 h2⟩
  | star x ih =>
    obtain ⟨a, a1, a2, a3, a4⟩ := ih hf hc hs.1
    exact ⟨_, .star a1, ⟨a2, iter (y := x) hf a1 a3 a4 hs.2⟩, fun h => h.elim, by simp⟩
  | plus x ih =>
    obtain ⟨a, a1, a2, a3, a4⟩ := ih hf hc hs.1
    exact ⟨_, .plus a1, ⟨a2, iter (y := x) hf a1 a3 a4 hs.2⟩, fun h => h.elim, fun y _ => ⟨a, rfl⟩⟩

theorem closed_congr {p q : Text → Prop} (h : ∀ t, p t → q t) {x : E} (hx : Spec.Closed p x) : Spec.Closed q x := by
  induction x with
  | named s => exact h s hx
  | alt _ _ ih1 ih2 | and _ _ ih1 ih2 | but _ _ ih1 ih2 | cat _ _ ih1 ih2 | sepBy _ _ ih1 ih2 => exact ⟨ih1 hx.1, ih2 hx.2⟩
  | neg _ ih | opt _ ih | star _ ih | plus _ ih => exact ih hx
  | _ => trivial

theorem sect_safe (hK : K.Bounded) {ds : List Decl} (hf : FaithfulAll A K ds) (hp : Spec.PlainAll ds) {kn : Text → Prop}
    (hkn : ∀ s, kn s → ns s ≠ none) (hN : Named ns N) (hns : ∀ s a, ns s = some a → a.Safe) (hc : Spec.ClosedAll kn ds) (hs : Spec.SafeAll K size N ds) :
    ∃ is as ns', Sect A ns ds is as ns' ∧ (∀ a ∈ as, a.Safe) ∧ (∀ i ∈ is, i.behind = none ∧ i.rx.Safe) ∧ (∀ s a, ns' s = some a → a.Safe) ∧
      ∀ s, ds.foldl Spec.learn kn s → ns' s ≠ none := by
  induction ds generalizing ns N kn with
  | nil => exact ⟨[], [], ns, .nil, by simp, by simp, hns, hkn⟩
  | cons d ds ih =>
    have hf' : FaithfulAll A K ds := fun d hd => hf d (List.mem_cons_of_mem _ hd)
    have hp' : Spec.PlainAll ds := fun d hd => hp d (List.mem_cons_of_mem _ hd)
    obtain ⟨hc1, hc2, hc3⟩ := hc
    cases d with
    | define t x =>
      have hfx := (hf _ List.mem_cons_self).1 t x rfl
      obtain ⟨a, a1, a2, _⟩ := resolves_safe hK hN hns hfx (closed_congr hkn (hc1 t x rfl)) hs.1
      obtain ⟨is, as, ns', h1, h2, h3, h4, h5⟩ := ih (ns := define ns t a) hf' hp' (kn := Spec.learn kn (.define t x)) (by
          rintro s (rfl | h)
          · simp [define]
          · simp only [define]; split
            · simp
            · exact hkn s h) (named_define hN fun w => resolves_den hN a1 hfx w) (by
          intro s b hb
          simp only [define] at hb
          split at hb
          · cases hb; exact a2
          · exact hns s b hb) hc3 hs.2
      exact ⟨is, a :: as, ns', .define a1 h1, by simpa using ⟨a2, h2⟩, h3, h4, h5⟩
    | rule x y c t =>
      have hfx := (hf _ List.mem_cons_self).2 x y c t rfl
      obtain ⟨a, a1, a2, _⟩ := resolves_safe hK hN hns hfx (closed_congr hkn (hc2 x y c t rfl)) hs.1
      obtain ⟨is, as, ns', h1, h2, h3, h4, h5⟩ := ih hf' hp' hkn hN hns hc3 hs.2
      have hy := hp _ List.mem_cons_self x y c t rfl
      subst hy
      exact ⟨⟨a, none, c, t⟩ :: is, _, ns', .rule a1 .nothing h1, by simpa using ⟨a2, h2⟩, by simpa using ⟨a2, h3⟩, h4, h5⟩
    | fail c =>
      obtain ⟨is, as, ns', h1, h2⟩ := ih hf' hp' hkn hN hns hc3 hs
      exact ⟨is, as, ns', .fail h1, h2⟩
    | enter c =>
      obtain ⟨is, as, ns', h1, h2⟩ := ih hf' hp' hkn hN hns hc3 hs
      exact ⟨is, as, ns', .enter h1, h2⟩
    | leave c =>
      obtain ⟨is, as, ns', h1, h2⟩ := ih hf' hp' hkn hN hns hc3 hs
      exact ⟨is, as, ns', .leave h1, h2⟩

/-- The automata match the languages, in order. -/
def Matches (rs : List (NFA C)) (Ls : List Lang) : Prop := List.Forall₂ (fun n L => n.Wf ∧ ∀ w, n.Lang w ↔ L w) rs Ls

/-- One section. -/
theorem section_matches (ho : Enumerates order) (hK : K.Bounded) {ds : List Decl} (hf : FaithfulAll A K ds) (hp : Spec.PlainAll ds) {kn : Text → Prop}
    (hkn : ∀ s, kn s → ns s ≠ none) (hN : Named ns N) (hns : ∀ s a, ns s = some a → a.Safe) (hc : Spec.ClosedAll kn ds) (hs : Spec.SafeAll K size N ds) (s : Text) :
    ∃ ns' : Text → Option (Rx C), Named ns' (Spec.finalNames K size N ds) ∧ (∀ s a, ns' s = some a → a.Safe) ∧ (∀ s, ds.foldl Spec.learn kn s → ns' s ≠ none) ∧
    ∃ F, ∀ fuel, F ≤ fuel → ∀ sys : Sys C, Inv order fuel sys.store ns → (sys.envs s).actions ≠ [] → ∃ sys' rs, execAll A order fuel s sys ds = .ok sys' ∧
      Inv order fuel sys'.store ns' ∧ (sys'.envs s).rules = (sys.envs s).rules ++ rs ∧ (∀ t, t ≠ s → sys'.envs t = sys.envs t) ∧ sys'.loaded = sys.loaded ∧
      Matches rs (Spec.ruleLangs K size N ds) := by
  obtain ⟨is, as, ns', h1, h2, h3, h4, h5⟩ := sect_safe hK hf hp hkn hN hns hc hs
  obtain ⟨h6, h7⟩ := sect_langs h1 hf hN
  have rules : ∀ (i : Item C), i.behind = none → ∀ fuel, i.rules A order fuel = (i.rx.build order fuel).map fun r => [⟨r, none⟩] := by
    rintro ⟨a, b, c, t⟩ rfl fuel
    cases hb : a.build order fuel <;> simp [Item.rules, hb]
  obtain ⟨F, h8⟩ := section_go (s := s) ho h1 h2 (fun i hi => by
    obtain ⟨F, n, g1, _⟩ := build_spec order ho i.rx (h3 i hi).2
    exact ⟨F, fun fuel hf => ⟨[⟨n, none⟩], by rw [rules i (h3 i hi).1, g1 fuel hf]; rfl⟩⟩)
  have all : ∃ F, ∀ i ∈ is, ∃ n, (∀ fuel, F ≤ fuel → i.rx.build order fuel = some n) ∧ Impl i.rx n := by
    clear h1 h6 h8
    induction is with
    | nil => exact ⟨0, by simp⟩
    | cons i is ih =>
      obtain ⟨F, g⟩ := ih fun j hj => h3 j (List.mem_cons_of_mem _ hj)
      obtain ⟨F', n, g1, g2⟩ := build_spec order ho i.rx (h3 i List.mem_cons_self).2
      refine ⟨max F F', fun j hj => ?_⟩
      rcases List.mem_cons.1 hj with rfl | hj
      · exact ⟨n, fun fuel hf => g1 fuel (by omega), g2⟩
      · obtain ⟨m, m1, m2⟩ := g j hj
        exact ⟨m, fun fuel hf => m1 fuel (by omega), m2⟩
  obtain ⟨F', h9⟩ := all
  refine ⟨ns', h7, h4, h5, max F F', fun fuel hf sys hi hne => ?_⟩
  obtain ⟨sys', e⟩ := h8 fuel (by omega) sys hi hne
  obtain ⟨rss, g1, g2, g3⟩ := execAll_spec h1 hi e
  refine ⟨sys', (entries is rss).map (·.1), e, g2, g3.rules, g3.others, g3.loaded, ?_⟩
  clear h1 h8 g3
  generalize Spec.ruleLangs K size N ds = Ls at h6
  induction g1 generalizing Ls with
  | nil => cases h6; exact .nil
  | @cons i rs is rss hirs _ ih =>
    cases h6 with
    | @cons _ L _ Ls hiL h6 =>
      obtain ⟨n, n1, n2⟩ := h9 i List.mem_cons_self
      rw [rules i (h3 i List.mem_cons_self).1, n1 fuel (by omega)] at hirs
      cases hirs
      exact .cons ⟨n2.wf, fun w => (n2.lang w).trans (hiL w)⟩ (ih (fun j hj => h3 j (List.mem_cons_of_mem _ hj)) (fun j hj => h9 j (List.mem_cons_of_mem _ hj)) _ h6)

theorem openEnv_store (s : Text) (sys : Sys C) : (openEnv s sys).store = sys.store ∧ (openEnv s sys).loaded = sys.loaded ∧
    ((openEnv s sys).envs s).actions ≠ [] ∧ ∀ t, ((openEnv s sys).envs t).rules = (sys.envs t).rules := by
  unfold openEnv
  split
  · refine ⟨rfl, rfl, by simp [Sys.setEnv], fun t => ?_⟩
    simp only [Sys.setEnv]
    split
    · next h => subst h; rfl
    · rfl
  · next h => exact ⟨rfl, rfl, h, fun _ => rfl⟩

/-- Several sections, the Unicode data being loaded already or not needed. -/
theorem file_matches (ho : Enumerates order) (hK : K.Bounded) (uni : Store C → Out (Store C)) (ss : List (Option Text × List Decl)) {kn : Text → Prop}
    (hf : ∀ p ∈ ss, FaithfulAll A K p.2) (hp : ∀ p ∈ ss, Spec.PlainAll p.2)
    (hkn : ∀ s, kn s → ns s ≠ none) (hN : Named ns N) (hns : ∀ s a, ns s = some a → a.Safe) (hc : Spec.ClosedFile kn ss) (hs : Spec.SafeFile K size N ss) :
    ∃ F, ∀ fuel, F ≤ fuel → ∀ sys : Sys C, Inv order fuel sys.store ns → sys.loaded = true ∨ (∀ p ∈ ss, p.1 ≠ none) →
      ∃ sys' : Sys C, ∃ rs : Text → List (NFA C), execFile A order fuel uni sys ss = .ok sys' ∧
        (∀ e, (sys'.envs e).rules = (sys.envs e).rules ++ rs e) ∧ ∀ e, Matches (rs e) (Spec.fileLangs K size e N ss) := by
  induction ss generalizing ns N kn with
  | nil => exact ⟨0, fun fuel _ sys _ _ => ⟨sys, fun _ => [], rfl, by simp, fun _ => .nil⟩⟩
  | cons p ss ih =>
    obtain ⟨o, ds⟩ := p
    obtain ⟨ns', k1, k2, k3, F, k4⟩ := section_matches ho hK (hf _ List.mem_cons_self) (hp _ List.mem_cons_self) hkn hN hns hc.1 hs.1 (Spec.target o)
    obtain ⟨F', l1⟩ := ih (fun p hp => hf p (List.mem_cons_of_mem _ hp)) (fun q hq => hp q (List.mem_cons_of_mem _ hq)) k3 k1 k2 hc.2 hs.2
    refine ⟨max F F', fun fuel hfu sys hi hl => ?_⟩
    obtain ⟨o1, o2, o3, o4⟩ := openEnv_store (Spec.target o) sys
    obtain ⟨sys1, rs1, m1, m2, m3, m4, m5, m6⟩ := k4 fuel (by omega) (openEnv (Spec.target o) sys) (by rw [o1]; exact hi) o3
    obtain ⟨sys2, rs2, n1, n2, n3⟩ := l1 fuel (by omega) sys1 m2 (hl.imp (fun h => by rw [m5, o2, h]) fun h p hp => h p (List.mem_cons_of_mem _ hp))
    have e : execSection A order fuel uni sys (o, ds) = .ok sys1 := by
      cases o with
      | some s => exact m1
      | none =>
        have hl : sys.loaded = true := hl.resolve_right fun h => h _ List.mem_cons_self rfl
        simp only [execSection, hl, if_true, Out.bind]
        exact m1
    refine ⟨sys2, fun e => (if Spec.target o = e then rs1 else []) ++ rs2 e, by simp only [execFile, e, Out.bind]; exact n1, fun e => ?_, fun e => ?_⟩
    · rw [n2]
      dsimp only
      by_cases he : Spec.target o = e
      · subst he; rw [m3, o4, if_pos rfl, List.append_assoc]
      · rw [m4 e (Ne.symm he), o4, if_neg he, List.nil_append]
    · simp only [Spec.fileLangs]
      by_cases he : Spec.target o = e
      · rw [if_pos he, if_pos he]; exact List.rel_append m6 (n3 e)
      · rw [if_neg he, if_neg he]; exact n3 e

end Verif.LexSyn
