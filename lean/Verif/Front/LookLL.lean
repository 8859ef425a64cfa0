import Verif.Front.LookFollow

/-!
# Lemmas: one token of lookahead decides, by the nodes, if it does by the rules as written
-/

namespace Verif.Front

open Verif.Grammar (Tables find World Der Wf OpsOk LeadOk Part Occurs Nullable OpItem Fol PSound computeFirst computeFollow reduces)
open Verif.Gen (Ctx LL1 First Silent Choice)
open Verif.Syntax (Name Rule OpExpr)

variable {T : Tables Name} {rs : List Rule}

theorem occ_place {W : World} {eof : Nat} (H : Setting W T rs eof) {n : Nat} (h : Occurs W n) :
    (∃ r ∈ rs, RuleRep W.node T n r) ∨ (∃ i k s, Rep W.node T n i ∧ At rs i k s) ∨ (∃ r ∈ rs, ∃ o, r.item = .op o ∧ OpRep W.node T n o) ∨ ∃ k, W.node n = some (.nonterm k) := by
  induction h with
  | rule hr => exact .inl (H.stands.left _ hr)
  | @part n m _ hp ih =>
    rcases ih with ⟨r, hr, i, k, h1, h2, h3⟩ | ⟨i, k, s, hr, ha⟩ | ⟨r, hr, o, e, p, h1, ⟨s, a, k, h2, h3, h4⟩, _⟩ | ⟨k, hk⟩
    · cases hp with
      | evolve h =>
        rw [h1] at h
        cases h
        rcases h3.cases with h3 | ⟨o, e, h3⟩
        · exact .inr (.inl ⟨_, _, _, h3, .rule hr⟩)
        · exact .inr (.inr (.inl ⟨r, hr, o, e, h3⟩))
      | _ h => rw [h1] at h; cases h
    · have hno := hr.node
      have same : ∀ {m : Nat} {j : Syntax.Item} {k : List Syntax.Item} {s : Name}, Rep W.node T m j → At rs j k s →
          (∃ r ∈ rs, RuleRep W.node T m r) ∨ (∃ i k s, Rep W.node T m i ∧ At rs i k s) ∨ (∃ r ∈ rs, ∃ o, r.item = .op o ∧ OpRep W.node T m o) ∨ ∃ k, W.node m = some (.nonterm k) :=
        fun h1 h2 => .inr (.inl ⟨_, _, _, h1, h2⟩)
      cases hp with
      | evolve hn =>
        obtain ⟨it, h1, h2, _⟩ := hno
        rw [hn] at h1
        exact absurd (Option.some.inj h1).symm (h2 _ _)
      | opBase hn =>
        obtain ⟨it, h1, _, _, h2⟩ := hno
        rw [hn] at h1
        exact absurd (Option.some.inj h1).symm (h2 _)
      | consL hn => cases i <;> simp only [Rep, hn] at hr <;> try simp at hr
                    exact same hr.1 (.consL ha)
      | consR hn => cases i <;> simp only [Rep, hn] at hr <;> try simp at hr
                    exact same hr.2 (.consR ha)
      | altL hn => cases i <;> simp only [Rep, hn] at hr <;> try simp at hr
                   exact same hr.1 (.altL ha)
      | altR hn => cases i <;> simp only [Rep, hn] at hr <;> try simp at hr
                   exact same hr.2 (.altR ha)
      | action hn => cases i <;> simp only [Rep, hn] at hr <;> try simp at hr
                     exact same hr (.act ha)
      | cond hn => cases i <;> simp only [Rep, hn] at hr <;> try simp at hr
                   exact same hr (.cond ha)
      | annot hn => cases i <;> simp only [Rep, hn] at hr <;> try simp at hr
                    exact same hr (.ann ha)
      | tryL hn => exact absurd hn (H.noTry _ _ _)
      | tryR hn => exact absurd hn (H.noTry _ _ _)
      | plus hn => cases i <;> simp only [Rep, hn] at hr <;> try simp at hr
                   exact same hr (.plus ha)
      | star hn => cases i <;> simp only [Rep, hn] at hr <;> try simp at hr
                   exact same hr (.star ha)
    · cases hp with
      | opBase h =>
        rw [h1] at h
        cases h
        exact .inr (.inr (.inr ⟨k, h3⟩))
      | _ h => rw [h1] at h; cases h
    · cases hp with
      | _ h => rw [hk] at h; cases h

theorem der_evolve {W : World} {n i s : Nat} {α : List Nat} (hn : W.node n = some (.evolve i s)) (h : Der W n α) : Der W i α := by
  cases h
  case evolve h4 h3 => rw [hn] at h4; cases h4; exact h3
  all_goals simp_all

theorem choice_rep {W : World} {n : Nat} {ms : List Nat} (h : Choice W n ms) : ∀ i, Rep W.node T n i → List.Forall₂ (Rep W.node T) ms (choices i) := by
  induction h with
  | leaf hn =>
    intro i hi
    cases i with
    | alt a b =>
      simp only [Rep] at hi
      obtain ⟨l, r, h, _⟩ := hi
      exact absurd h (hn _ _)
    | _ => exact .cons hi .nil
  | @alt n l r a b hn _ _ ih1 ih2 =>
    intro i hi
    cases i <;> simp only [Rep, hn] at hi <;> try simp at hi
    exact List.rel_append (ih1 _ hi.1) (ih2 _ hi.2)

theorem choice_occurs {W : World} {n : Nat} {ms : List Nat} (h : Choice W n ms) (ho : Occurs W n) : ∀ m ∈ ms, Occurs W m := by
  induction h with
  | leaf hn => intro m hm; cases List.mem_singleton.1 hm; exact ho
  | alt hn _ _ ih1 ih2 =>
    intro m hm
    rcases List.mem_append.1 hm with hm | hm
    · exact ih1 (.part ho (.altL hn)) m hm
    · exact ih2 (.part ho (.altR hn)) m hm

theorem pairwise_forall₂ {α β : Type} {P : α → β → Prop} {R : β → β → Prop} {S : α → α → Prop} (h : ∀ a b a' b', P a b → P a' b' → R b b' → S a a') :
    ∀ {l : List α} {l' : List β}, List.Forall₂ P l l' → l'.Pairwise R → l.Pairwise S
  | [], _, _, _ => .nil
  | a :: l, _, .cons (b := b) (l₂ := l') h1 h2, hp => by
    cases hp with
    | cons h3 h4 =>
      refine .cons (fun a' ha' => ?_) (pairwise_forall₂ h h2 h4)
      have mem : ∀ {l : List α} {l' : List β}, List.Forall₂ P l l' → ∀ a ∈ l, ∃ b ∈ l', P a b := by
        intro l l' hf
        induction hf with
        | nil => simp
        | cons g1 _ ih =>
          intro a ha
          rcases List.mem_cons.1 ha with rfl | ha
          · exact ⟨_, .head _, g1⟩
          · obtain ⟨b, hb, hab⟩ := ih a ha
            exact ⟨b, .tail _ hb, hab⟩
      obtain ⟨b', hb', h5⟩ := mem h2 a' ha'
      exact h _ _ _ _ h1 h5 (h3 b' hb')

theorem ruleReps_forall₂ {g : Nat → Option Grammar.Item} : ∀ {es : List Nat} {rs : List Rule}, RuleReps g T es rs → List.Forall₂ (fun e r => r ∈ rs ∧ RuleRep g T e r) es rs := by
  have key : ∀ {es : List Nat} {rs : List Rule}, RuleReps g T es rs → List.Forall₂ (RuleRep g T) es rs := by
    intro es
    induction es with
    | nil => intro rs h; cases rs with
      | nil => exact .nil
      | cons => exact h.elim
    | cons e es ih => intro rs h; cases rs with
      | nil => exact h.elim
      | cons r rs => exact .cons h.1 (ih h.2)
  have mem : ∀ {es : List Nat} {rs rs' : List Rule}, List.Forall₂ (RuleRep g T) es rs → (∀ r ∈ rs, r ∈ rs') → List.Forall₂ (fun e r => r ∈ rs' ∧ RuleRep g T e r) es rs := by
    intro es rs rs' h hs
    induction h with
    | nil => exact .nil
    | cons h1 _ ih => exact .cons ⟨hs _ (.head _), h1⟩ (ih fun r hr => hs r (.tail _ hr))
  exact fun {_ _} h => mem (key h) fun _ h => h

section
variable {K : Ctx} (H : Setting K.W T rs K.eofTok) (hL : Look rs) {f1 k1 f2 k2 : Nat} (hF : computeFirst K.W f1 k1 = some K.F) (hS : computeFollow K.W K.F K.eofTok f2 k2 = some K.S)
include H hL hF

theorem first_der {m t : Nat} (h : First K m t) : K.W.node t = some .term ∧ ∃ γ, Der K.W m (t :: γ) := by
  unfold First at h
  split at h
  · rename_i hm; subst h; exact ⟨hm, [], .term hm⟩
  · refine ⟨h.1, ?_⟩
    rcases Grammar.C36_sound_partial H.wf H.opsOk (H.lead hL) hF h.2 with ⟨e, _⟩ | ⟨_, h2⟩
    · have := H.wf.zero
      rw [← e, h.1] at this
      cases this
    · exact h2

theorem first_begins {m t : Nat} {i : Syntax.Item} (hi : IRep K.W.node T m i) (h : First K m t) : ∃ x, find T.terminals x = some t ∧ Begins rs i x := by
  obtain ⟨h1, γ, h2⟩ := first_der H hL hF h
  exact (H.begins hL h1 h2).1 i hi

omit hL in
theorem der_first {m t : Nat} {γ : List Nat} (ho : Occurs K.W m) (ht : K.W.node t = some .term) (h : Der K.W m (t :: γ)) : First K m t := by
  unfold First
  split
  · rename_i hm
    have := Grammar.der_term hm h
    cases this
    rfl
  · exact ⟨ht, Grammar.C35_tokens_partial H.wf H.opsOk H.bare hF ho (H.term _ ht) h⟩

omit hL in
theorem begins_first {m : Nat} {i : Syntax.Item} (hi : IRep K.W.node T m i) (ho : Occurs K.W m) (h : ∃ x, Begins rs i x) : ∃ t, First K m t := by
  obtain ⟨x, h⟩ := h
  obtain ⟨t, γ, h1, h2⟩ := H.begun hi h
  exact ⟨t, der_first H hF ho (H.stands.term _ _ h1) h2⟩

include hS in
theorem follow_place {n e : Nat} (h : (n, e) ∈ K.S) : (∃ s, find T.symbols s = some n ∧ AfterN T rs s e) ∨ ∃ X, Place K.W T rs n X ∧ X e :=
  fol_place H hL (Grammar.computeFollow_pos H.wf (H.lead hL) H.opsOk (Grammar.computeFirst_sound H.wf (H.lead hL) H.opsOk hF) hS n e h)

include hS in
theorem follow_sym {n e : Nat} {s : Name} (hs : find T.symbols s = some n) (h : (n, e) ∈ K.S) : AfterN T rs s e := by
  rcases follow_place H hL hF hS h with ⟨s', h1, h2⟩ | ⟨X, h1, _⟩
  · rw [H.stands.symInj _ _ _ h1 hs] at h2
    exact h2
  · exact absurd (H.stands.sym _ _ hs) (place_not_sym H h1)

include hS in
/-- Parsed nodes that are neither rules, operator items nor leaves. -/
theorem follow_item {n e : Nat} {it : Grammar.Item} (hp : n < K.W.parsed) (hn : K.W.node n = some it) (hk : (∃ l r, it = .alt l r) ∨ (∃ i, it = .star i) ∨ ∃ i, it = .plus i) (h : (n, e) ∈ K.S) :
    ∃ i k s, Rep K.W.node T n i ∧ At rs i k s ∧ FollowsN T rs k s e := by
  have no : ∀ {it'}, K.W.node n = some it' → (∃ l r, it' = .alt l r) ∨ (∃ i, it' = .star i) ∨ ∃ i, it' = .plus i := fun h => by rw [hn] at h; cases h; exact hk
  rcases follow_place H hL hF hS h with ⟨s', h1, h2⟩ | ⟨X, h1, h2⟩
  · have := no (H.stands.sym _ _ h1); simp at this
  · cases h1 with
    | rule hr h => obtain ⟨i, k, h1, _⟩ := h; have := no h1; simp at this
    | item hr ha => exact ⟨_, _, _, hr, ha, h2⟩
    | op hr e h => obtain ⟨po, h1, _⟩ := h; have := no h1; simp at this
    | loopC h1 _ _ _ => have := no h1; simp at this
    | loopA h1 h3 _ _ =>
      have g := Grammar.part_lt H.wf hp (.altR h3) (by simp [h3])
      have := Grammar.part_lt H.wf (Nat.lt_trans g hp) (.consR h1) (by simp [h1])
      omega
    | @chain n r o p po top bs h hc hs hle =>
      cases bs with
      | nil =>
        obtain ⟨s, a, k', _, h2, _⟩ := h.base
        obtain rfl : n = po.base := hc
        have := no h2; simp at this
      | cons b bs => have := hle (by simp); omega
    | @body r o p po top b k j h hb hm hle hj => omega
    | leaf h => rcases h with h | h <;> have := no h <;> simp at this

include hS in
/-- The condition about the nodes. -/
theorem look_ll1 : LL1 K := by
  have hw := H.wf
  have place : ∀ {n : Nat} {it : Grammar.Item}, Occurs K.W n → K.W.node n = some it → ((∃ l r, it = .alt l r) ∨ (∃ i, it = .star i) ∨ ∃ i, it = .plus i) → ∃ i k s, Rep K.W.node T n i ∧ At rs i k s := by
    intro n it ho hn hk
    have no : ∀ {it'}, K.W.node n = some it' → (∃ l r, it' = .alt l r) ∨ (∃ i, it' = .star i) ∨ ∃ i, it' = .plus i := fun h => by rw [hn] at h; cases h; exact hk
    rcases occ_place H ho with ⟨r, hr, i, k, h1, _⟩ | h | ⟨r, hr, o, e, p, h1, _⟩ | ⟨k, h1⟩
    · have := no h1; simp at this
    · exact h
    · have := no h1; simp at this
    · have := no h1; simp at this
  have name : ∀ {x y : Name} {t : Nat}, find T.terminals x = some t → find T.terminals y = some t → x = y := fun h1 h2 => H.stands.termInj _ _ _ h1 h2
  -- repetitions
  have loop : ∀ n it, Occurs K.W n → K.W.node n = some it → (∃ i, it = .star i) ∨ (∃ i, it = .plus i) → (∃ t, First K n t) ∧ ∀ t, First K n t → (n, t) ∉ K.S := by
    intro n it ho hn hk
    have hp : n < K.W.parsed := Grammar.parsed_of hw hn (by rcases hk with ⟨i, rfl⟩ | ⟨i, rfl⟩ <;> simp) (by rcases hk with ⟨i, rfl⟩ | ⟨i, rfl⟩ <;> simp)
    have shape : ∀ {i}, Rep K.W.node T n i → ∃ j, i = .star j ∨ i = .plus j := by
      intro i hr
      rcases hk with ⟨m, rfl⟩ | ⟨m, rfl⟩
      · cases i <;> simp only [Rep, hn] at hr <;> try simp at hr
        exact ⟨_, .inl rfl⟩
      · cases i <;> simp only [Rep, hn] at hr <;> try simp at hr
        exact ⟨_, .inr rfl⟩
    obtain ⟨i, k, s, hr, ha⟩ := place ho hn (.inr hk)
    obtain ⟨j, hj⟩ := shape hr
    refine ⟨begins_first H hF hr.irep ho (hL.loop j i k s hj ha).1, fun t ht hS' => ?_⟩
    obtain ⟨i', k', s', hr', ha', x, hx, hf⟩ := follow_item H hL hF hS hp hn (.inr hk) hS'
    obtain ⟨j', hj'⟩ := shape hr'
    obtain ⟨y, hy, hb⟩ := first_begins H hL hF hr'.irep ht
    rw [name hy hx] at hb
    exact (hL.loop j' i' k' s' hj' ha').2 x hb hf
  refine ⟨fun n l r ms ho hp hn hc => ?_, fun n l r ms m ho hp hn hc hm h0 => ?_, fun n i ho hn => loop n _ ho hn (.inl ⟨_, rfl⟩), fun n i ho hn => loop n _ ho hn (.inr ⟨_, rfl⟩), ?_, fun n p hn => ?_,
    fun n p s hn hs => ?_, fun n p r s hn hne hr hrn hst => ?_, fun s t hs hsym ht hterm => ?_⟩
  · -- alternatives
    have shape : ∀ {i}, Rep K.W.node T n i → ∃ a b, i = .alt a b := by
      intro i hr
      cases i <;> simp only [Rep, hn] at hr <;> try simp at hr
      exact ⟨_, _, rfl⟩
    have hocc := choice_occurs hc ho
    obtain ⟨i, k, s, hr, ha⟩ := place ho hn (.inl ⟨_, _, rfl⟩)
    obtain ⟨a, b, rfl⟩ := shape hr
    have one : ms.Pairwise fun m m' => (∃ t, First K m t) ∧ ∀ t, First K m t → ¬ First K m' t := by
      have hf : List.Forall₂ (fun m i => Occurs K.W m ∧ Rep K.W.node T m i) ms (choices (.alt a b)) := by
        have := choice_rep hc _ hr
        generalize choices (.alt a b) = cs at this
        clear hc
        induction this with
        | nil => exact .nil
        | cons h1 _ ih => exact .cons ⟨hocc _ (.head _), h1⟩ (ih fun m hm => hocc m (.tail _ hm))
      refine pairwise_forall₂ ?_ hf (hL.alt a b k s ha)
      rintro m i m' i' ⟨ho1, h1⟩ ⟨ho2, h2⟩ ⟨g1, g2, _⟩
      refine ⟨begins_first H hF h1.irep ho1 g1, fun t ht ht' => ?_⟩
      obtain ⟨x, x1, x2⟩ := first_begins H hL hF h1.irep ht
      obtain ⟨y, y1, y2⟩ := first_begins H hL hF h2.irep ht'
      rw [name y1 x1] at y2
      exact g2 x x2 y2
    have two : ∀ t, (n, t) ∈ K.S → ms.Pairwise fun m m' => Nullable K.W m' → ¬ First K m t := by
      intro t ht
      obtain ⟨i', k', s', hr', ha', x, hx, hf⟩ := follow_item H hL hF hS hp hn (.inl ⟨_, _, rfl⟩) ht
      obtain ⟨a', b', rfl⟩ := shape hr'
      refine pairwise_forall₂ ?_ (choice_rep hc _ hr') (hL.alt a' b' k' s' ha')
      rintro m i m' i' h1 h2 ⟨_, _, g3⟩ h0 hft
      obtain ⟨y, y1, y2⟩ := first_begins H hL hF h1.irep hft
      rw [name y1 hx] at y2
      exact g3 ((H.null h2.irep).1 h0) x y2 hf
    rw [List.pairwise_iff_getElem] at one ⊢
    intro p q hp' hq hpq
    refine ⟨(one p q hp' hq hpq).1, (one p q hp' hq hpq).2, fun h0 t ht hs => ?_⟩
    exact (List.pairwise_iff_getElem.1 (two t hs)) p q hp' hq hpq h0 ht
  · -- an alternative that can be empty
    obtain ⟨i, k, s, hr, ha⟩ := place ho hn (.inl ⟨_, _, rfl⟩)
    have : ∃ a b, i = .alt a b := by
      cases i <;> simp only [Rep, hn] at hr <;> try simp at hr
      exact ⟨_, _, rfl⟩
    obtain ⟨a, b, rfl⟩ := this
    have mem : ∃ j ∈ choices (.alt a b), Rep K.W.node T m j := by
      have := choice_rep hc _ hr
      generalize choices (.alt a b) = cs at this
      clear hc
      induction this with
      | nil => simp at hm
      | cons h1 _ ih =>
        rcases List.mem_cons.1 hm with rfl | hm
        · exact ⟨_, .head _, h1⟩
        · obtain ⟨j, hj, h⟩ := ih hm
          exact ⟨j, .tail _ hj, h⟩
    obtain ⟨j, hj, hrj⟩ := mem
    have hno := hL.altNull a b k s j ha hj ((H.null hrj.irep).1 h0)
    refine ⟨fun ht => ?_, fun x hx => ?_⟩
    · have := Grammar.der_term ht h0
      cases this
    · rcases Grammar.C36_sound_partial H.wf H.opsOk (H.lead hL) hF hx with ⟨e, _⟩ | ⟨h1, γ, h2⟩
      · rw [e]; exact hw.zero
      · obtain ⟨y, _, h3⟩ := (H.begins hL h1 h2).1 j hrj.irep
        exact absurd h3 (hno y)
  · -- rules
    obtain ⟨es, hperm, hes⟩ := H.rules
    have occ : ∀ e ∈ es, Occurs K.W e := fun e he => .rule (hperm.mem_iff.2 he)
    let P : Nat → Nat → Nat → Nat → Nat → Prop := fun r i r' i' s => (∃ t, First K r t) ∧ (∀ t, First K r t → ¬ First K r' t) ∧ (Nullable K.W i' → ∀ t, First K r t → (s, t) ∉ K.S) ∧
      (reduces K.W K.F i = some true → ¬ Nullable K.W i' ∧ ∀ t, First K r' t → (s, t) ∉ K.S)
    have hsym : es.Pairwise fun r r' => ∀ i i' s, K.W.node r = some (.evolve i s) → K.W.node r' = some (.evolve i' s) → P r i r' i' s ∧ P r' i' r i s := by
      have hf : List.Forall₂ (fun e r => Occurs K.W e ∧ RuleRep K.W.node T e r) es rs := by
        have := ruleReps_forall₂ hes
        clear hperm hes
        generalize hq : rs = rs' at this
        have hq : ∀ r ∈ rs', r ∈ rs := fun r hr => by rw [hq]; exact hr
        revert this
        intro this
        have key : ∀ {es : List Nat} {rs' : List Rule} {q : Rule → Prop}, (∀ e ∈ es, Occurs K.W e) → List.Forall₂ (fun e r => q r ∧ RuleRep K.W.node T e r) es rs' → List.Forall₂ (fun e r => Occurs K.W e ∧ RuleRep K.W.node T e r) es rs' := by
          intro es rs' q hocc h
          induction h with
          | nil => exact .nil
          | cons h1 _ ih => exact .cons ⟨hocc _ (.head _), h1.2⟩ (ih fun e he => hocc e (.tail _ he))
        exact key occ this
      refine pairwise_forall₂ ?_ hf hL.rules
      rintro e r e' r' ⟨o1, i1, k1, n1, s1, m1⟩ ⟨o2, i2, k2, n2, s2, m2⟩ hq i i' s hn hn'
      rw [n1] at hn
      cases hn
      rw [n2] at hn'
      cases hn'
      obtain ⟨q1, q2, q3, q4, q5, q6⟩ := hq (H.stands.symInj _ _ _ s1 s2)
      have begun : ∀ {e i : Nat} {j : Syntax.Item}, Occurs K.W e → K.W.node e = some (.evolve i k1) → IRep K.W.node T i j → (∃ x, Begins rs j x) → ∃ t, First K e t := by
        intro e i j ho hn hi ⟨x, h⟩
        obtain ⟨t, γ, h1, h2⟩ := H.begun hi h
        exact ⟨t, der_first H hF ho (H.stands.term _ _ h1) (.evolve hn h2)⟩
      have begins : ∀ {e i t : Nat} {j : Syntax.Item}, K.W.node e = some (.evolve i k1) → IRep K.W.node T i j → First K e t → ∃ x, find T.terminals x = some t ∧ Begins rs j x := by
        intro e i t j hn hi h
        obtain ⟨h1, γ, h2⟩ := first_der H hL hF h
        refine (H.begins hL h1 (n := i) (γ := γ) ?_).1 j hi
        exact der_evolve hn h2
      have red : ∀ {e i : Nat} {j : Syntax.Item}, K.W.node e = some (.evolve i k1) → IRep K.W.node T i j → reduces K.W K.F i = some true → Sen rs j [] := by
        intro e i j hn hi h
        have hp : i < K.W.parsed := by
          have g := Grammar.parsed_of hw hn (by simp) (by simp)
          have := Grammar.part_lt hw g (.evolve hn) (by simp [hn])
          omega
        have hnode : ∃ it, K.W.node i = some it ∧ ∀ j s, it ≠ .evolve j s := by
          rcases hi.cases with h | ⟨o, _, p, h, _⟩
          · obtain ⟨it, h1, h2, _⟩ := h.node; exact ⟨it, h1, h2⟩
          · exact ⟨_, h, by simp⟩
        obtain ⟨it, h1, h2⟩ := hnode
        obtain ⟨b, h3, h4⟩ := Grammar.C34_exact_partial hw H.opsOk H.bare (H.lead hL) hF h1 h2 hp
        rw [h] at h3
        cases h3
        exact (H.null hi).1 (h4.1 rfl)
      have after : ∀ {t : Nat}, (k1, t) ∈ K.S → ∃ x, find T.terminals x = some t ∧ After rs r.sym x := fun h => follow_sym H hL hF hS s1 h
      have disj : ∀ t, First K e t → ¬ First K e' t := fun t h1 h2 => by
        obtain ⟨x, x1, x2⟩ := begins n1 m1 h1
        obtain ⟨y, y1, y2⟩ := begins n2 m2 h2
        rw [name y1 x1] at y2
        exact q3 x x2 y2
      have noF : Nullable K.W i2 → ∀ t, First K e t → (k1, t) ∉ K.S := fun h0 t h1 h2 => by
        obtain ⟨x, x1, x2⟩ := begins n1 m1 h1
        obtain ⟨y, y1, y2⟩ := after h2
        rw [name y1 x1] at y2
        exact q5 ((H.null m2).1 h0) x x2 y2
      have noF' : Sen rs r.item [] → ∀ t, First K e' t → (k1, t) ∉ K.S := fun h0 t h1 h2 => by
        obtain ⟨x, x1, x2⟩ := begins n2 m2 h1
        obtain ⟨y, y1, y2⟩ := after h2
        rw [name y1 x1] at y2
        exact q6 h0 x x2 y2
      refine ⟨⟨begun o1 n1 m1 q1, disj, noF, fun hr => ⟨fun h0 => q4 ⟨red n1 m1 hr, (H.null m2).1 h0⟩, noF' (red n1 m1 hr)⟩⟩, begun o2 n2 m2 q2, fun t h1 h2 => disj t h2 h1,
        fun h0 => noF' ((H.null m1).1 h0), fun hr => ⟨fun h0 => q4 ⟨(H.null m1).1 h0, red n2 m2 hr⟩, noF ((H.null m2).2 (red n2 m2 hr))⟩⟩
    have hrules := (List.Perm.pairwise_iff (fun {a b} h i i' s h1 h2 => (h i' i s h2 h1).symm) hperm).2 hsym
    rw [List.pairwise_reverse]
    exact hrules.imp fun h i i' s h1 h2 => (h i' i s h2 h1).2
  · -- operators behind operands
    refine ⟨?_, fun t ht => ⟨fun hs => ?_, fun hm => ?_⟩⟩
    · have := H.opNodup hL hn
      have := this.sublist (l₁ := p.post ++ p.bin) (by
        simp only [List.append_assoc]
        refine List.Sublist.trans ?_ (List.sublist_append_right _ _)
        exact (List.Sublist.refl _).append (List.sublist_append_left _ _))
      exact this
    · rcases follow_place H hL hF hS hs with ⟨s', h1, h2⟩ | ⟨X, h1, h2⟩
      · have := H.stands.sym _ _ h1
        rw [hn] at this; cases this
      · have opc : ∀ {r : Rule} {o : OpExpr}, r ∈ rs → r.item = .op o → OpRep K.W.node T n o → AfterN T rs r.sym t → False := by
          rintro r o hr e ⟨p', g1, _, g2, _⟩ ⟨x, x1, x2⟩
          rw [hn] at g1
          cases g1
          rcases List.mem_append.1 ht with ht | ht
          · obtain ⟨s, h1, h2⟩ := g2.post.left _ ht
            obtain ⟨q, pr, a, h3, rfl⟩ := mem_posts.1 h1
            refine (hL.opAfter r hr o e _ h3 (.inl ⟨_, _, _, rfl⟩)).1 ?_
            rw [name x1 h2] at x2
            exact x2
          · obtain ⟨s, h1, h2⟩ := g2.bin.left _ ht
            obtain ⟨q, pr, a, h3, rfl⟩ := mem_bins.1 h1
            refine (hL.opAfter r hr o e _ h3 (.inr ⟨_, _, _, rfl⟩)).1 ?_
            rw [name x1 h2] at x2
            exact x2
        cases h1 with
        | rule hr h => obtain ⟨i, k, h1, _⟩ := h; rw [hn] at h1; cases h1
        | item hr ha =>
          obtain ⟨it, h1, _, _, h2⟩ := hr.node
          rw [hn] at h1
          exact h2 _ (Option.some.inj h1).symm
        | op hr e h => exact opc hr e h h2
        | loopC h1 _ _ _ => rw [hn] at h1; cases h1
        | loopA h1 h3 _ _ => rw [hn] at h3; cases h3
        | @chain n r o p po top bs h hc hs hle =>
          cases bs with
          | nil =>
            obtain ⟨s, a, k', _, h2, _⟩ := h.base
            obtain rfl : n = po.base := hc
            rw [hn] at h2; cases h2
          | cons b bs =>
            obtain ⟨r', h1, _⟩ := hc
            rw [hn] at h1; cases h1
        | @body r o p po top b k j h hb hm hle hj =>
          obtain ⟨l', r', h1, _⟩ := body_cons hb (h.toks H.wf b hm) hj
          rw [hn] at h1; cases h1
        | leaf h => rcases h with h | h <;> rw [hn] at h <;> cases h
    · obtain ⟨r, hr, o, e, p', g1, _, g2, _⟩ := H.ops n p hn
      rw [hn] at g1
      cases g1
      obtain ⟨⟨u, v⟩, hu, rfl⟩ := List.mem_map.1 hm
      obtain ⟨⟨x, y⟩, h1, h2, h2'⟩ := g2.paren.left _ hu
      obtain ⟨q, q', h3, h3'⟩ := mem_parens.1 h1
      cases h3'
      rcases List.mem_append.1 ht with ht | ht
      · obtain ⟨s, h4, h5⟩ := g2.post.left _ ht
        obtain ⟨_, pr, a, h6, rfl⟩ := mem_posts.1 h4
        exact (hL.opAfter r hr o e _ h6 (.inl ⟨_, _, _, rfl⟩)).2 _ _ h3 (name h2' h5)
      · obtain ⟨s, h4, h5⟩ := g2.bin.left _ ht
        obtain ⟨_, pr, a, h6, rfl⟩ := mem_bins.1 h4
        exact (hL.opAfter r hr o e _ h6 (.inr ⟨_, _, _, rfl⟩)).2 _ _ h3 (name h2' h5)
  · -- operators before operands
    refine ⟨?_, fun t ht hf => ?_⟩
    · have := H.opNodup hL hn
      have := this.sublist (l₁ := p.pre ++ p.paren.map (·.1)) (by
        simp only [List.append_assoc]
        exact (List.Sublist.refl _).append ((List.sublist_append_right _ _).trans ((List.sublist_append_right _ _).trans (List.sublist_append_right _ _))))
      exact this
    · obtain ⟨r, hr, o, e, p', g1, ⟨b, a, k, c1, c2, c3⟩, g2, _⟩ := H.ops n p hn
      rw [hn] at g1
      cases g1
      rw [hs] at c2
      cases c2
      obtain ⟨h1, γ, h2⟩ := first_der H hL hF hf
      obtain ⟨x, ω, x1, x2⟩ := (H.begins hL h1 h2).2 b c3
      rcases List.mem_append.1 ht with ht | ht
      · obtain ⟨s, h4, h5⟩ := g2.pre.left _ ht
        obtain ⟨q, pr, h6, rfl⟩ := mem_pres.1 h4
        refine hL.opBefore r hr o b a e c1 _ h6 (.inl ⟨_, _, rfl⟩) ω ?_
        rw [name x1 h5] at x2
        exact x2
      · obtain ⟨⟨u, v⟩, hu, rfl⟩ := List.mem_map.1 ht
        obtain ⟨⟨x', y⟩, h3, h4, h4'⟩ := g2.paren.left _ hu
        obtain ⟨q, q', h5, h5'⟩ := mem_parens.1 h3
        cases h5'
        refine hL.opBefore r hr o b a e c1 _ h5 (.inr ⟨_, _, rfl⟩) ω ?_
        rw [name x1 h4] at x2
        exact x2
  · -- expressions with parentheses
    obtain ⟨ρ, hρ, m, k, h1, h2, h3⟩ := H.stands.left r hr
    rw [hrn] at h1
    cases h1
    rcases h3.cases with h3 | ⟨o, e, p', g1, _, g2, _⟩
    · obtain ⟨it, h4, _, _, h5⟩ := h3.node
      rw [hn] at h4
      exact h5 _ (Option.some.inj h4).symm
    · rw [hn] at g1
      cases g1
      obtain ⟨⟨u, v⟩, hu⟩ := List.exists_mem_of_ne_nil _ hne
      obtain ⟨⟨x', y⟩, h4, _⟩ := g2.paren.left _ hu
      obtain ⟨q, q', h5, _⟩ := mem_parens.1 h4
      exact hL.opStart ρ hρ o e q q' h5 (H.start ρ hρ _ h2 hst)
  · -- start symbols
    rcases follow_place H hL hF hS ht with ⟨x, h1, y, h2, h3⟩ | ⟨X, h1, _⟩
    · have ment : ∀ r ∈ rs, ¬ Mentions x r.item := by
        intro r hr hm
        obtain ⟨ω, ρ, hρ, rfl, _⟩ := hL.productive r hr x hm
        exact (H.start ρ hρ s h1 hs).2 r hr hm
      cases h3 with
      | eof _ => rw [H.eof] at h2; exact (Option.some.inj h2).symm
      | next h4 _ =>
        obtain ⟨r, hr, h⟩ := at_mentions h4 x rfl
        exact absurd h (ment r hr)
      | last h4 _ _ =>
        obtain ⟨r, hr, h⟩ := at_mentions h4 x rfl
        exact absurd h (ment r hr)
      | @opNext r o _ a d _ hr e hb _ _ =>
        refine absurd ?_ (ment r hr)
        rw [e]; exact ⟨a, hb⟩
      | @opLast r o _ a _ hr e hb _ =>
        refine absurd ?_ (ment r hr)
        rw [e]; exact ⟨a, hb⟩
    · exact absurd hsym (place_not_sym H h1)

end

end Verif.Front
