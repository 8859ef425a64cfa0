import Verif.Front.Props
import Verif.Whole.FileProps
import Verif.Tables.Props

/-!
# C100: from the written rules to the accepted texts
-/

namespace Verif.Front

open Verif.Grammar (Tables find World Der Wf OpsOk BareOk computeFirst computeFollow)
open Verif.Gen (Ctx Plain OpsLoop LL1)
open Verif.Syntax (Name Rule)
open Verif.Read (Tokens Made)
open Verif.Whole (User Together Yields host run)

/-! ### The conditions of the theorems about the generated parser -/

section
variable {toks : List (Name × Name)} {ts : List Syntax.Tok} {rs : List Rule} {st : St} {W : World}

theorem simple_world {b : Prop} (h : ActRs ts rs (({} : St).tokens toks) st) (hd : DeclaredIn toks rs) (hW : Handed st.finish.1 W) (hs : ∀ r ∈ rs, Simple b r.item) :
    ∀ n it, W.node n = some it → SimpleNode b (OpOf st.finish.1 rs) it := by
  have hwf := C99_well_formed h hd hW
  obtain ⟨t1, t2⟩ := tokens_built toks built_init
  have e : (({} : St).tokens toks).Knows = fun s => s ∈ toks.map (·.1) := funext fun x => propext (by rw [t2]; simp [St.Knows, find])
  have h0 := actRs_simple h t1 (by rw [e]; exact hd) hs (tokens_simple toks (by intro it hit; simp at hit))
  obtain ⟨hb, _⟩ := built_of h hd
  obtain ⟨h1, h2, h3, _, _, h6⟩ := finish_built hb
  have hh : SimpleHeap b (OpOf st.finish.1 rs) st.finish.1.heap := finish_simple (h0.mono fun o ho => ho.mono h2 fun _ h => h)
  obtain ⟨rules, ns, hp, hnd, hns, hall, rfl⟩ := hW
  intro n it hn
  rcases Nat.lt_or_ge n st.finish.1.heap.length with hl | hl
  · rw [(Grammar.C43_nodes (st.finish.1.world rules) ns hnd hns hall).1 n hl] at hn
    exact hh _ (List.mem_of_getElem? hn)
  · have hpar : (Grammar.rewrite (st.finish.1.world rules) ns).parsed = st.finish.1.heap.length := (Grammar.foldl_addBnf ns hnd (st.finish.1.world rules) [] (Nat.le_refl _) (by simp)
      (fun m hm => ⟨st.finish.1.heap[m]'(hns m hm), List.getElem?_eq_getElem _⟩)).2.2
    rcases hwf.made n it (by rw [hpar]; exact hl) hn with ⟨_, _, e⟩ | ⟨_, _, e⟩ <;> rw [e] <;> trivial

/-- Parts are no symbols, and an operator item is the item of a rule. -/
theorem parts_world (h : ActRs ts rs (({} : St).tokens toks) st) (hd : DeclaredIn toks rs) (hW : Handed st.finish.1 W) {n m : Nat} (hp : Grammar.Part W n m) :
    W.node m ≠ some .sym ∧ ∀ o, W.node m = some (.op o) → ∃ s, W.node n = some (.evolve m s) := by
  obtain ⟨hb, _⟩ := built_of h hd
  obtain ⟨h1, h2, h3, _, _, h6⟩ := finish_built hb
  obtain ⟨rules, ns, _, hnd, hns, hall, rfl⟩ := hW
  have hst : Stage (st.finish.1.world rules) (Grammar.rewrite (st.finish.1.world rules) ns) := stage_foldl (tidy_world h1.inv h3 rules) ns _ hns ⟨⟨[], by simp⟩, rfl, fun n it hle hn => by
    have := get_lt hn
    have hle : st.finish.1.heap.length ≤ n := hle
    exact absurd this (by simpa [St.world] using hle)⟩
  rcases Nat.lt_or_ge n st.finish.1.heap.length with hl | hl
  · have en := hst.node (n := n) hl
    obtain ⟨⟨g1, _, g3⟩, g2, g4⟩ := part_below h1.inv (part_of_node en hp)
    have em := hst.node (n := m) (show m < st.finish.1.heap.length by omega)
    rw [em, en]
    refine ⟨g3, fun o ho => ?_⟩
    rcases g4 with g4 | g4
    · exact absurd ho (g4 o)
    · exact g4
  · have fine : Fine (Grammar.rewrite (st.finish.1.world rules) ns) m := by
      obtain ⟨it, hit, hm⟩ := Grammar.part_iff.1 hp
      rcases hst.made n it hl hit with ⟨l, r, rfl, g1, g2⟩ | ⟨l, r, rfl, g1, g2⟩ <;>
      · simp only [Grammar.Item.parts, List.mem_cons, List.not_mem_nil, or_false] at hm
        rcases hm with rfl | rfl
        · exact g1
        · exact g2
    obtain ⟨it, f1, f2, f3⟩ := fine
    rw [f1]
    exact ⟨fun e => f2 (Option.some.inj e), fun o e => absurd (Option.some.inj e) (f3 o)⟩

theorem one_rule {g : Nat → Option Grammar.Item} {T : Tables Name} {s : Name} {k : Nat} (hk : ∀ s', find T.symbols s' = some k ↔ s' = s) : ∀ {es : List Nat} {rs : List Rule}, RuleReps g T es rs →
    ((rs.filter fun r => r.sym = s).length = 0 → ∀ e ∈ es, ∀ i, g e ≠ some (.evolve i k)) ∧
    ((rs.filter fun r => r.sym = s).length = 1 → ∀ e ∈ es, ∀ e' ∈ es, ∀ i i', g e = some (.evolve i k) → g e' = some (.evolve i' k) → e = e')
  | [], [], _ => by simp
  | e :: es, r :: rs, ⟨⟨m, k', h1, h2, _⟩, h⟩ => by
    obtain ⟨h3, h4⟩ := one_rule hk h
    by_cases hs : r.sym = s
    · have : ((r :: rs).filter fun r => r.sym = s) = r :: rs.filter fun r => r.sym = s := by simp [hs]
      rw [this, List.length_cons]
      refine ⟨fun h => by omega, fun h0 => ?_⟩
      have h3 := h3 (by omega)
      intro x hx y hy i i' gx gy
      rcases List.mem_cons.1 hx with rfl | hx
      · rcases List.mem_cons.1 hy with rfl | hy
        · rfl
        · exact absurd gy (h3 y hy i')
      · exact absurd gx (h3 x hx i)
    · have : ((r :: rs).filter fun r => r.sym = s) = rs.filter fun r => r.sym = s := by simp [hs]
      rw [this]
      have hne : ∀ i, g e ≠ some (.evolve i k) := fun i hi => by
        rw [h1] at hi
        cases hi
        exact hs ((hk _).1 h2)
      refine ⟨fun h0 x hx i => ?_, fun h0 x hx y hy i i' gx gy => ?_⟩
      · rcases List.mem_cons.1 hx with rfl | hx
        · exact hne i
        · exact h3 h0 x hx i
      · rcases List.mem_cons.1 hx with rfl | hx
        · exact absurd gx (hne i)
        · rcases List.mem_cons.1 hy with rfl | hy
          · exact absurd gy (hne i')
          · exact h4 h0 x hx y hy i i' gx gy

theorem der_nonterm {m k : Nat} {α : List Nat} (h : Der W m α) (hm : W.node m = some (.nonterm k)) : Der W k α := by
  cases h
  case nonterm h1 h2 => rw [hm] at h1; cases h1; exact h2
  all_goals simp_all

/-- Without inlined symbols the world is as C47 and C97 ask. -/
theorem plain_world {b : Prop} (h : ActRs ts rs (({} : St).tokens toks) st) (hd : DeclaredIn toks rs) (hW : Handed st.finish.1 W) (hs : ∀ r ∈ rs, Simple b r.item) (ho : OpsFine rs) :
    Plain W ∧ OpsOk W ∧ OpsLoop W := by
  have h1 := simple_world h hd hW hs
  have h2 := fun n m => parts_world (n := n) (m := m) h hd hW
  have h3 := C99_sentences h hd hW
  obtain ⟨hb, _⟩ := built_of h hd
  obtain ⟨h4, _, _, _, _, _⟩ := finish_built hb
  have op : ∀ n o, W.node n = some (.op o) → ∃ r ∈ rs, ∃ e, r.item = .op e ∧ Simple b (.op e) ∧ Lists st.finish.1.tab o e.decls ∧ (∃ s a k, e.base = .sym s a ∧ W.node o.base = some (.nonterm k) ∧
      find st.finish.1.tab.symbols s = some k) := by
    intro n o hn
    obtain ⟨r, g1, m, e, g2, ⟨p, g3, ⟨s, a, k, g4, g5, g6⟩, g7, _⟩, g8⟩ := h1 n _ hn
    have g3 : st.finish.1.heap[m]? = _ := g3
    rw [g8] at g3
    cases g3
    refine ⟨r, g1, e, g2, by rw [← g2]; exact hs r g1, g7, s, a, k, g4, ?_, g6⟩
    obtain ⟨rules, ns, _, hnd, hns, hall, rfl⟩ := hW
    exact ((Grammar.C43_nodes (st.finish.1.world rules) ns hnd hns hall).1 _ (get_lt g5)).trans g5
  have names2 : ∀ {α : List (Nat × Nat)}, Names2 st.finish.1.tab α [] → α = [] := by
    intro α h
    cases α with
    | nil => rfl
    | cons => exact h.elim
  have names : ∀ {α : List Nat} {ω : List Name}, Names st.finish.1.tab α ω → ω ≠ [] → α ≠ [] := by
    intro α ω h hne e
    subst e
    cases ω with
    | nil => exact hne rfl
    | cons => exact h.elim
  refine ⟨⟨fun n s hn => h1 _ _ hn, fun n m hp => (h2 n m hp).1, fun n m o hp => (h2 n m hp).2 o, fun r r' n i s o hr hr' hn ho' hi => ?_, fun n o hn => ?_⟩, fun n o hn hnull => ?_, fun n o hn hno => ?_⟩
  · obtain ⟨rules, ns, hp, hnd, hns, hall, rfl⟩ := hW
    have er : (Grammar.rewrite (st.finish.1.world rules) ns).rules = rules := (Grammar.foldl_rules ns _).1
    rw [er] at hr hr'
    have hr := hp.mem_iff.1 hr
    have hr' := hp.mem_iff.1 hr'
    have get : ∀ {n it}, st.finish.1.heap[n]? = some it → (Grammar.rewrite (st.finish.1.world rules) ns).node n = some it := fun hn =>
      ((Grammar.C43_nodes (st.finish.1.world rules) ns hnd hns hall).1 _ (get_lt hn)).trans hn
    obtain ⟨ρ, g1, m, k, g2, g3, g4⟩ := h4.rules.left r hr
    obtain ⟨ρ', _, m', k', g2', _, _⟩ := h4.rules.left r' hr'
    have e1 := get g2
    rw [hn] at e1
    cases e1
    have e2 := get g2'
    rw [hi] at e2
    cases e2
    have g5 : ∃ e, ρ.item = .op e := by
      rcases g4.cases with g4 | ⟨e, g4, _⟩
      · obtain ⟨it, f1, _, _, f4⟩ := g4.node
        have := get f1
        rw [ho'] at this
        exact absurd (Option.some.inj this).symm (f4 o)
      · exact ⟨e, g4⟩
    obtain ⟨e, g5⟩ := g5
    have := (one_rule (g := (st.finish.1.heap[·]?)) (fun s' => ⟨fun h => h4.inv.symInj _ _ _ h g3, fun h => by rw [h]; exact g3⟩) h4.rules).2 (ho ρ g1 e g5).1 r hr r' hr' _ _ g2 g2'
    subst this
    have g2 : st.finish.1.heap[r]? = _ := g2
    have g2' : st.finish.1.heap[r]? = _ := g2'
    rw [g2] at g2'
    cases g2'
    rfl
  · obtain ⟨_, _, e, _, g, l, _⟩ := op n o hn
    refine names2 (α := o.tern) ?_
    have : terns e.decls = [] := List.eq_nil_iff_forall_not_mem.2 fun x hx => by
      obtain ⟨q, q', p, a, hx, _⟩ := mem_terns.1 hx
      exact g.1 _ _ _ _ hx
    rw [← this]
    exact l.tern
  · obtain ⟨r, g1, e, g2, _, _, s, a, k, g4, g5, g6⟩ := op n o hn
    refine (ho r g1 e g2).2 s a g4 (((h3.2.2 s k g6).2 []).2 ⟨[], trivial, ?_⟩)
    exact der_nonterm hnull g5
  · obtain ⟨_, _, e, _, g, l, _⟩ := op n o hn
    obtain ⟨_, q, p, ⟨a, hx⟩ | ⟨a, hx⟩⟩ := g
    · exact names l.post (List.ne_nil_of_mem (mem_posts.2 ⟨q, p, a, hx, rfl⟩)) hno.1
    · exact names l.bin (List.ne_nil_of_mem (mem_bins.2 ⟨q, p, a, hx, rfl⟩)) hno.2.1

end

/-! ### Names and numbers -/

/-- The numbers of the terminal nodes are those of their names. -/
def Numbered (T : Tables Name) (num : Name → Nat) (numOf : Nat → Nat) : Prop := ∀ s t, find T.terminals s = some t → numOf t = num s

theorem numbered_exists {T : Tables Name} (hi : ∀ s s' t, find T.terminals s = some t → find T.terminals s' = some t → s = s') (num : Name → Nat) : ∃ numOf, Numbered T num numOf := by
  classical
  refine ⟨fun t => if h : ∃ s, find T.terminals s = some t then num h.choose else 0, fun s t hs => ?_⟩
  have h : ∃ s, find T.terminals s = some t := ⟨s, hs⟩
  dsimp only
  rw [dif_pos h, hi _ _ t h.choose_spec hs]

/-- The tokens of the text that `D` describes are those with the names `ω`; then it ends or no rule matches. -/
def Cut (D : Read.Spec) (num : Name → Nat) (ω : List Name) : Prop := ∃ ts, Tokens D 0 0 ts ∧ ts.map (·.kind) = (ω.map fun s => (num s : Int)) ++ [1000]

theorem names_map {T : Tables Name} {num : Name → Nat} {numOf : Nat → Nat} (hn : Numbered T num numOf) : ∀ {α : List Nat} {ω : List Name}, Names T α ω →
    α.map (fun t => (numOf t : Int)) = ω.map fun s => (num s : Int)
  | [], [], _ => rfl
  | t :: α, s :: ω, h => by
    rw [List.map_cons, List.map_cons, names_map hn h.2, hn s t h.1]

theorem names_of {T : Tables Name} : ∀ {α : List Nat}, (∀ t ∈ α, ∃ s, find T.terminals s = some t) → ∃ ω, Names T α ω
  | [], _ => ⟨[], trivial⟩
  | t :: α, h => by
    obtain ⟨s, hs⟩ := h t (.head _)
    obtain ⟨ω, hω⟩ := names_of fun t ht => h t (.tail _ ht)
    exact ⟨s :: ω, hs, hω⟩

theorem names_mem {T : Tables Name} : ∀ {α : List Nat} {ω : List Name}, Names T α ω → ∀ t ∈ α, ∃ s, find T.terminals s = some t
  | t :: α, s :: ω, h, _, .head _ => ⟨s, h.1⟩
  | t :: α, s :: ω, h, _, .tail _ ht => names_mem h.2 _ ht

theorem yields_cut {D : Read.Spec} {T : Tables Name} {num : Name → Nat} {numOf : Nat → Nat} (hn : Numbered T num numOf) {α : List Nat} {ω : List Name} (h : Names T α ω) :
    Yields D numOf α ↔ Cut D num ω := by
  unfold Yields Cut
  rw [names_map hn h]

/-- The declared names and `EOF` have different numbers, `EOF` has 1000 (C44), and the tokens of the lexer are among them. -/
structure Fits (toks : List (Name × Name)) (num : Name → Nat) (known : Nat → Prop) : Prop where
  inj : ∀ a b, a ∈ toks.map (·.1) ∨ a = eofName → b ∈ toks.map (·.1) ∨ b = eofName → num a = num b → a = b
  eof : num eofName = 1000
  known : ∀ x, known x → ∃ s, (s ∈ toks.map (·.1) ∨ s = eofName) ∧ num s = x

section
variable {toks : List (Name × Name)} {ts : List Syntax.Tok} {rs : List Rule} {st : St}

theorem fits_world {W : World} {known : Nat → Prop} {num : Name → Nat} {numOf : Nat → Nat} (h : ActRs ts rs (({} : St).tokens toks) st) (hd : DeclaredIn toks rs) (hW : Handed st.finish.1 W)
    (hf : Fits toks num known) (hn : Numbered st.finish.1.tab num numOf) :
    (∀ a b, W.node a = some .term → W.node b = some .term → numOf a = numOf b → a = b) ∧ (st.finish.2 ∈ W.terminals ∧ numOf st.finish.2 = 1000) ∧
    ∀ x, known x → ∃ t ∈ W.terminals, numOf t = x := by
  obtain ⟨t1, t2, t3, t4⟩ := C99_terminals h hd hW
  obtain ⟨_, _, _, he, _, _⟩ := finish_built (built_of h hd).1
  refine ⟨fun a b ha hb hab => ?_, ⟨(t3 _).1 ⟨_, he⟩, by rw [hn _ _ he, hf.eof]⟩, fun x hx => ?_⟩
  · obtain ⟨s, hs⟩ := (t3 a).2 ((t4 a).2 ha)
    obtain ⟨s', hs'⟩ := (t3 b).2 ((t4 b).2 hb)
    rw [hn _ _ hs, hn _ _ hs'] at hab
    cases hf.inj s s' ((t1 s).2 ⟨a, hs⟩) ((t1 s').2 ⟨b, hs'⟩) hab
    rw [hs] at hs'
    exact Option.some.inj hs'
  · obtain ⟨s, hs, e⟩ := hf.known x hx
    obtain ⟨t, ht⟩ := (t1 s).1 hs
    exact ⟨t, (t3 t).1 ⟨s, ht⟩, by rw [hn _ _ ht, e]⟩

/-- What is derived from the node of a symbol and what is a sentence of the symbol give the same texts. -/
theorem sentences_cut {W : World} {num : Name → Nat} {numOf : Nat → Nat} {D : Read.Spec} (h : ActRs ts rs (({} : St).tokens toks) st) (hd : DeclaredIn toks rs) (hW : Handed st.finish.1 W)
    (hn : Numbered st.finish.1.tab num numOf) {s : Name} {k : Nat} (hk : find st.finish.1.tab.symbols s = some k) :
    (∃ α, Der W k α ∧ (∀ t ∈ α, t ∈ W.terminals) ∧ Yields D numOf α) ↔ ∃ ω, Sentence rs s ω ∧ Cut D num ω := by
  obtain ⟨_, _, t3, _⟩ := C99_terminals h hd hW
  have hsen := ((C99_sentences h hd hW).2.2 s k hk).2
  constructor
  · rintro ⟨α, h1, h2, h3⟩
    obtain ⟨ω, hω⟩ := names_of (T := st.finish.1.tab) fun t ht => (t3 t).2 (h2 t ht)
    exact ⟨ω, (hsen ω).2 ⟨α, hω, h1⟩, (yields_cut hn hω).1 h3⟩
  · rintro ⟨ω, h1, h2⟩
    obtain ⟨α, hα, h3⟩ := (hsen ω).1 h1
    exact ⟨α, h3, fun t ht => (t3 t).1 (names_mem hα t ht), (yields_cut hn hα).2 h2⟩

/-- C100 (partial): if the generated parser accepts a text for the start symbol without having recovered from an error, then the names of its tokens are a sentence by the rules as written.
Missing: inlined symbols, ternary operators and operator rules without postfix and binary operators (`Simple`); the parser of a symbol that is mentioned does not ask for `EOF` behind (C47). -/
theorem C100_accepted_partial {K : Ctx} (h : ActRs ts rs (({} : St).tokens toks) st) (hd : DeclaredIn toks rs) (hW : Handed st.finish.1 K.W) (he : K.eofTok = st.finish.2)
    (hs : ∀ r ∈ rs, Simple True r.item) (hop : OpsFine rs) {r : Rule} (hr : r ∈ rs) (hal : Alone rs r.sym) {num : Name → Nat} {numOf : Nat → Nat} (hn : Numbered st.finish.1.tab num numOf)
    {D : Read.Spec} {L : Read.Lx} (hm : Made D L) (ha : D.Advances) (hf : Fits toks num fun x => ∃ r p u q, p < D.n ∧ D.found r p = some (u, q) ∧ u.term = .tok x) {U : User}
    {fuel f : Nat} {σ} {k : Nat} (hk : find st.finish.1.tab.symbols r.sym = some k) (hx : run K fuel (host L K.W numOf) U f k = some (.ok, σ)) (hrec : σ.recovered = 0) :
    ∃ ω, Sentence rs r.sym ω ∧ Cut D num ω := by
  obtain ⟨f1, f2, f3⟩ := fits_world h hd hW hf hn
  obtain ⟨k', hk', h0⟩ := (C99_start h hd hW hr).2 hal
  rw [hk] at hk'
  cases hk'
  obtain ⟨α, a1, a2, _, _, a3⟩ := Whole.C97_accepted_partial (C99_well_formed h hd hW) (plain_world h hd hW hs hop).1 hm
    ⟨ha, f1, by rw [he]; exact f2, fun r p u q x h1 h2 h3 => f3 x ⟨r, p, u, q, h1, h2, h3⟩⟩ hx hrec
  exact (sentences_cut h hd hW hn hk).1 ⟨α, a1, a2, a3 h0⟩

/-- C100 (partial): for rules without inlined symbols, bare code and `try`, that one token of lookahead decides: the parser accepts exactly the texts whose tokens are a sentence of the start symbol
by the rules as written.  Missing: inlined symbols, ternary operators; grammars that need more lookahead (the condition `LL1` is about the nodes). -/
theorem C100_exactly_partial {K : Ctx} (h : ActRs ts rs (({} : St).tokens toks) st) (hd : DeclaredIn toks rs) (hW : Handed st.finish.1 K.W) (he : K.eofTok = st.finish.2)
    (hs : ∀ r ∈ rs, Simple False r.item) (hop : OpsFine rs) {r : Rule} (hr : r ∈ rs) (hal : Alone rs r.sym) (hll : LL1 K) {f1 k1 f2 k2 : Nat} (hF : computeFirst K.W f1 k1 = some K.F)
    (hS : computeFollow K.W K.F K.eofTok f2 k2 = some K.S) {U : User} (hor : ∀ k, U.oracle k = true) {num : Name → Nat} {numOf : Nat → Nat} (hn : Numbered st.finish.1.tab num numOf) :
    ∃ k, find st.finish.1.tab.symbols r.sym = some k ∧ ∃ fuel0, ∀ fuel, fuel0 ≤ fuel → ∀ D L, Made D L → D.Advances →
      Fits toks num (fun x => ∃ r p u q, p < D.n ∧ D.found r p = some (u, q) ∧ u.term = .tok x) →
      ((∃ f σ, run K fuel (host L K.W numOf) U f k = some (.ok, σ)) ↔ ∃ ω, Sentence rs r.sym ω ∧ Cut D num ω) := by
  obtain ⟨k, hk, h0⟩ := (C99_start h hd hW hr).2 hal
  obtain ⟨p1, p2, p3⟩ := plain_world h hd hW hs hop
  have p4 := simple_world h hd hW hs
  obtain ⟨fuel0, hx⟩ := Whole.C97_exactly_partial (num := numOf) (C99_well_formed h hd hW) p1 p2 (Grammar.bareOk_of_none p2 fun n hn => p4 _ _ hn) p3 (fun n l r hn => p4 _ _ hn) hll hF hS hor
    ((C99_sentences h hd hW).2.2 _ k hk).1 h0
  refine ⟨k, hk, fuel0, fun fuel hfuel D L hm ha hf => ?_⟩
  obtain ⟨f1, f2, f3⟩ := fits_world h hd hW hf hn
  rw [hx fuel hfuel D L hm ⟨ha, f1, by rw [he]; exact f2, fun r p u q x h1 h2 h3 => f3 x ⟨r, p, u, q, h1, h2, h3⟩⟩]
  exact sentences_cut h hd hW hn hk

end

/-! ### With the lexer of the file -/

section
open Verif.LexSyn Verif.Auto Verif.LexFile
variable {C : Type} [CharSetLike C] {A : Chars C} {R : LexSyn.Spec.Reading} {toks : List (Name × Name)} {ts : List Syntax.Tok} {rs : List Rule} {st : St}

/-- C100 (partial): from the text of the rules and of the lexer to the accepted texts.  A file with lexer sections as in `C96_lexer_partial`, none of whose rules matches the empty word, and rules as in
`C100_exactly_partial`: on every text, the generated parser with the generated lexer accepts exactly if the rules of the lexer cut the text into tokens whose names are a sentence of the start symbol.
Missing: what is missing in these two theorems. -/
theorem C100_file_partial (hsz : 0 < CharSetLike.size C) (hR : R.Bounded) (order : List Bits → List Bits) (ho : Enumerates order) (uni : Store C → LexSyn.Out (Store C)) (st0 : Store C) (N : Text → Lang)
    (hst : ∀ s d, st0 s = some d → d.ready = false ∧ d.nfa.Wf ∧ ∀ w, d.nfa.Lang w ↔ N s w) (ss : List (Option Text × List Decl))
    (hu : (∃ ds ss', ss = (none, ds) :: ss') ∧ uni (fun _ => none) = .ok st0 ∨ (∀ p ∈ ss, p.1 ≠ none) ∧ st0 = fun _ => none)
    (hf : ∀ p ∈ ss, FaithfulAll A R p.2) (hb : BehindFile A R N (fun s => st0 s ≠ none) ss) (hcl : LexSyn.Spec.ClosedFile (fun s => st0 s ≠ none) ss)
    (hsafe : LexSyn.Spec.SafeFile R (CharSetLike.size C) N ss) {step : List (C × Nat) → Nat → Option Nat} (hstep : ∀ d : DFA C, d.Wf → OnePer d.rules → Lexer.StepOk step d)
    (I : Numbers) {es : Nat → LexFile.Spec.Rules} (hes : ∀ r, LexFile.Spec.File R (CharSetLike.size C) I.tok I.num (I.name r) N ss (es r)) (hus : ∀ r, LexFile.Spec.Usable (es r))
    (hfail : ∀ r, LexFile.Spec.Quiet (LexSyn.Spec.last (LexSyn.Spec.bytes "qDebug() << \"error\"; exit(-1);") LexSyn.Spec.failCode (LexSyn.Spec.ofEnv (I.name r) ss)))
    (hadv : ∀ r, ∀ e ∈ es r, ∀ w, e.1 w → e.2.ahead < w.length)
    {K : Ctx} (h : ActRs ts rs (({} : St).tokens toks) st) (hd : DeclaredIn toks rs) (hW : Handed st.finish.1 K.W) (he : K.eofTok = st.finish.2)
    (hs : ∀ r ∈ rs, Simple False r.item) (hop : OpsFine rs) {r : Rule} (hr : r ∈ rs) (hal : Alone rs r.sym) (hll : LL1 K) {f1 k1 f2 k2 : Nat} (hF : computeFirst K.W f1 k1 = some K.F)
    (hS : computeFollow K.W K.F K.eofTok f2 k2 = some K.S) {U : User} (hor : ∀ k, U.oracle k = true) {num : Name → Nat} {numOf : Nat → Nat} (hn : Numbered st.finish.1.tab num numOf)
    (hfit : Fits toks num fun x => ∃ r, ∃ e ∈ es r, e.2.term = .tok x) :
    ∃ k, find st.finish.1.tab.symbols r.sym = some k ∧ ∃ F, ∀ fuel, F ≤ fuel → ∃ sys, execFile A order fuel uni Sys.init ss = .ok sys ∧
      ∃ d : Nat → DFA C, (∀ r, ∃ G, ∀ fuel', G ≤ fuel' → automaton order fuel' (sys.envs (I.name r)).rules (sys.envs (I.name r)).actions = some (d r)) ∧
        ∀ buf, (∀ x ∈ buf, x < CharSetLike.size C) → ∀ L, Generated I step d sys buf L → ∃ D, LexFile.Spec.Describes es buf D ∧
          ((∃ f σ, run K fuel (host L K.W numOf) U f k = some (.ok, σ)) ↔ ∃ ω, Sentence rs r.sym ω ∧ Cut D num ω) := by
  obtain ⟨k, hk, h0⟩ := (C99_start h hd hW hr).2 hal
  obtain ⟨p1, p2, p3⟩ := plain_world h hd hW hs hop
  have p4 := simple_world h hd hW hs
  obtain ⟨q1, q2, q3⟩ := fits_world h hd hW hfit hn
  obtain ⟨F, hx⟩ := Whole.C97_file_partial hsz hR order ho uni st0 N hst ss hu hf hb hcl hsafe hstep I hes hus hfail hadv (C99_well_formed h hd hW) p1 p2
    (Grammar.bareOk_of_none p2 fun n hn => p4 _ _ hn) p3 (fun n l r hn => p4 _ _ hn) hll hF hS hor ((C99_sentences h hd hW).2.2 _ k hk).1 h0 q1 (by rw [he]; exact q2)
    (fun r e he x hx => q3 x ⟨r, e, he, hx⟩)
  refine ⟨k, hk, F, fun fuel hfuel => ?_⟩
  obtain ⟨sys, h1, d, h2, h3⟩ := hx fuel hfuel
  refine ⟨sys, h1, d, h2, fun buf hbuf L hL => ?_⟩
  obtain ⟨D, d1, d2⟩ := h3 buf hbuf L hL
  exact ⟨D, d1, d2.trans (sentences_cut h hd hW hn hk)⟩

end

/-! ### The numbers of the tokens -/

/-- The name as text. -/
def chars (s : Name) : Tables.Text := s.map Char.ofNat

theorem chars_inj {s s' : Name} (h : ∀ c ∈ s, c < 128) (h' : ∀ c ∈ s', c < 128) (e : chars s = chars s') : s = s' := by
  induction s generalizing s' with
  | nil => cases s' with
    | nil => rfl
    | cons _ _ => cases e
  | cons c s ih => cases s' with
    | nil => cases e
    | cons c' s' =>
      obtain ⟨e1, e2⟩ := List.cons.inj e
      have key : ∀ a, a < 128 → ∀ b, b < 128 → Char.ofNat a = Char.ofNat b → a = b := by decide +kernel
      rw [key c (h c (.head _)) c' (h' c' (.head _)) e1, ih (fun x hx => h x (.tail _ hx)) (fun x hx => h' x (.tail _ hx)) e2]

/-- C100: with the numbers that `GenerateTokenType` writes for the declared names and `EOF`, different names have different numbers, and `EOF` has 1000. -/
theorem C100_numbers (le : Tables.Text → Tables.Text → Bool) {toks : List (Name × Name)} (ha : ∀ t ∈ toks, ∀ c ∈ t.1, c < 128) {num : Name → Nat}
    (hn : ∀ s i, (chars s, i) ∈ Tables.tokenType (Tables.terminals le (toks.map fun t => chars t.1)) → num s = i) : Fits toks num fun x => ∃ s ∈ toks.map (·.1), num s = x := by
  obtain ⟨c1, _, c3, c4⟩ := Tables.C44_numbering le (toks.map fun t => chars t.1)
  have eofc : chars eofName = Tables.eof := by decide +kernel
  have val : ∀ s, s ∈ toks.map (·.1) ∨ s = eofName → (chars s, num s) ∈ Tables.tokenType (Tables.terminals le (toks.map fun t => chars t.1)) := by
    intro s hs
    obtain ⟨i, hi⟩ := (c1 (chars s)).1 (by
      rcases hs with hs | rfl
      · obtain ⟨t, ht, rfl⟩ := List.mem_map.1 hs
        exact .inl (List.mem_map.2 ⟨t, ht, rfl⟩)
      · exact .inr eofc)
    rw [hn s i hi]
    exact hi
  have ascii : ∀ s, s ∈ toks.map (·.1) ∨ s = eofName → ∀ c ∈ s, c < 128 := by
    intro s hs
    rcases hs with hs | rfl
    · obtain ⟨t, ht, rfl⟩ := List.mem_map.1 hs
      exact ha t ht
    · decide +kernel
  refine ⟨fun a b h1 h2 e => ?_, (c4 _ _ (val _ (.inr rfl))).1 eofc, fun x ⟨s, h1, h2⟩ => ⟨s, .inl h1, h2⟩⟩
  have v1 := val a h1
  rw [e] at v1
  exact chars_inj (ascii a h1) (ascii b h2) (c3 _ _ _ v1 (val b h2))

/-! ### An example: the lexer of `LexFile.exSection` with `%token N, A, C ;  N (A | C)* -> s ;` -/

section
open Verif.Whole Verif.LexFile Verif.LexSyn Verif.Auto

def listToks : List (Name × Name) := [([78], [78]), ([65], [97]), ([67], [67])]

def listTokens : List Syntax.Tok := [.term [78], .lp, .term [65], .bar, .term [67], .rp, .star, .arrow, .ident [115], .semi]

def listRules : List Rule := [⟨.cons (.term [78]) (.star (.alt (.term [65]) (.term [67]))), [115], [], []⟩]

def list1 : St × Nat := (({} : St).tokens listToks).term [78]
def list2 : St × Nat := list1.1.term [65]
def list3 : St × Nat := list2.1.term [67]
def list4 : St × Nat := list3.1.new (.alt list2.2 list3.2)
def list5 : St × Nat := list4.1.new (.star list4.2)
def list6 : St × Nat := list5.1.new (.cons list1.2 list5.2)
def listSt : St := list6.1.rule list6.2 [115]

theorem list_act : ActRs listTokens listRules (({} : St).tokens listToks) listSt := by
  have a1 : Act .seq [.term [78]] (.term [78]) (({} : St).tokens listToks) list1.1 list1.2 := .one (.unary (.primary (.atom .term)))
  have a2 : Act .option [.term [65]] (.term [65]) list1.1 list2.1 list2.2 := .single (.sequence (.one (.unary (.primary (.atom .term)))))
  have a3 : Act .cond [.term [67]] (.term [67]) list2.1 list3.1 list3.2 := .sequence (.one (.unary (.primary (.atom .term))))
  have a4 : Act .option [.term [65], .bar, .term [67]] (.alt (.term [65]) (.term [67])) list1.1 list4.1 list4.2 := .alt a2 a3
  have a5 : Act .postfix [.lp, .term [65], .bar, .term [67], .rp, .star] (.star (.alt (.term [65]) (.term [67]))) list1.1 list5.1 list5.2 :=
    .unary (.star (ts := [.lp, .term [65], .bar, .term [67], .rp]) (.paren a4))
  have a6 : Act .option [.term [78], .lp, .term [65], .bar, .term [67], .rp, .star] (.cons (.term [78]) (.star (.alt (.term [65]) (.term [67])))) (({} : St).tokens listToks) list6.1 list6.2 :=
    .single (.sequence (.seq a1 a5 rfl))
  exact .more .nil (.plain (s := [115]) a6 .none)

theorem list_declared : DeclaredIn listToks listRules := fun r hr => by
  cases List.mem_singleton.1 hr
  exact ⟨.head _, .tail _ (.head _), .tail _ (.tail _ (.head _))⟩

def listW : World := Grammar.rewrite (listSt.finish.1.world listSt.finish.1.rules) [list5.2]

theorem list_handed : Handed listSt.finish.1 listW := by
  refine ⟨_, [list5.2], .refl _, by decide +kernel, by decide +kernel, fun n it hn hit => ?_, rfl⟩
  have h : (List.range listSt.finish.1.heap.length).all (fun n => match listSt.finish.1.heap[n]? with
    | some (.plus _) => [list5.2].contains n | some (.star _) => [list5.2].contains n | some (.op _) => [list5.2].contains n | _ => true) = true := by decide +kernel
  have := List.all_eq_true.1 h n (List.mem_range.2 (get_lt hn))
  rw [hn] at this
  rcases hit with ⟨i, rfl⟩ | ⟨i, rfl⟩ | ⟨o, rfl⟩ <;> simpa using this

def listK : Ctx := Gen.ctxOf listW listSt.finish.2

theorem listK_ll1 : LL1 listK := (Gen.ll1_of_ll1B (K := listK) (nb := fun n => [4, 8, 10, 11].contains n) (by decide +kernel)).1

/-- The numbers that `LexFile.exNumbers` gives to the names. -/
def listNumber (s : Name) : Nat := if s = [78] then 1078 else if s = [65] then 1065 else if s = [67] then 1067 else 1000

theorem list_fits : Fits listToks listNumber fun x => ∃ r : Nat, ∃ e ∈ (fun _ : Nat => LexFile.exRules) r, e.2.term = .tok x := by
  refine ⟨fun a b ha hb => ?_, by decide +kernel, ?_⟩
  · have h : ∀ a ∈ listToks.map (·.1) ++ [eofName], ∀ b ∈ listToks.map (·.1) ++ [eofName], listNumber a = listNumber b → a = b := by decide +kernel
    exact h a (List.mem_append.2 (ha.imp id List.mem_singleton.2)) b (List.mem_append.2 (hb.imp id List.mem_singleton.2))
  · rintro x ⟨r, e, he, hx⟩
    simp only [LexFile.exRules, List.mem_cons, List.not_mem_nil, _root_.or_false] at he
    rcases he with rfl | rfl | rfl | rfl | rfl <;> simp only [Read.Term.tok.injEq, reduceCtorEq] at hx <;> subst hx
    · exact ⟨[78], .inl (.head _), rfl⟩
    · exact ⟨[65], .inl (.tail _ (.head _)), rfl⟩
    · exact ⟨[67], .inl (.tail _ (.tail _ (.head _))), rfl⟩
    · exact ⟨[67], .inl (.tail _ (.tail _ (.head _))), rfl⟩

/-- The conditions of `C100_file_partial` hold; the text `1ax#b!` with the tokens `N A C` is accepted. -/
example : ∃ k numOf, find listSt.finish.1.tab.symbols [115] = some k ∧ Numbered listSt.finish.1.tab listNumber numOf ∧
    ∃ F, ∀ fuel, F ≤ fuel → ∃ sys, execFile asciiChars List.dedup fuel (fun _ => .stuck) Sys.init exFile = .ok sys ∧
      ∃ d : Nat → DFA (CharSet.Table 128), ∀ L, Generated exNumbers Lexer.tableStep d sys [49, 97, 120, 35, 98, 33] L → ∃ f σ, run listK fuel (host L listK.W numOf) quietUser f k = some (.ok, σ) := by
  obtain ⟨c1, c2, c3, c4, c5, c6⟩ := ex_conditions
  obtain ⟨numOf, hn⟩ := numbered_exists (C99_terminals list_act list_declared list_handed).2.1 listNumber
  obtain ⟨k, hk, F, h⟩ := C100_file_partial (C := CharSet.Table 128) (A := asciiChars) (R := exK) (by decide) c1 List.dedup enumerates_dedup (fun _ => .stuck) exStore exN (by simp) exFile
    (Or.inr ⟨by simp, rfl⟩) c2 c3 c4 c5 ex_tab exNumbers (es := fun _ => LexFile.exRules) (fun _ => ex_file) (fun _ => ex_usable) c6 (fun _ => ex_advances)
    (K := listK) list_act list_declared list_handed rfl (fun r hr => by cases List.mem_singleton.1 hr; exact ⟨trivial, trivial, trivial⟩) (fun r hr o ho => by cases List.mem_singleton.1 hr; cases ho) (r := listRules[0]) (.head _)
    ⟨by decide +kernel, fun r hr => by cases List.mem_singleton.1 hr; exact fun h => by rcases h with h | h | h <;> exact h⟩ listK_ll1
    (f1 := 50) (k1 := 20) (f2 := 50) (k2 := 20) (by decide +kernel) (by decide +kernel) (U := quietUser) (fun _ => rfl) hn list_fits
  refine ⟨k, numOf, hk, hn, F, fun fuel hf => ?_⟩
  obtain ⟨sys, h1, d, h2, h3⟩ := h fuel hf
  refine ⟨sys, h1, d, fun L hL => ?_⟩
  obtain ⟨D, d1, d2⟩ := h3 _ (by decide) L hL
  refine d2.2 ⟨[[78], [65], [67]], ⟨_, .head _, rfl, .cons (α := [[78]]) .term (.again (α := [[65]]) (.left .term) (.again (α := [[67]]) (.right .term) .none))⟩, ?_⟩
  exact list_yields d1

/-! ### An example with an operator rule: `%token N, A, C ;  %< a %bin A 1 %left %post C 2 %> s ;  N -> a ;` -/

def sumDecls : List Syntax.OpDecl := [.bin ⟨[65], [], []⟩ (.number [49]) .left, .post ⟨[67], [], []⟩ (.number [50]) none]

def sumTokens : List Syntax.Tok := [.lopr, .ident [97], .bin, .term [65], .number [49], .left, .post, .term [67], .number [50], .ropr, .ident [115], .semi, .term [78], .arrow, .ident [97], .semi]

def sumRules : List Rule := [⟨.op ⟨.sym [97] [], sumDecls⟩, [115], [], []⟩, ⟨.term [78], [97], [], []⟩]

def sum1 : St × Nat := (({} : St).tokens listToks).symbol [97]
def sum2 : St × Nat := sum1.1.new (.nonterm sum1.2)
def sum3 : St × Nat := sum2.1.term [65]
def sum4 : St × Nat := sum3.1.term [67]
def sum5 : St := sum4.1.opRule { base := sum2.2, bin := [sum3.2], post := [sum4.2] } [115]
def sum6 : St × Nat := sum5.term [78]
def sumSt : St := sum6.1.rule sum6.2 [97]

theorem sum_act : ActRs sumTokens sumRules (({} : St).tokens listToks) sumSt := by
  have a1 : Act .atom [.ident [97]] (.nonterm [97] []) (({} : St).tokens listToks) sum2.1 sum2.2 := .nonterm rfl
  have d1 : Syntax.DeclsR [.bin, .term [65], .number [49], .left, .post, .term [67], .number [50]] sumDecls := .cons (.bin .plain .number .left) (.cons (.post .plain .number) .nil)
  have a2 : Act .option [.term [78]] (.term [78]) sum5 sum6.1 sum6.2 := .single (.sequence (.one (.unary (.primary (.atom .term)))))
  exact .more (.more .nil (.opPlain (s := [115]) a1 d1 rfl .none)) (.plain (s := [97]) a2 .none)

theorem sum_declared : DeclaredIn listToks sumRules := fun r hr => by
  simp only [sumRules, List.mem_cons, List.not_mem_nil, _root_.or_false] at hr
  rcases hr with rfl | rfl
  · intro d hd q hq
    simp only [sumDecls, List.mem_cons, List.not_mem_nil, _root_.or_false] at hd
    rcases hd with rfl | rfl
    · cases List.mem_singleton.1 hq; exact .tail _ (.head _)
    · cases List.mem_singleton.1 hq; exact .tail _ (.tail _ (.head _))
  · exact .head _

def sumW : World := Grammar.rewrite (sumSt.finish.1.world sumSt.finish.1.rules) [5]

theorem sum_handed : Handed sumSt.finish.1 sumW := by
  refine ⟨_, [5], .refl _, by decide +kernel, by decide +kernel, fun n it hn hit => ?_, rfl⟩
  have h : (List.range sumSt.finish.1.heap.length).all (fun n => match sumSt.finish.1.heap[n]? with
    | some (.plus _) => [5].contains n | some (.star _) => [5].contains n | some (.op _) => [5].contains n | _ => true) = true := by decide +kernel
  have := List.all_eq_true.1 h n (List.mem_range.2 (get_lt hn))
  rw [hn] at this
  rcases hit with ⟨i, rfl⟩ | ⟨i, rfl⟩ | ⟨o, rfl⟩ <;> simpa using this

def sumK : Ctx := Gen.ctxOf sumW sumSt.finish.2

theorem sumK_ll1 : LL1 sumK := (Gen.ll1_of_ll1B (K := sumK) (nb := fun n => n == sumW.zero) (by decide +kernel)).1

/-- The words of the base are `N`. -/
theorem sum_base {ω : List Name} (h : Sentence sumRules [97] ω) : ω = [[78]] := by
  obtain ⟨r, hr, h1, h2⟩ := h
  simp only [sumRules, List.mem_cons, List.not_mem_nil, _root_.or_false] at hr
  rcases hr with rfl | rfl
  · exact absurd h1 (by decide)
  · cases h2; rfl

theorem sum_fine : OpsFine sumRules := fun r hr o ho => by
  simp only [sumRules, List.mem_cons, List.not_mem_nil, _root_.or_false] at hr
  rcases hr with rfl | rfl
  · cases ho
    refine ⟨by decide +kernel, fun s a e h => ?_⟩
    cases e
    cases sum_base h
  · cases ho

theorem sum_simple : ∀ r ∈ sumRules, Simple False r.item := fun r hr => by
  simp only [sumRules, List.mem_cons, List.not_mem_nil, _root_.or_false] at hr
  rcases hr with rfl | rfl
  · exact ⟨by simp [sumDecls], ⟨[65], [], []⟩, .number [49], .inr ⟨.left, .head _⟩⟩
  · trivial

/-- The conditions of `C100_exactly_partial` hold; the tokens `N A N C` are accepted. -/
example : ∃ k numOf, find sumSt.finish.1.tab.symbols [115] = some k ∧ Numbered sumSt.finish.1.tab listNumber numOf ∧ ∃ F, ∀ fuel, F ≤ fuel → ∀ D L, Read.Made D L → D.Advances →
    Fits listToks listNumber (fun x => ∃ r p u q, p < D.n ∧ D.found r p = some (u, q) ∧ u.term = .tok x) → Cut D listNumber [[78], [65], [78], [67]] →
    ∃ f σ, run sumK fuel (host L sumK.W numOf) quietUser f k = some (.ok, σ) := by
  obtain ⟨numOf, hn⟩ := numbered_exists (C99_terminals sum_act sum_declared sum_handed).2.1 listNumber
  have m1 : sumRules[0] ∈ sumRules := .head _
  have m2 : sumRules[1] ∈ sumRules := .tail _ (.head _)
  obtain ⟨k, hk, F, h⟩ := C100_exactly_partial (K := sumK) sum_act sum_declared sum_handed rfl sum_simple sum_fine m1
    ⟨by decide +kernel, fun r hr => by
      simp only [sumRules, List.mem_cons, List.not_mem_nil, _root_.or_false] at hr
      rcases hr with rfl | rfl
      · rintro ⟨a, e⟩; cases e
      · exact fun h => h⟩ sumK_ll1
    (f1 := 50) (k1 := 20) (f2 := 50) (k2 := 20) (by decide +kernel) (by decide +kernel) (U := quietUser) (fun _ => rfl) hn
  refine ⟨k, numOf, hk, hn, F, fun fuel hf D L hm ha hfit hc => (h fuel hf D L hm ha hfit).2 ⟨_, ⟨_, m1, rfl, ?_⟩, hc⟩⟩
  have b : Sen sumRules (.op ⟨.sym [97] [], sumDecls⟩) [[78]] := .opBase (s := [97]) (a := []) rfl (.nonterm m2 rfl .term)
  exact .opBin (q := ⟨[65], [], []⟩) (.head _) b (.opPost (q := ⟨[67], [], []⟩) (.tail _ (.head _)) b)

end

end Verif.Front
