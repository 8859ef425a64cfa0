import Verif.Gen.Forward

/-! # Generated parsers accept the sentences (lemmas for C48) -/

namespace Verif.Gen

open Verif.Grammar

/-- What is assumed of the grammar, of its sets and of the surroundings. -/
structure Ready (K : Ctx) (E : Env) (G : Nat) : Prop where
  wf : Wf K.W
  plain : Plain K.W
  ops : OpsOk K.W
  bare : BareOk K.W
  noCatch : ∀ n l r, K.W.node n ≠ some (.tryc l (some r))
  ll : LL1 K
  quiet : Quiet K.W K.F
  init : ∀ p ∈ initFirst K.W, p ∈ K.F
  follow : FQuiet K.W K.F K.S
  gen : ∀ s, K.W.node s = some .sym → ∃ b, parseFun K G s = some b
  oracle : ∀ k, E.oracle k = true

section
variable {K : Ctx} {E : Env} {G : Nat}

/-- The token may follow the item, by the FOLLOW sets. -/
def Fol (K : Ctx) (n a : Nat) : Prop := K.W.node n ≠ some .zero → K.W.node n ≠ some .term → (n, a) ∈ K.S

theorem Fol.mem {n a it} (h : Fol K n a) (hn : K.W.node n = some it) (h1 : it ≠ .zero) (h2 : it ≠ .term) : (n, a) ∈ K.S :=
  h (by rw [hn]; simpa using h1) (by rw [hn]; simpa using h2)

theorem Fol.incl {n m a} (h : (n, a) ∈ K.S) (ha : K.W.node a = some .term) (hi : FIncl K.W K.S n m) : Fol K m a :=
  fun h1 h2 => hi h1 h2 a ha h

variable (R : Ready K E G)
include R

theorem ev_of {n : Nat} (h : FSeen K.W n) : ∃ V, FEv K.W K.F K.S V n := by
  obtain ⟨V, hv⟩ := h
  exact ⟨V, hv.ev R.follow⟩

theorem tok_self {t : Nat} (h : t ∈ K.W.terminals) : (t, t) ∈ K.F := R.init _ (by simp [initFirst]; exact .inr h)

theorem first_of_der {n t : Nat} {γ : List Nat} (hs : FSeen K.W n ∨ K.W.node n = some .sym) (h : Der K.W n (t :: γ)) (ht : t ∈ K.W.terminals) :
    First K n t := by
  unfold First
  split
  · next hn =>
    have := der_term hn h
    simp only [List.cons.injEq] at this
    exact this.1
  · refine ⟨R.wf.terminals t ht, tok_first R.wf R.quiet R.init R.ops R.bare h rfl (R.wf.terminals t ht) (tok_self R ht) ?_⟩
    rcases hs with hs | hs
    · exact .inl (hs.seen R.quiet)
    · exact .inr hs

theorem reduces_of_null {n : Nat} {b : Bool} (hp : ∀ i s, K.W.node n ≠ some (.evolve i s)) (h : Nullable K.W n) (e : reduces K.W K.F n = some b) : b = true := by
  rcases (nz_first R.wf R.quiet R.init (nz_of_null R.ops R.bare h rfl)).2 with ⟨i, s', h'⟩ | h'
  · exact absurd h' (hp i s')
  · exact reduces_of_says h' e

/-- What follows the parts of a sequence. -/
theorem cons_follow {n l r a : Nat} (hs : FSeen K.W n) (hn : K.W.node n = some (.cons l r)) (ha : K.W.node a = some .term) (hf : (n, a) ∈ K.S) :
    Fol K r a ∧ (Nullable K.W r → Fol K l a) := by
  obtain ⟨V, hv⟩ := ev_of R hs
  obtain ⟨er, her, _, _, g1, g2, g3⟩ := fev_cons hv hn
  refine ⟨.incl hf ha g1, fun h => ?_⟩
  have : er = true := reduces_of_null R (fun i s => R.wf.parts n r i s (.consR hn)) h her
  exact .incl hf ha (g3 this)

theorem cons_first {n l r t : Nat} {γ : List Nat} (hs : FSeen K.W n) (hn : K.W.node n = some (.cons l r)) (hd : Der K.W r (t :: γ)) (ht : t ∈ K.W.terminals) :
    Fol K l t := by
  obtain ⟨V, hv⟩ := ev_of R hs
  obtain ⟨er, her, _, _, g1, g2, g3⟩ := fev_cons hv hn
  intro h1 h2
  have ht' := R.wf.terminals t ht
  exact g2 h1 h2 t ht' (tok_first R.wf R.quiet R.init R.ops R.bare hd rfl ht' (tok_self R ht) (.inl ((hs.calls (.consR hn)).seen R.quiet)))

/-- What follows the item of a loop. -/
theorem loop_follow {i z c a x : Nat} {γ : List Nat} (hz : K.W.node z = some .zero) (hc : K.W.node c = some (.cons i a)) (ha : K.W.node a = some (.alt z c))
    (hs : FSeen K.W a ∨ FSeen K.W c) (hx : K.W.node x = some .term)
    (h : (FSeen K.W a ∧ (a, x) ∈ K.S) ∨ (FSeen K.W c ∧ (c, x) ∈ K.S) ∨ (x ∈ K.W.terminals ∧ Der K.W a (x :: γ))) : Fol K i x := by
  have sc : FSeen K.W c := by
    rcases hs with hs | hs
    · exact hs.calls (.twoR (.inl ha))
    · exact hs
  have na : Nullable K.W a := .altL ha (.zero hz)
  have key : (c, x) ∈ K.S → Fol K i x := fun h => (cons_follow R sc hc hx h).2 na
  rcases h with ⟨sa, h⟩ | ⟨_, h⟩ | ⟨ht, h⟩
  · obtain ⟨V, hv⟩ := ev_of R sa
    obtain ⟨_, _, _, g2⟩ := fev_two hv (.inl ha)
    exact key ((Fol.incl h hx g2).mem hc (by simp) (by simp))
  · exact key h
  · exact cons_first R sc hc h ht

theorem star_follow {n i x : Nat} {γ : List Nat} (hs : FSeen K.W n) (hn : K.W.node n = some (.star i)) (hx : K.W.node x = some .term)
    (h : (n, x) ∈ K.S ∨ (x ∈ K.W.terminals ∧ Der K.W n (x :: γ))) : FSeen K.W i ∧ Fol K i x := by
  obtain ⟨c, a, h1, h2, h3⟩ := R.wf.bnf.star n i hn
  have sa := hs.direct (.star hn h1)
  refine ⟨(sa.calls (.twoR (.inl h3))).calls (.consL h2), ?_⟩
  refine loop_follow R (γ := γ) R.wf.zero h2 h3 (.inl sa) hx ?_
  rcases h with h | ⟨ht, h⟩
  · obtain ⟨V, hv⟩ := ev_of R hs
    exact .inl ⟨sa, (Fol.incl h hx (fev_direct hv (.star hn h1)).2).mem h3 (by simp) (by simp)⟩
  · refine .inr (.inr ⟨ht, ?_⟩)
    exact (loop_iff R.wf.zero h2 h3).2.mpr ((star_iff hn).mp h)

theorem plus_follow {n i x : Nat} {γ : List Nat} (hs : FSeen K.W n) (hn : K.W.node n = some (.plus i)) (hx : K.W.node x = some .term)
    (h : (n, x) ∈ K.S ∨ (x ∈ K.W.terminals ∧ Der K.W n (x :: γ))) : FSeen K.W i ∧ Fol K i x := by
  obtain ⟨c, a, h1, h2, h3⟩ := R.wf.bnf.plus n i hn
  have sc := hs.direct (.plus hn h1)
  refine ⟨sc.calls (.consL h2), ?_⟩
  refine loop_follow R (γ := γ) R.wf.zero h2 h3 (.inr sc) hx ?_
  rcases h with h | ⟨ht, h⟩
  · obtain ⟨V, hv⟩ := ev_of R hs
    exact .inr (.inl ⟨sc, (Fol.incl h hx (fev_direct hv (.plus hn h1)).2).mem h2 (by simp) (by simp)⟩)
  · refine .inr (.inr ⟨ht, .altR h3 ?_⟩)
    exact (loop_iff R.wf.zero h2 h3).1.mpr ((plus_iff hn).mp h)

/-- The chain of alternatives made for an operator item. -/
theorem chain_follow {top base : Nat} {b0 : Item} (hb : K.W.node base = some b0) (hb1 : b0 ≠ .zero) (hb2 : b0 ≠ .term) : ∀ {bs : List OpBody} {j : Nat},
    ChainAt K.W top base bs j → FSeen K.W j →
    (∀ b ∈ bs, ∃ l, BodyAt K.W top b l ∧ FSeen K.W l) ∧ FSeen K.W base ∧ ∀ x, K.W.node x = some .term → (j, x) ∈ K.S → (base, x) ∈ K.S
  | [], j, h, hs => by
    cases h
    exact ⟨by simp, hs, fun x _ h => h⟩
  | b :: bs, j, h, hs => by
    obtain ⟨r, h1, h2, _, h3⟩ := h
    obtain ⟨g1, g2, g3⟩ := chain_follow hb hb1 hb2 h3 (hs.calls (.twoR (.inl h1)))
    refine ⟨?_, g2, ?_⟩
    · intro y hy
      rcases List.mem_cons.mp hy with rfl | hy
      · exact ⟨_, h2, hs.calls (.twoL (.inl h1))⟩
      · exact g1 y hy
    · intro x hx hm
      obtain ⟨V, hv⟩ := ev_of R hs
      obtain ⟨_, _, _, i2⟩ := fev_two hv (.inl h1)
      refine g3 x hx ?_
      have hr : K.W.node r ≠ some .zero ∧ K.W.node r ≠ some .term := by
        cases bs with
        | nil => cases h3; rw [hb]; simp [hb1, hb2]
        | cons y ys =>
          obtain ⟨_, h3, _⟩ := h3
          rw [h3]; simp
      exact i2 hr.1 hr.2 x hx hm

/-- The FOLLOW set of the node that stands for an operator expression. -/
theorem op_follow {n k : Nat} {o : OpItem} (hs : FSeen K.W n) (hn : K.W.node n = some (.op o)) (hk : K.W.bnf n = some k) (hne : o.bodies ≠ []) :
    (∀ x, K.W.node x = some .term → (n, x) ∈ K.S → (k, x) ∈ K.S) ∧ (∀ t ∈ o.post ++ o.bin, t ∈ K.W.terminals → (k, t) ∈ K.S) ∧
    (∀ p ∈ o.paren, p.2 ∈ K.W.terminals → (k, p.2) ∈ K.S) ∧
    FSeen K.W o.base ∧ ∀ x, K.W.node x = some .term → (k, x) ∈ K.S → (o.base, x) ∈ K.S := by
  obtain ⟨k', hk', hc, _⟩ := R.wf.bnf.op n o hn
  rw [hk] at hk'; cases hk'
  obtain ⟨s, hb⟩ := R.wf.opBase n o hn
  have sk := hs.direct (.op hn hk)
  obtain ⟨g1, g2, g3⟩ := chain_follow R hb (by simp) (by simp) hc sk
  have halt : ∃ l r, K.W.node k = some (.alt l r) := by
    cases hbs : o.bodies with
    | nil => exact absurd hbs hne
    | cons b bs => rw [hbs] at hc; obtain ⟨r, h1, _⟩ := hc; exact ⟨_, _, h1⟩
  obtain ⟨l0, r0, halt⟩ := halt
  have hz : K.W.node k ≠ some .zero ∧ K.W.node k ≠ some .term := by rw [halt]; simp
  have tself : ∀ {t : Nat}, t ∈ K.W.terminals → Der K.W t (t :: []) := fun h => .term (R.wf.terminals _ h)
  refine ⟨?_, ?_, ?_, g2, g3⟩
  · intro x hx h
    obtain ⟨V, hv⟩ := ev_of R hs
    exact (fev_direct hv (.op hn hk)).2 hz.1 hz.2 x hx h
  · intro t ht htt
    rcases List.mem_append.mp ht with ht | ht
    · obtain ⟨l, h1, h2⟩ := g1 (.post t) (mem_bodies.mpr (.inr (.inl ⟨t, ht, rfl⟩)))
      exact cons_first R h2 h1 (tself htt) htt hz.1 hz.2
    · obtain ⟨l, ⟨h1, h1'⟩, h2⟩ := g1 (.bin t) (mem_bodies.mpr (.inr (.inr (.inl ⟨t, ht, rfl⟩))))
      obtain ⟨V, hv⟩ := ev_of R h2
      obtain ⟨_, _, _, _, _, i2, _⟩ := fev_cons hv h1
      have ht' := R.wf.terminals t htt
      refine i2 hz.1 hz.2 t ht' ?_
      obtain ⟨_, _, _, _, _, _, i3, _⟩ := ((h2.calls (.consR h1)).seen R.quiet).cons R.quiet h1'
      refine i3 t (tok_self R htt) ?_
      exact passes_true.2 (by rw [ht']; simp)
  · intro p hp hpt
    obtain ⟨l, ⟨h1, h1'⟩, h2⟩ := g1 (.paren p.1 p.2) (mem_bodies.mpr (.inr (.inr (.inr (.inr ⟨p, hp, rfl⟩)))))
    exact cons_first R (h2.calls (.consR h1)) h1' (tself hpt) hpt hz.1 hz.2

omit R

/-! ### The claims -/

def NodeOk (K : Ctx) (E : Env) (G n : Nat) (ω : List Nat) : Prop := ∀ g self c k s k' st, FSeen K.W n → n < K.W.parsed → Here K self n →
  gen K self g n c k = some (s, k') → Reads E.inp st.pos ω → K.W.node (E.inp (st.pos + ω.length)) = some .term → Fol K n (E.inp (st.pos + ω.length)) →
  ∃ st', Goes K E G s st st' ∧ st'.pos = st.pos + ω.length

def CallOk (K : Ctx) (E : Env) (G n : Nat) (ω : List Nat) : Prop := K.W.node n = some .sym → ∀ c st, Reads E.inp st.pos ω →
  K.W.node (E.inp (st.pos + ω.length)) = some .term → (n, E.inp (st.pos + ω.length)) ∈ K.S →
  ∃ st', Goes K E G (.call n c) st st' ∧ st'.pos = st.pos + ω.length

def LoopOk (K : Ctx) (E : Env) (G n : Nat) (ω : List Nat) : Prop := ∀ o k self d l st, K.W.node n = some (.op o) → K.W.bnf n = some k → FSeen K.W n →
  opDesc K self n o = some d → Here K self n → Reads E.inp st.pos ω → K.W.node (E.inp (st.pos + ω.length)) = some .term →
  (k, E.inp (st.pos + ω.length)) ∈ K.S →
  ∃ l' st', Leads K E G (.opLoop d false l) st (.opLoop d true l') st' ∧ st'.pos = st.pos + ω.length

structure Claim (K : Ctx) (E : Env) (G n : Nat) (ω : List Nat) : Prop where
  node : NodeOk K E G n ω
  choice : ∀ ms, Choice K.W n ms → ∃ m ∈ ms, Der K.W m ω ∧ NodeOk K E G m ω
  call : CallOk K E G n ω
  loop : LoopOk K E G n ω

theorem Claim.mk' {n : Nat} {ω : List Nat} {it : Item} (hn : K.W.node n = some it) (hd : Der K.W n ω) (ha : ∀ l r, it ≠ .alt l r) (hs : it ≠ .sym)
    (ho : ∀ o, it ≠ .op o) (h : NodeOk K E G n ω) : Claim K E G n ω where
  node := h
  choice ms hm := by
    cases hm with
    | leaf => exact ⟨n, by simp, hd, h⟩
    | alt h' => rw [hn] at h'; cases h'; exact absurd rfl (ha _ _)
  call h' := by rw [hn] at h'; cases h'; exact absurd rfl hs
  loop o k self d l st h' := by rw [hn] at h'; cases h'; exact absurd rfl (ho _)

theorem flatten_choice {W : World} : ∀ {f n l}, flatten W f n = some l → Choice W n l
  | 0, _, _, h => nomatch h
  | f + 1, n, l, h => by
    unfold flatten at h
    split at h
    · next a b hd =>
      simp only [Option.bind_eq_some_iff, Option.map_eq_some_iff] at h
      obtain ⟨x, hx, y, hy, rfl⟩ := h
      exact .alt hd (flatten_choice hx) (flatten_choice hy)
    · next hd =>
      simp only [Option.some.injEq] at h
      subst h
      exact .leaf hd

include R

theorem choice_parts {self n : Nat} {ms : List Nat} (h : Choice K.W n ms) (hs : FSeen K.W n) (hp : n < K.W.parsed) (hh : Here K self n) :
    ∀ m ∈ ms, FSeen K.W m ∧ m < K.W.parsed ∧ Here K self m ∧ ∀ a, K.W.node a = some .term → Fol K n a → Fol K m a := by
  induction h with
  | leaf => intro m hm; rw [List.mem_singleton] at hm; subst hm; exact ⟨hs, hp, hh, fun _ _ h => h⟩
  | @alt n l r a b hn _ _ ih1 ih2 =>
    have lt : ∀ {m}, Part K.W n m → m < K.W.parsed := fun h => by
      rcases R.wf.order n _ hp h with h | ⟨o, h⟩
      · omega
      · rw [hn] at h; cases h
    obtain ⟨V, hv⟩ := ev_of R hs
    obtain ⟨_, _, i1, i2⟩ := fev_two hv (.inl hn)
    intro m hm
    rcases List.mem_append.mp hm with hm | hm
    · obtain ⟨g1, g2, g3, g4⟩ := ih1 (hs.calls (.twoL (.inl hn))) (lt (.altL hn)) (hh.part R.wf R.plain (.altL hn)) m hm
      exact ⟨g1, g2, g3, fun x hx hf => g4 x hx (.incl (hf.mem hn (by simp) (by simp)) hx i1)⟩
    · obtain ⟨g1, g2, g3, g4⟩ := ih2 (hs.calls (.twoR (.inl hn))) (lt (.altR hn)) (hh.part R.wf R.plain (.altR hn)) m hm
      exact ⟨g1, g2, g3, fun x hx hf => g4 x hx (.incl (hf.mem hn (by simp) (by simp)) hx i2)⟩

omit R in
theorem altTest_true {m p k : Nat} (ho : ∀ k, E.oracle k = true) (h : First K m (E.inp p) ∨ Silent K m) : ((altTest K m).eval E p k).1 = true := by
  unfold altTest
  split
  · exact user_true ho (testOf_true h)
  · exact testOf_true h

omit R in
theorem altTest_false {m p k : Nat} (h1 : ¬ First K m (E.inp p)) (h2 : ∃ t, First K m t) : ((altTest K m).eval E p k).1 = false := by
  unfold altTest
  split
  · exact user_false (testOf_false h1 h2)
  · exact testOf_false h1 h2

/-- The alternative is reached. -/
theorem alts_run {self n m c : Nat} {ω : List Nat} {p : Nat} (hf : (n, E.inp (p + ω.length)) ∈ K.S)
    (hm1 : FSeen K.W m) (hm2 : m < K.W.parsed) (hm3 : Here K self m) (hm4 : Fol K m (E.inp (p + ω.length))) (hd : Der K.W m ω) (hok : NodeOk K E G m ω)
    (hω : ∀ t ∈ ω, t ∈ K.W.terminals) (hr : Reads E.inp p ω) (ha : K.W.node (E.inp (p + ω.length)) = some .term)
    (hnull : Nullable K.W m → Silent K m) : ∀ {ms : List Nat} {g k s k'} {st : State}, st.pos = p → m ∈ ms →
    (ms.Pairwise fun m m' => (∃ t, First K m t) ∧ (∀ t, First K m t → ¬ First K m' t) ∧ (Nullable K.W m' → ∀ t, First K m t → (n, t) ∉ K.S)) →
    genAlts K self g ms c k = some (s, k') → ∃ st', Goes K E G s st st' ∧ st'.pos = p + ω.length
  | [], _, _, _, _, _, _, h, _, _ => by simp at h
  | x :: ms, 0, _, _, _, _, _, _, _, h => by simp [genAlts] at h
  | x :: ms, g + 1, k, s, k', st, hp, hm, hpw, hg => by
    subst hp
    unfold genAlts at hg
    simp only [Option.bind_eq_some_iff, Option.map_eq_some_iff, Prod.mk.injEq] at hg
    obtain ⟨⟨a, k1⟩, h1, ⟨b, k2⟩, h2, rfl, rfl⟩ := hg
    by_cases hx : x = m
    · subst hx
      have ht : First K x (E.inp st.pos) ∨ Silent K x := by
        cases ω with
        | nil => exact .inr (hnull hd)
        | cons t γ =>
          rw [hr.1]
          exact .inl (first_of_der R (.inl hm1) hd (hω t (by simp)))
      obtain ⟨st', h3, h4⟩ := hok g self c k a k1 { st with asked := ((altTest K x).eval E st.pos st.asked).2 } hm1 hm2 hm3 h1 hr ha hm4
      exact ⟨st', .iteT (altTest_true R.oracle ht) h3, h4⟩
    · rw [List.pairwise_cons] at hpw
      have hm : m ∈ ms := by
        rcases List.mem_cons.mp hm with h | h
        · exact absurd h.symm hx
        · exact h
      obtain ⟨q1, q2, q3⟩ := hpw.1 m hm
      have hnf : ¬ First K x (E.inp st.pos) := by
        intro hF
        cases ω with
        | nil => exact q3 hd _ hF hf
        | cons t γ =>
          rw [hr.1] at hF
          exact q2 _ hF (first_of_der R (.inl hm1) hd (hω t (by simp)))
      obtain ⟨st', h3, h4⟩ := alts_run hf hm1 hm2 hm3 hm4 hd hok hω hr ha hnull
        (st := { st with asked := ((altTest K x).eval E st.pos st.asked).2 }) rfl hm hpw.2 h2
      exact ⟨st', .iteF (altTest_false hnf q1) h3, h4⟩

/-- A choice. -/
theorem alt_node {n l r : Nat} {ω : List Nat} (hn : K.W.node n = some (.alt l r)) (hω : ∀ t ∈ ω, t ∈ K.W.terminals)
    (h : ∀ ms, Choice K.W n ms → ∃ m ∈ ms, Der K.W m ω ∧ NodeOk K E G m ω) : NodeOk K E G n ω := by
  intro g self c k s k' st hs hp hh hg hr ha hf
  cases g with
  | zero => simp [gen] at hg
  | succ g =>
    rw [gen, hn] at hg
    simp only [Option.bind_eq_some_iff] at hg
    obtain ⟨a, h1, b, h2, hg⟩ := hg
    have hc : Choice K.W n (a ++ b) := .alt hn (flatten_choice h1) (flatten_choice h2)
    obtain ⟨m, hm, hd, hok⟩ := h _ hc
    obtain ⟨g1, g2, g3, g4⟩ := choice_parts R hc hs hp hh m hm
    exact alts_run R (hf.mem hn (by simp) (by simp)) g1 g2 g3 (g4 _ ha hf) hd hok hω hr ha
      (fun hnull => R.ll.altNull n l r _ m hh.occ hp hn hc hm hnull) rfl hm (R.ll.alt n l r _ hh.occ hp hn hc) hg

omit R in
theorem ofSet_false {s : List Nat} {p k x : Nat} (h : E.inp p ∉ s) (hx : x ∈ s) (hxt : K.W.node x = some .term) : ((ofSet K.W s).eval E p k).1 = false := by
  unfold ofSet
  rw [if_neg]
  · simp only [Test.eval, decide_eq_false_iff_not, List.mem_filter, not_and]
    exact fun h' => absurd h' h
  · simp only [List.all_eq_true, decide_eq_true_eq]
    intro h'
    rw [h' x hx] at hxt
    cases hxt

/-- The rule is reached. -/
theorem rules_run {n r i : Nat} {ω : List Nat} {p : Nat} (hn : K.W.node n = some .sym) (hr0 : r ∈ K.W.rules) (hnr : K.W.node r = some (.evolve i n))
    (hf : (n, E.inp (p + ω.length)) ∈ K.S) (hd : Der K.W i ω) (hok : NodeOk K E G i ω)
    (hω : ∀ t ∈ ω, t ∈ K.W.terminals) (hr : Reads E.inp p ω) (ha : K.W.node (E.inp (p + ω.length)) = some .term) :
    ∀ {rs : List Nat} {g k s k'} {st : State}, st.pos = p → r ∈ rs → (∀ x ∈ rs, x ∈ rulesOf K.W n) →
    (rs.Pairwise fun r r' => ∀ i i' s, K.W.node r = some (.evolve i s) → K.W.node r' = some (.evolve i' s) →
      (∃ t, First K r t) ∧ (∀ t, First K r t → ¬ First K r' t) ∧ (Nullable K.W i' → ∀ t, First K r t → (s, t) ∉ K.S) ∧
      (reduces K.W K.F i = some true → ¬ Nullable K.W i' ∧ ∀ t, First K r' t → (s, t) ∉ K.S)) →
    genRules K n g rs k = some (s, k') → ∃ st', Goes K E G s st st' ∧ st'.pos = p + ω.length
  | [], _, _, _, _, _, _, h, _, _, _ => by simp at h
  | x :: rs, g, k, s, k', st, hp, hm, hrs, hpw, hg => by
    subst hp
    obtain ⟨hx, j, hdx⟩ := mem_rulesOf.mp (hrs x List.mem_cons_self)
    unfold genRules at hg
    rw [hdx] at hg
    simp only [Option.bind_eq_some_iff, Option.map_eq_some_iff, Prod.mk.injEq] at hg
    obtain ⟨⟨t, a, k1⟩, h1, ⟨b, k2⟩, h2, rfl, rfl⟩ := hg
    cases g with
    | zero => simp [genRule] at h1
    | succ g =>
    unfold genRule at h1
    simp only [Option.bind_eq_some_iff, Option.map_eq_some_iff, Prod.mk.injEq] at h1
    obtain ⟨t', ht', ⟨b', k3⟩, hb', rfl, rfl, rfl⟩ := h1
    simp only [ruleTest, Option.map_eq_some_iff] at ht'
    obtain ⟨e, he, rfl⟩ := ht'
    have sr : FSeen K.W x := ⟨_, .rule hx⟩
    have sr' : FSeen K.W r := ⟨_, .rule hr0⟩
    by_cases hxr : x = r
    · subst hxr
      rw [hdx] at hnr
      cases hnr
      have lt : i < K.W.parsed := by
        have := (R.wf.rules x hx).1
        rcases R.wf.order x i this (.evolve hdx) with h | ⟨o, h⟩
        · omega
        · rw [hdx] at h; cases h
      obtain ⟨V, hv⟩ := ev_of R sr
      obtain ⟨_, i1, i2⟩ := fev_evolve hv hdx
      have fr := (Fol.incl hf ha i1).mem hdx (by simp) (by simp)
      have fi := Fol.incl fr ha i2
      have run : ∀ T : Test, (T.eval E st.pos st.asked).1 = true →
          ∃ st', Goes K E G (.ite T (.seq (.code x) (if n ∈ K.W.start then .seq b' .eof else b')) b) st st' ∧ st'.pos = st.pos + ω.length := by
        intro T hT
        obtain ⟨st1, h3, h4⟩ := hok g n 0 k b' k3 { st with asked := (T.eval E st.pos st.asked).2, user := E.act x st.user }
          (sr.calls (.evolve hdx)) lt (here_of_rule R.wf R.plain hx hdx) hb' hr ha fi
        refine ⟨st1, .iteT hT (.seq .code ?_), h4⟩
        split
        · next hst =>
          refine .seq h3 (.eof ?_)
          rw [h4]
          exact R.ll.start n _ hst (R.wf.symbols _ _ (.inr (.inr ⟨_, hdx⟩))) hf ha
        · exact h3
      refine run _ ?_
      have base : ((if e = true then Test.or (testOf K x) (ofSet K.W (K.S.of n)) else testOf K x).eval E st.pos st.asked).1 = true := by
        cases ω with
        | nil =>
          have : e = true := reduces_of_null R (fun i' s' => R.wf.parts x i i' s' (.evolve hdx)) hd he
          rw [if_pos this]
          exact or_true (.inr fun _ => ofSet_true (mem_of.mpr hf) ha)
        | cons t γ =>
          have hF : First K x (E.inp st.pos) := by
            rw [hr.1]; exact first_of_der R (.inl sr) (.evolve hdx hd) (hω t (by simp))
          split
          · exact or_true (.inl (testOf_true (.inl hF)))
          · exact testOf_true (.inl hF)
      split
      · exact user_true R.oracle base
      · exact base
    · have hm : r ∈ rs := by
        rcases List.mem_cons.mp hm with h | h
        · exact absurd h.symm hxr
        · exact h
      rw [List.pairwise_cons] at hpw
      obtain ⟨q1, q2, q3, q4⟩ := hpw.1 r hm j i n hdx hnr
      have hnf : ¬ First K x (E.inp st.pos) := by
        intro hF
        cases ω with
        | nil => exact q3 hd _ hF hf
        | cons t γ =>
          rw [hr.1] at hF
          exact q2 _ hF (first_of_der R (.inl sr') (.evolve hnr hd) (hω t (by simp)))
      have run : ∀ T : Test, (T.eval E st.pos st.asked).1 = false → ∀ c, ∃ st', Goes K E G (.ite T c b) st st' ∧ st'.pos = st.pos + ω.length := by
        intro T hT c
        obtain ⟨st', h3, h4⟩ := rules_run hn hr0 hnr hf hd hok hω hr ha (st := { st with asked := (T.eval E st.pos st.asked).2 }) rfl hm
          (fun y hy => hrs y (List.mem_cons_of_mem _ hy)) hpw.2 h2
        exact ⟨st', .iteF hT h3, h4⟩
      refine run _ ?_ _
      have base : ((if e = true then Test.or (testOf K x) (ofSet K.W (K.S.of n)) else testOf K x).eval E st.pos st.asked).1 = false := by
        split
        · next he' =>
          subst he'
          refine or_false (testOf_false hnf q1) fun k => ?_
          obtain ⟨q5, q6⟩ := q4 he
          refine ofSet_false (x := E.inp (st.pos + ω.length)) ?_ (mem_of.mpr hf) ha
          intro hin
          cases ω with
          | nil => exact q5 hd
          | cons t γ =>
            rw [hr.1] at hin
            exact q6 t (first_of_der R (.inl sr') (.evolve hnr hd) (hω t (by simp))) (mem_of.mp hin)
        · exact testOf_false hnf q1
      split
      · exact user_false base
      · exact base

theorem rules_pairwise (s : Nat) : (rulesOf K.W s).Pairwise fun r r' => ∀ i i' s, K.W.node r = some (.evolve i s) → K.W.node r' = some (.evolve i' s) →
      (∃ t, First K r t) ∧ (∀ t, First K r t → ¬ First K r' t) ∧ (Nullable K.W i' → ∀ t, First K r t → (s, t) ∉ K.S) ∧
      (reduces K.W K.F i = some true → ¬ Nullable K.W i' ∧ ∀ t, First K r' t → (s, t) ∉ K.S) := by
  unfold rulesOf
  rw [← List.filter_reverse]
  exact R.ll.rules.sublist List.filter_sublist

/-- A call. -/
theorem call_ok {n r i : Nat} {ω : List Nat} (hn : K.W.node n = some .sym) (hr0 : r ∈ K.W.rules) (hnr : K.W.node r = some (.evolve i n))
    (hd : Der K.W i ω) (hok : NodeOk K E G i ω) (hω : ∀ t ∈ ω, t ∈ K.W.terminals) : CallOk K E G n ω := by
  intro _ c st hr ha hf
  obtain ⟨b, hb⟩ := R.gen n hn
  have hb' := hb
  unfold parseFun at hb'
  simp only [Option.map_eq_some_iff] at hb'
  obtain ⟨⟨b', k'⟩, hg, rfl⟩ := hb'
  obtain ⟨st', h1, h2⟩ := rules_run R hn hr0 hnr hf hd hok hω hr ha (st := st.enter) rfl (mem_rulesOf.mpr ⟨hr0, i, hnr⟩) (fun _ h => h)
    (rules_pairwise R n) hg
  exact ⟨_, .call hb h1, h2⟩

/-! ### Operator expressions -/

omit R in
theorem opDesc_eq {self n : Nat} {o : OpItem} {d : OpDesc} (h : opDesc K self n o = some d) : ∃ b, K.W.node o.base = some (.nonterm b) ∧
    o.bodies ≠ [] ∧ d = ⟨self, testOf K self, b, testOf K b, rows1 K n .post o.post ++ rows1 K n .bin o.bin ++ rows2 K n .tern o.tern,
      rows1 K n .pre o.pre ++ rows2 K n .paren o.paren⟩ := by
  unfold opDesc at h
  split at h
  · cases h
  · next hne =>
    simp only [Option.map_eq_some_iff, symOf] at h
    obtain ⟨b, hb, rfl⟩ := h
    split at hb
    · next s hs =>
      simp only [Option.some.injEq] at hb
      subst hb
      refine ⟨s, hs, fun e => hne ?_, rfl⟩
      simp only [OpItem.bodies, List.reverse_eq_nil_iff, List.append_eq_nil_iff, List.map_eq_nil_iff] at e
      exact ⟨e.1.1.1.2, e.1.1.2, e.1.2⟩
    · cases hb

theorem after_toks {self n : Nat} {o : OpItem} {d : OpDesc} (hn : K.W.node n = some (.op o)) (h : opDesc K self n o = some d) :
    d.after.map (·.tok) = o.post ++ o.bin := by
  obtain ⟨b, _, _, rfl⟩ := opDesc_eq h
  simp [rows1_tok, rows2_tok, R.plain.noTern n o hn]

omit R in
theorem before_toks {self n : Nat} {o : OpItem} {d : OpDesc} (h : opDesc K self n o = some d) :
    d.before.map (·.tok) = o.pre ++ o.paren.map (·.1) := by
  obtain ⟨b, _, _, rfl⟩ := opDesc_eq h
  simp [rows1_tok, rows2_tok]

/-- The item of an operator rule. -/
theorem op_node {n : Nat} {o : OpItem} {ω : List Nat} (hn : K.W.node n = some (.op o)) (h : LoopOk K E G n ω) : NodeOk K E G n ω := by
  intro g self c k s k' st hs hp hh hg hr ha hf
  cases g with
  | zero => simp [gen] at hg
  | succ g =>
    rw [gen, hn] at hg
    simp only [Option.map_eq_some_iff, Prod.mk.injEq] at hg
    obtain ⟨d, hd, rfl, rfl⟩ := hg
    obtain ⟨kt, hk, _⟩ := R.wf.bnf.op n o hn
    obtain ⟨b, hb, hne, _⟩ := opDesc_eq hd
    obtain ⟨g1, _⟩ := op_follow R hs hn hk hne
    have hf' := hf.mem hn (by simp) (by simp)
    obtain ⟨l', st', h1, h2⟩ := h o kt self d [] st hn hk hs hd hh hr ha (g1 _ ha hf')
    refine ⟨st', h1 _ (loop_end ?_), h2⟩
    rw [after_toks R hn hd, h2]
    intro hm
    exact ((R.ll.opAfter n o hn).2 _ hm).1 hf'

theorem op_nonempty {n : Nat} {o : OpItem} (hn : K.W.node n = some (.op o)) {α : List Nat} (h : Der K.W n α) : α ≠ [] := by
  rintro rfl
  have h := nz_of_null R.ops R.bare h rfl
  cases h <;> simp_all

/-- A call of the function of the expression itself, in parentheses. -/
theorem self_call {n self : Nat} {o : OpItem} {d : OpDesc} {p : Nat × Nat} {α : List Nat} (hn : K.W.node n = some (.op o)) (hs : FSeen K.W n)
    (hd : opDesc K self n o = some d) (hh : Here K self n) (hp : p ∈ o.paren) (hpt : p.2 ∈ K.W.terminals) (hα : ∀ t ∈ α, t ∈ K.W.terminals)
    (hder : Der K.W n α) (hl : LoopOk K E G n α) {st : State} (hr : Reads E.inp st.pos α) (ha : E.inp (st.pos + α.length) = p.2) :
    ∃ st', Goes K E G (.call self 0) st st' ∧ st'.pos = st.pos + α.length := by
  obtain ⟨r, hr0, hnr⟩ := hh.op o hn
  have hsym := R.wf.symbols r self (.inr (.inr ⟨n, hnr⟩))
  obtain ⟨b, hb⟩ := R.gen self hsym
  have hb' := hb
  unfold parseFun at hb'
  simp only [Option.map_eq_some_iff] at hb'
  obtain ⟨⟨b', k'⟩, hg, rfl⟩ := hb'
  obtain ⟨kt, hk, _⟩ := R.wf.bnf.op n o hn
  obtain ⟨b, hbase, hne, _⟩ := opDesc_eq hd
  obtain ⟨_, _, g3, _⟩ := op_follow R hs hn hk hne
  -- the first of the rules
  have hmem : r ∈ rulesOf K.W self := mem_rulesOf.mpr ⟨hr0, n, hnr⟩
  generalize hrs : rulesOf K.W self = rs at hg
  cases rs with
  | nil => rw [hrs] at hmem; simp at hmem
  | cons x rs =>
    obtain ⟨hx, j, hdx⟩ := mem_rulesOf.mp (hrs ▸ List.mem_cons_self : x ∈ rulesOf K.W self)
    have hj : j = n := R.plain.opOnly r x n j self o hr0 hx hnr hn hdx
    subst hj
    unfold genRules at hg
    rw [hdx] at hg
    simp only [Option.bind_eq_some_iff, Option.map_eq_some_iff, Prod.mk.injEq] at hg
    obtain ⟨⟨t, a, k1⟩, h1, ⟨b2, k2⟩, h2, rfl, rfl⟩ := hg
    cases G with
    | zero => simp [genRule] at h1
    | succ g =>
    unfold genRule at h1
    simp only [Option.bind_eq_some_iff, Option.map_eq_some_iff, Prod.mk.injEq] at h1
    obtain ⟨t', ht', ⟨b', k3⟩, hb', rfl, rfl, rfl⟩ := h1
    simp only [ruleTest, Option.map_eq_some_iff] at ht'
    obtain ⟨e, he, rfl⟩ := ht'
    have sr : FSeen K.W x := ⟨_, .rule hx⟩
    have hnst : self ∉ K.W.start := R.ll.opStart j o r self hn (by intro h; rw [h] at hp; simp at hp) hr0 hnr
    have hbody : b' = .opLoop d false [] := by
      cases g with
      | zero => simp [gen] at hb'
      | succ g =>
        rw [gen, hn] at hb'
        simp only [hd, Option.map_some, Option.some.injEq, Prod.mk.injEq] at hb'
        exact hb'.1.symm
    subst hbody
    rw [if_neg hnst] at hb
    have hp2 := R.wf.terminals _ hpt
    have hF : First K x (E.inp st.pos) := by
      cases α with
      | nil => exact absurd rfl (op_nonempty R hn hder)
      | cons t γ =>
        rw [hr.1]
        exact first_of_der R (.inl sr) (.evolve hdx hder) (hα t (by simp))
    have run : ∀ T : Test, (T.eval E st.pos st.asked).1 = true → ∃ st', Goes K E (g + 1) (.ite T (.seq (.code x) (.opLoop d false [])) b2) st.enter st' ∧
        st'.pos = st.pos + α.length := by
      intro T hT
      obtain ⟨l', st1, h3, h4⟩ := hl o kt self d [] { st.enter with asked := (T.eval E st.pos st.asked).2, user := E.act x st.user } hn hk hs hd hh hr
        (by simp only [State.enter]; rw [ha]; exact hp2) (by simp only [State.enter]; rw [ha]; exact g3 p hp hpt)
      refine ⟨st1, .iteT hT (.seq .code (h3 _ (loop_end ?_))), h4⟩
      rw [after_toks R hn hd, h4]
      intro hm
      refine ((R.ll.opAfter j o hn).2 _ hm).2 ?_
      simp only [State.enter]
      rw [ha]
      exact List.mem_map_of_mem hp
    have base : ∀ k, ((if e = true then Test.or (testOf K x) (ofSet K.W (K.S.of self)) else testOf K x).eval E st.pos k).1 = true := by
      intro k
      split
      · exact or_true (.inl (testOf_true (.inl hF)))
      · exact testOf_true (.inl hF)
    obtain ⟨st1, h3, h4⟩ := run (if isCond K.W j = true then .user (if e = true then Test.or (testOf K x) (ofSet K.W (K.S.of self)) else testOf K x)
      else if e = true then Test.or (testOf K x) (ofSet K.W (K.S.of self)) else testOf K x) (by
        split
        · exact user_true R.oracle (base _)
        · exact base _)
    exact ⟨st1.back st, .call hb h3, h4⟩

theorem Claim.op {n : Nat} {o : OpItem} {ω : List Nat} (hn : K.W.node n = some (.op o)) (hd : Der K.W n ω) (h : LoopOk K E G n ω) : Claim K E G n ω where
  node := op_node R hn h
  choice ms hm := by
    cases hm with
    | leaf => exact ⟨n, by simp, hd, op_node R hn h⟩
    | alt h' => rw [hn] at h'; cases h'
  call h' := by rw [hn] at h'; cases h'
  loop := h

/-- Every item does what it should on every sentence derived from it. -/
theorem complete {n : Nat} {ω : List Nat} (h : Der K.W n ω) (hω : ∀ t ∈ ω, t ∈ K.W.terminals) : Claim K E G n ω := by
  have lt : ∀ {n m it}, n < K.W.parsed → K.W.node n = some it → (∀ o, it ≠ .op o) → Part K.W n m → m < K.W.parsed := by
    intro n m it hp hn ho h
    rcases R.wf.order n _ hp h with h | ⟨o, h⟩
    · omega
    · rw [hn] at h; cases h; exact absurd rfl (ho o)
  induction h with
  | zero hn =>
    refine .mk' hn (.zero hn) (by simp) (by simp) (by simp) ?_
    intro g self c k s k' st hs hp hh hg hr ha hf
    cases g with
    | zero => simp [gen] at hg
    | succ g =>
      rw [gen, hn] at hg
      simp only [Option.some.injEq, Prod.mk.injEq] at hg
      rw [← hg.1]
      exact ⟨st, .skip, rfl⟩
  | @term n hn =>
    refine .mk' hn (.term hn) (by simp) (by simp) (by simp) ?_
    intro g self c k s k' st hs hp hh hg hr ha hf
    cases g with
    | zero => simp [gen] at hg
    | succ g =>
      rw [gen, hn] at hg
      simp only [Option.some.injEq, Prod.mk.injEq] at hg
      rw [← hg.1]
      exact ⟨st.lex, .seq (.test hr.1) .lex, rfl⟩
  | @sym n hn =>
    have := R.wf.terminals n (hω n (by simp))
    rw [hn] at this; cases this
  | @expand n r i α hn hr0 hnr hd ih =>
    have ih := ih hω
    have ns : ∀ l r, K.W.node n ≠ some (.alt l r) := by rw [hn]; simp
    have hnode : NodeOk K E G n α := fun g self c k s k' st hs hp hh => absurd hn hh.sym
    refine ⟨hnode, ?_, call_ok R hn hr0 hnr hd ih.node hω, fun o k self d l st h' => by rw [hn] at h'; cases h'⟩
    intro ms hm
    cases hm with
    | leaf => exact ⟨n, by simp, .expand hn hr0 hnr hd, hnode⟩
    | alt h' => exact absurd h' (ns _ _)
  | @evolve n i s α hn hd ih =>
    exact .mk' hn (.evolve hn hd) (by simp) (by simp) (by simp) fun g self c k s k' st hs hp hh => absurd hn (hh.rule _ _)
  | @nonterm n s α hn hd ih =>
    have ih := ih hω
    refine .mk' hn (.nonterm hn hd) (by simp) (by simp) (by simp) ?_
    intro g self c k s' k' st hs hp hh hg hr ha hf
    cases g with
    | zero => simp [gen] at hg
    | succ g =>
      rw [gen, hn] at hg
      simp only [Option.some.injEq, Prod.mk.injEq] at hg
      rw [← hg.1]
      obtain ⟨V, hv⟩ := ev_of R hs
      have hsym := R.wf.symbols n s (.inl hn)
      exact ih.call hsym c st hr ha ((Fol.incl (hf.mem hn (by simp) (by simp)) ha (fev_symbol hv (.inl hn))).mem hsym (by simp) (by simp))
  | inlined hn => exact absurd hn (R.plain.noInline _ _)
  | @cons n l r α β hn hl hr' ih1 ih2 =>
    have ih1 := ih1 fun t ht => hω t (by simp [ht])
    have ih2 := ih2 fun t ht => hω t (by simp [ht])
    refine .mk' hn (.cons hn hl hr') (by simp) (by simp) (by simp) ?_
    intro g self c k s k' st hs hp hh hg hr ha hf
    cases g with
    | zero => simp [gen] at hg
    | succ g =>
      rw [gen, hn] at hg
      simp only [Option.bind_eq_some_iff, Option.map_eq_some_iff, Prod.mk.injEq] at hg
      obtain ⟨⟨a, k1⟩, h1, ⟨b, k2⟩, h2, rfl, rfl⟩ := hg
      obtain ⟨r1, r2⟩ := reads_append.mp hr
      rw [List.length_append, ← Nat.add_assoc] at ha hf ⊢
      have hf' := hf.mem hn (by simp) (by simp)
      obtain ⟨f1, f2⟩ := cons_follow R hs hn ha hf'
      have key : K.W.node (E.inp (st.pos + α.length)) = some .term ∧ Fol K l (E.inp (st.pos + α.length)) := by
        cases β with
        | nil => exact ⟨ha, f2 hr'⟩
        | cons t γ =>
          have ht := hω t (by simp)
          rw [r2.1]
          exact ⟨R.wf.terminals t ht, cons_first R hs hn hr' ht⟩
      obtain ⟨st1, h3, h4⟩ := ih1.node g self c k a k1 st (hs.calls (.consL hn)) (lt hp hn (by simp) (.consL hn)) (hh.part R.wf R.plain (.consL hn)) h1 r1 key.1 key.2
      obtain ⟨st2, h5, h6⟩ := ih2.node g self c k1 b k2 st1 (hs.calls (.consR hn)) (lt hp hn (by simp) (.consR hn)) (hh.part R.wf R.plain (.consR hn)) h2
        (h4 ▸ r2) (h4 ▸ ha) (h4 ▸ f1)
      exact ⟨st2, .seq h3 h5, by rw [h6, h4]⟩
  | @altL n l r α hn hd ih =>
    have ih := ih hω
    have hc : ∀ ms, Choice K.W n ms → ∃ m ∈ ms, Der K.W m α ∧ NodeOk K E G m α := by
      intro ms hm
      cases hm with
      | leaf h' => exact absurd hn (h' _ _)
      | alt h' hl hr =>
        rw [hn] at h'; cases h'
        obtain ⟨m, hm, h⟩ := ih.choice _ hl
        exact ⟨m, by simp [hm], h⟩
    exact ⟨alt_node R hn hω hc, hc, fun h => by simp [hn] at h, fun o k self d l st h => by simp [hn] at h⟩
  | @altR n l r α hn hd ih =>
    have ih := ih hω
    have hc : ∀ ms, Choice K.W n ms → ∃ m ∈ ms, Der K.W m α ∧ NodeOk K E G m α := by
      intro ms hm
      cases hm with
      | leaf h' => exact absurd hn (h' _ _)
      | alt h' hl hr =>
        rw [hn] at h'; cases h'
        obtain ⟨m, hm, h⟩ := ih.choice _ hr
        exact ⟨m, by simp [hm], h⟩
    exact ⟨alt_node R hn hω hc, hc, fun h => by simp [hn] at h, fun o k self d l st h => by simp [hn] at h⟩
  | @action0 n hn =>
    refine .mk' hn (.action0 hn) (by simp) (by simp) (by simp) ?_
    intro g self c k s k' st hs hp hh hg hr ha hf
    cases g with
    | zero => simp [gen] at hg
    | succ g =>
      rw [gen, hn] at hg
      simp only [Option.some.injEq, Prod.mk.injEq] at hg
      rw [← hg.1]
      exact ⟨_, .code, rfl⟩
  | @action n i α hn hd ih =>
    have ih := ih hω
    refine .mk' hn (.action hn hd) (by simp) (by simp) (by simp) ?_
    intro g self c k s k' st hs hp hh hg hr ha hf
    cases g with
    | zero => simp [gen] at hg
    | succ g =>
      rw [gen, hn] at hg
      simp only [Option.map_eq_some_iff, Prod.mk.injEq] at hg
      obtain ⟨⟨b, k1⟩, h1, rfl, rfl⟩ := hg
      obtain ⟨V, hv⟩ := ev_of R hs
      obtain ⟨st1, h3, h4⟩ := ih.node g self c k b k1 st (hs.direct (.action hn)) (lt hp hn (by simp) (.action hn)) (hh.part R.wf R.plain (.action hn)) h1 hr ha
        (.incl (hf.mem hn (by simp) (by simp)) ha (fev_direct hv (.action hn)).2)
      exact ⟨_, .seq h3 .code, h4⟩
  | @cond n i α hn hd ih =>
    have ih := ih hω
    refine .mk' hn (.cond hn hd) (by simp) (by simp) (by simp) ?_
    intro g self c k s k' st hs hp hh hg hr ha hf
    cases g with
    | zero => simp [gen] at hg
    | succ g =>
      rw [gen, hn] at hg
      obtain ⟨V, hv⟩ := ev_of R hs
      exact ih.node g self c k s k' st (hs.calls (.annot (.inr hn))) (lt hp hn (by simp) (.cond hn)) (hh.part R.wf R.plain (.cond hn)) hg hr ha
        (.incl (hf.mem hn (by simp) (by simp)) ha (fev_annot hv (.inr hn)).2)
  | @annot n i α hn hd ih =>
    have ih := ih hω
    refine .mk' hn (.annot hn hd) (by simp) (by simp) (by simp) ?_
    intro g self c k s k' st hs hp hh hg hr ha hf
    cases g with
    | zero => simp [gen] at hg
    | succ g =>
      rw [gen, hn] at hg
      obtain ⟨V, hv⟩ := ev_of R hs
      exact ih.node g self c k s k' st (hs.calls (.annot (.inl hn))) (lt hp hn (by simp) (.annot hn)) (hh.part R.wf R.plain (.annot hn)) hg hr ha
        (.incl (hf.mem hn (by simp) (by simp)) ha (fev_annot hv (.inl hn)).2)
  | @tryL n l r α hn hd ih =>
    have ih := ih hω
    cases r with
    | some r => exact absurd hn (R.noCatch _ _ _)
    | none =>
    refine .mk' hn (.tryL hn hd) (by simp) (by simp) (by simp) ?_
    intro g self c k s k' st hs hp hh hg hr ha hf
    cases g with
    | zero => simp [gen] at hg
    | succ g =>
      rw [gen, hn] at hg
      simp only [Option.map_eq_some_iff, Prod.mk.injEq] at hg
      obtain ⟨⟨b, k1⟩, h1, rfl, rfl⟩ := hg
      obtain ⟨V, hv⟩ := ev_of R hs
      obtain ⟨st1, h3, h4⟩ := ih.node g self (k + 1) (k + 1) b k1 { st with saved := (k + 1, ⟨st.pos, st.user⟩) :: st.saved } (hs.direct (.tryc hn))
        (lt hp hn (by simp) (.tryL hn)) (hh.part R.wf R.plain (.tryL hn)) h1 hr ha
        (.incl (hf.mem hn (by simp) (by simp)) ha (fev_direct hv (.tryc hn)).2)
      exact ⟨_, .seq .save (.tryc h3 .skip), h4⟩
  | tryR hn => exact absurd hn (R.noCatch _ _ _)
  | @plus1 n i α hn hd ih =>
    have ih := ih hω
    refine .mk' hn (.plus1 hn hd) (by simp) (by simp) (by simp) ?_
    intro g self c k s k' st hs hp hh hg hr ha hf
    cases g with
    | zero => simp [gen] at hg
    | succ g =>
      rw [gen, hn] at hg
      simp only [Option.map_eq_some_iff, Prod.mk.injEq] at hg
      obtain ⟨⟨b, k1⟩, h1, rfl, rfl⟩ := hg
      have hf' := hf.mem hn (by simp) (by simp)
      obtain ⟨si, fi⟩ := plus_follow R (γ := []) hs hn ha (.inl hf')
      obtain ⟨st1, h3, h4⟩ := ih.node g self c k b k1 st si (lt hp hn (by simp) (.plus hn)) (hh.part R.wf R.plain (.plus hn)) h1 hr ha fi
      refine ⟨_, .doF h3 (testOf_false ?_ (R.ll.plus n i hh.occ hn).1), h4⟩
      rw [h4]
      exact fun hF => (R.ll.plus n i hh.occ hn).2 _ hF hf'
  | @plusS n i α β hn hd hd2 ih1 ih2 =>
    have ih1 := ih1 fun t ht => hω t (by simp [ht])
    have ih2 := ih2 fun t ht => hω t (by simp [ht])
    cases α with
    | nil => exact ih2
    | cons x α =>
    refine .mk' hn (.plusS hn hd hd2) (by simp) (by simp) (by simp) ?_
    intro g self c k s k' st hs hp hh hg hr ha hf
    have hg0 := hg
    cases g with
    | zero => simp [gen] at hg
    | succ g =>
      rw [gen, hn] at hg
      simp only [Option.map_eq_some_iff, Prod.mk.injEq] at hg
      obtain ⟨⟨b, k1⟩, h1, rfl, rfl⟩ := hg
      have hf' := hf.mem hn (by simp) (by simp)
      obtain ⟨r1, r2⟩ := reads_append.mp hr
      rw [List.length_append, ← Nat.add_assoc] at ha hf hf' ⊢
      cases β with
      | nil =>
        obtain ⟨si, fi⟩ := plus_follow R (γ := []) hs hn ha (.inl hf')
        obtain ⟨st1, h3, h4⟩ := ih1.node g self c k b k1 st si (lt hp hn (by simp) (.plus hn)) (hh.part R.wf R.plain (.plus hn)) h1 r1 ha fi
        refine ⟨_, .doF h3 (testOf_false ?_ (R.ll.plus n i hh.occ hn).1), h4⟩
        rw [h4]
        exact fun hF => (R.ll.plus n i hh.occ hn).2 _ hF hf'
      | cons t γ =>
        have ht := hω t (by simp)
        have ht' := R.wf.terminals t ht
        obtain ⟨si, fi⟩ := plus_follow R (γ := γ) hs hn ht' (.inr ⟨ht, hd2⟩)
        obtain ⟨st1, h3, h4⟩ := ih1.node g self c k b k1 st si (lt hp hn (by simp) (.plus hn)) (hh.part R.wf R.plain (.plus hn)) h1 r1
          (by rw [r2.1]; exact ht') (by rw [r2.1]; exact fi)
        obtain ⟨st2, h5, h6⟩ := ih2.node (g + 1) self c k _ k1 { st1 with asked := ((testOf K n).eval E st1.pos st1.asked).2 } hs hp hh hg0
          (h4 ▸ r2) (by simp only [h4]; exact ha) (by simp only [h4]; exact hf)
        refine ⟨st2, .doT h3 (testOf_true (.inl ?_)) h5, by rw [h6, h4]⟩
        rw [h4, r2.1]
        exact first_of_der R (.inl hs) hd2 ht
  | @star0 n i hn =>
    refine .mk' hn (.star0 hn) (by simp) (by simp) (by simp) ?_
    intro g self c k s k' st hs hp hh hg hr ha hf
    cases g with
    | zero => simp [gen] at hg
    | succ g =>
      rw [gen, hn] at hg
      simp only [Option.map_eq_some_iff, Prod.mk.injEq] at hg
      obtain ⟨⟨b, k1⟩, h1, rfl, rfl⟩ := hg
      refine ⟨_, .whileF (testOf_false ?_ (R.ll.star n i hh.occ hn).1), rfl⟩
      exact fun hF => (R.ll.star n i hh.occ hn).2 _ hF (hf.mem hn (by simp) (by simp))
  | @starS n i α β hn hd hd2 ih1 ih2 =>
    have ih1 := ih1 fun t ht => hω t (by simp [ht])
    have ih2 := ih2 fun t ht => hω t (by simp [ht])
    cases α with
    | nil => exact ih2
    | cons x α =>
    refine .mk' hn (.starS hn hd hd2) (by simp) (by simp) (by simp) ?_
    intro g self c k s k' st hs hp hh hg hr ha hf
    have hg0 := hg
    cases g with
    | zero => simp [gen] at hg
    | succ g =>
      rw [gen, hn] at hg
      simp only [Option.map_eq_some_iff, Prod.mk.injEq] at hg
      obtain ⟨⟨b, k1⟩, h1, rfl, rfl⟩ := hg
      have hf' := hf.mem hn (by simp) (by simp)
      obtain ⟨r1, r2⟩ := reads_append.mp hr
      rw [List.length_append, ← Nat.add_assoc] at ha hf hf' ⊢
      have hFirst : First K n (E.inp st.pos) := by
        rw [r1.1]; exact first_of_der R (.inl hs) (Der.starS hn hd hd2) (hω x (by simp))
      have key : K.W.node (E.inp (st.pos + (x :: α).length)) = some .term ∧ FSeen K.W i ∧ Fol K i (E.inp (st.pos + (x :: α).length)) := by
        cases β with
        | nil => exact ⟨ha, star_follow R (γ := []) hs hn ha (.inl hf')⟩
        | cons t γ =>
          have ht := hω t (by simp)
          have ht' := R.wf.terminals t ht
          rw [r2.1]
          exact ⟨ht', star_follow R (γ := γ) hs hn ht' (.inr ⟨ht, hd2⟩)⟩
      obtain ⟨st1, h3, h4⟩ := ih1.node g self c k b k1 { st with asked := ((testOf K n).eval E st.pos st.asked).2 } key.2.1 (lt hp hn (by simp) (.star hn))
        (hh.part R.wf R.plain (.star hn)) h1 r1 key.1 key.2.2
      obtain ⟨st2, h5, h6⟩ := ih2.node (g + 1) self c k _ k1 st1 hs hp hh hg0 (h4 ▸ r2) (by rw [h4]; exact ha) (by rw [h4]; exact hf)
      exact ⟨st2, .whileT (testOf_true (.inl hFirst)) h3 h5, by rw [h6, h4]⟩
  | @opBase n o α hn hd ih =>
    have ih := ih hω
    refine .op R hn (.opBase hn hd) ?_
    intro o' kt self d l st h' hk hs hdesc hh hr ha hf
    rw [hn] at h'; cases h'
    obtain ⟨b, hb, hne, rfl⟩ := opDesc_eq hdesc
    obtain ⟨_, _, _, g3, g4⟩ := op_follow R hs hn hk hne
    have hlt : o.base < K.W.parsed := by
      rcases Nat.lt_or_ge o.base K.W.parsed with h | h
      · exact h
      · rcases R.wf.made _ _ h hb with ⟨_, _, h⟩ | ⟨_, _, h⟩ <;> cases h
    have hsym := R.wf.symbols o.base b (.inl hb)
    have hd' : Der K.W b α := by cases hd <;> simp_all
    cases α with
    | nil => exact absurd hd (R.ops n o hn)
    | cons t γ =>
      have hF : First K b (E.inp st.pos) := by
        rw [hr.1]; exact first_of_der R (.inr hsym) hd' (hω t (by simp))
      refine loop_base ?_ (fun k => testOf_true (.inl hF)) ?_
      · rw [before_toks hdesc]
        exact fun hm => (R.ll.opBefore n o b hn hb).2 _ hm hF
      · intro st0 e0
        obtain ⟨st1, h1, h2⟩ := ih.node 1 self 0 0 (.call b 0) 0 st0 g3 hlt (hh.part R.wf R.plain (.opBase hn)) (by rw [gen, hb]) (e0 ▸ hr) (e0 ▸ ha)
          (fun _ _ => g4 _ (e0 ▸ ha) (e0 ▸ hf))
        exact ⟨st1, h1, by rw [h2, e0]⟩
  | @opPre n o t α hn ht hd ih =>
    have ih := ih fun t ht => hω t (by simp [ht])
    refine .op R hn (.opPre hn ht hd) ?_
    intro o' kt self d l st h' hk hs hdesc hh hr ha hf
    rw [hn] at h'; cases h'
    obtain ⟨b, hb, hne, hd0⟩ := opDesc_eq hdesc
    obtain ⟨r, hr1, hr2, hr3⟩ := rows1_ex (K := K) n .pre ht
    obtain ⟨l1, st1, h1, h2⟩ := loop_pre (K := K) (G := G) (l := l) (st := st) (d := d) R.oracle (by rw [before_toks hdesc]; exact (R.ll.opBefore n o b hn hb).1)
      (r := r) (by rw [hd0]; simp [hr1]) (by rw [hr2]; exact hr.1.symm) hr3
    obtain ⟨l2, st2, h3, h4⟩ := ih.loop o kt self d l1 st1 hn hk hs hdesc hh (by rw [h2]; exact hr.2)
      (by rw [h2, Nat.add_assoc, Nat.add_comm 1]; exact ha) (by rw [h2, Nat.add_assoc, Nat.add_comm 1]; exact hf)
    exact ⟨l2, st2, h1.trans h3, by rw [h4, h2]; simp; omega⟩
  | @opPost n o t α hn ht hd ih =>
    have htt := hω t (by simp)
    have ih := ih fun t ht => hω t (by simp [ht])
    refine .op R hn (.opPost hn ht hd) ?_
    intro o' kt self d l st h' hk hs hdesc hh hr ha hf
    rw [hn] at h'; cases h'
    obtain ⟨b, hb, hne, hd0⟩ := opDesc_eq hdesc
    obtain ⟨_, g2, _, _⟩ := op_follow R hs hn hk hne
    obtain ⟨r1, r2⟩ := reads_append.mp hr
    obtain ⟨l1, st1, h1, h2⟩ := ih.loop o kt self d l st hn hk hs hdesc hh r1 (by rw [r2.1]; exact R.wf.terminals t htt)
      (by rw [r2.1]; exact g2 t (by simp [ht]) htt)
    obtain ⟨r, hr1, hr2, hr3⟩ := rows1_ex (K := K) n .post ht
    obtain ⟨l2, st2, h3, h4⟩ := loop_post (K := K) (G := G) (l := l1) (st := st1) (d := d) R.oracle (by rw [after_toks R hn hdesc]; exact (R.ll.opAfter n o hn).1)
      (r := r) (by rw [hd0]; simp [hr1]) (by rw [hr2, h2]; exact r2.1.symm) hr3
    exact ⟨l2, st2, h1.trans h3, by rw [h4, h2]; simp; omega⟩
  | @opBin n o t α β hn ht hd hd2 ih1 ih2 =>
    have htt := hω t (by simp)
    have ih1 := ih1 fun t ht => hω t (by simp [ht])
    have ih2 := ih2 fun t ht => hω t (by simp [ht])
    refine .op R hn (.opBin hn ht hd hd2) ?_
    intro o' kt self d l st h' hk hs hdesc hh hr ha hf
    rw [hn] at h'; cases h'
    obtain ⟨b, hb, hne, hd0⟩ := opDesc_eq hdesc
    obtain ⟨_, g2, _, _⟩ := op_follow R hs hn hk hne
    obtain ⟨r1, r2⟩ := reads_append.mp hr
    obtain ⟨l1, st1, h1, h2⟩ := ih1.loop o kt self d l st hn hk hs hdesc hh r1 (by rw [r2.1]; exact R.wf.terminals t htt)
      (by rw [r2.1]; exact g2 t (by simp [ht]) htt)
    obtain ⟨r, hr1, hr2, hr3⟩ := rows1_ex (K := K) n .bin ht
    obtain ⟨l2, st2, h3, h4⟩ := loop_bin (K := K) (G := G) (l := l1) (st := st1) (d := d) R.oracle (by rw [after_toks R hn hdesc]; exact (R.ll.opAfter n o hn).1)
      (r := r) (by rw [hd0]; simp [hr1]) (by rw [hr2, h2]; exact r2.1.symm) hr3
    have e : st2.pos + β.length = st.pos + (α ++ t :: β).length := by rw [h4, h2]; simp; omega
    obtain ⟨l3, st3, h5, h6⟩ := ih2.loop o kt self d l2 st2 hn hk hs hdesc hh (by rw [h4, h2]; exact r2.2) (by rw [e]; exact ha) (by rw [e]; exact hf)
    exact ⟨l3, st3, (h1.trans h3).trans h5, by rw [h6, e]⟩
  | opTern hn ht => rw [R.plain.noTern _ _ hn] at ht; simp at ht
  | @opParen n o t u α hn ht hd ih =>
    have hu := hω u (by simp)
    have hα : ∀ t ∈ α, t ∈ K.W.terminals := fun t ht => hω t (by simp [ht])
    have ih := ih hα
    refine .op R hn (.opParen hn ht hd) ?_
    intro o' kt self d l st h' hk hs hdesc hh hr ha hf
    rw [hn] at h'; cases h'
    obtain ⟨b, hb, hne, hd0⟩ := opDesc_eq hdesc
    obtain ⟨r, hr1, hr2, hr3, hr4⟩ := rows2_ex (K := K) n .paren ht
    obtain ⟨r1, r2⟩ := reads_append.mp hr.2
    obtain ⟨x, hx1, hx2⟩ := hh.op o hn
    have hsym := R.wf.symbols x self (.inr (.inr ⟨n, hx2⟩))
    have hF : First K self (E.inp (st.pos + 1)) := by
      cases α with
      | nil => exact absurd rfl (op_nonempty R hn hd)
      | cons y γ =>
        rw [r1.1]
        exact first_of_der R (.inr hsym) (.expand hsym hx1 hx2 hd) (hω y (by simp))
    obtain ⟨l1, st1, h1, h2⟩ := loop_paren (K := K) (G := G) (l := l) (st := st) (d := d) (q := st.pos + 1 + α.length) R.oracle
      (by rw [before_toks hdesc]; exact (R.ll.opBefore n o b hn hb).1)
      (r := r) (by rw [hd0]; simp [hr1]) (by rw [hr2]; exact hr.1.symm) hr4 (by rw [hd0]; exact fun k => testOf_true (.inl hF))
      (by
        intro st0 e0
        obtain ⟨st1, h1, h2⟩ := self_call R (p := (t, u)) hn hs hdesc hh ht hu hα hd ih.loop (st := st0) (e0 ▸ r1) (by rw [e0]; exact r2.1)
        exact ⟨st1, by rw [hd0]; exact h1, by rw [h2, e0]⟩)
      (by rw [hr3]; exact r2.1)
    exact ⟨l1, st1, h1, by rw [h2]; simp; omega⟩

end

end Verif.Gen
