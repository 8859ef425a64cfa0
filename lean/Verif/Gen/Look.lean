import Verif.Gen.Complete
import Verif.Gen.ReturnSpec
import Verif.Grammar.FirstProps

/-!
# Grammars which one token of lookahead decides have no left recursion and no empty loops (lemmas for C117)
-/

namespace Verif.Gen

open Verif.Grammar

section
variable {W : World}

private theorem inv_nonterm {n s : Nat} {ω : List Nat} (hn : W.node n = some (.nonterm s)) (h : Der W n ω) : Der W s ω := by
  cases h with
  | nonterm h1 h2 => rw [hn] at h1; cases h1; exact h2
  | _ h1 => rw [hn] at h1; cases h1

private theorem inv_cons {n l r : Nat} {ω : List Nat} (hn : W.node n = some (.cons l r)) (h : Der W n ω) : ∃ α β, ω = α ++ β ∧ Der W l α ∧ Der W r β := by
  cases h with
  | cons h1 h2 h3 => rw [hn] at h1; cases h1; exact ⟨_, _, rfl, h2, h3⟩
  | _ h1 => rw [hn] at h1; cases h1

private theorem inv_alt {n l r : Nat} {ω : List Nat} (hn : W.node n = some (.alt l r)) (h : Der W n ω) : Der W l ω ∨ Der W r ω := by
  cases h with
  | altL h1 h2 => rw [hn] at h1; cases h1; exact .inl h2
  | altR h1 h2 => rw [hn] at h1; cases h1; exact .inr h2
  | _ h1 => rw [hn] at h1; cases h1

private theorem inv_action {n i : Nat} {ω : List Nat} (hn : W.node n = some (.action (some i))) (h : Der W n ω) : Der W i ω := by
  cases h with
  | action h1 h2 => rw [hn] at h1; cases h1; exact h2
  | _ h1 => rw [hn] at h1; cases h1

private theorem inv_cond {n i : Nat} {ω : List Nat} (hn : W.node n = some (.cond i)) (h : Der W n ω) : Der W i ω := by
  cases h with
  | cond h1 h2 => rw [hn] at h1; cases h1; exact h2
  | _ h1 => rw [hn] at h1; cases h1

private theorem inv_annot {n i : Nat} {ω : List Nat} (hn : W.node n = some (.annot i)) (h : Der W n ω) : Der W i ω := by
  cases h with
  | annot h1 h2 => rw [hn] at h1; cases h1; exact h2
  | _ h1 => rw [hn] at h1; cases h1

private theorem inv_evolve {n i s : Nat} {ω : List Nat} (hn : W.node n = some (.evolve i s)) (h : Der W n ω) : Der W i ω := by
  cases h with
  | evolve h1 h2 => rw [hn] at h1; cases h1; exact h2
  | _ h1 => rw [hn] at h1; cases h1

private theorem lead_action {n s i : Nat} (hn : W.node n = some (.action (some i))) (h : Lead W n s) : Lead W i s := by
  cases h with
  | action h1 h2 => rw [hn] at h1; cases h1; exact h2
  | _ h1 => rw [hn] at h1; cases h1

private theorem lead_cond {n s i : Nat} (hn : W.node n = some (.cond i)) (h : Lead W n s) : Lead W i s := by
  cases h with
  | cond h1 h2 => rw [hn] at h1; cases h1; exact h2
  | _ h1 => rw [hn] at h1; cases h1

private theorem lead_annot {n s i : Nat} (hn : W.node n = some (.annot i)) (h : Lead W n s) : Lead W i s := by
  cases h with
  | annot h1 h2 => rw [hn] at h1; cases h1; exact h2
  | _ h1 => rw [hn] at h1; cases h1

private theorem lead_plus {n s i : Nat} (hn : W.node n = some (.plus i)) (h : Lead W n s) : Lead W i s := by
  cases h with
  | plus h1 h2 => rw [hn] at h1; cases h1; exact h2
  | _ h1 => rw [hn] at h1; cases h1

private theorem lead_star {n s i : Nat} (hn : W.node n = some (.star i)) (h : Lead W n s) : Lead W i s := by
  cases h with
  | star h1 h2 => rw [hn] at h1; cases h1; exact h2
  | _ h1 => rw [hn] at h1; cases h1

private theorem lead_op {n s : Nat} {o : OpItem} (hn : W.node n = some (.op o)) (h : Lead W n s) : Lead W o.base s := by
  cases h with
  | op h1 h2 => rw [hn] at h1; cases h1; exact h2
  | _ h1 => rw [hn] at h1; cases h1

private theorem lead_call {n s s' : Nat} (hn : W.node n = some (.nonterm s)) (h : Lead W n s') : s' = s := by
  cases h with
  | call h1 => rw [hn] at h1; cases h1; rfl
  | _ h1 => rw [hn] at h1; cases h1

private theorem lead_none {n s : Nat} (hn : W.node n = some .zero ∨ W.node n = some .term ∨ W.node n = some .sym ∨ W.node n = some (.action none)) (h : Lead W n s) : False := by
  cases h <;> simp_all

private theorem pair_of {α : Type} {P : α → α → Prop} {l : List α} (h : l.Pairwise P) {a b : α} (ha : a ∈ l) (hb : b ∈ l) (hne : a ≠ b) : P a b ∨ P b a := by
  induction h with
  | nil => cases ha
  | @cons x l h1 _ ih =>
    rcases List.mem_cons.1 ha with rfl | ha
    · rcases List.mem_cons.1 hb with rfl | hb
      · exact absurd rfl hne
      · exact .inl (h1 _ hb)
    · rcases List.mem_cons.1 hb with e | hb
      · exact .inr (e ▸ h1 _ ha)
      · exact ih ha hb

/-- One of the alternatives is taken. -/
private theorem der_choice {n : Nat} {ms : List Nat} (h : Choice W n ms) : (∀ ω, Der W n ω → ∃ m ∈ ms, Der W m ω) ∧ ∀ m ∈ ms, ∀ ω, Der W m ω → Der W n ω := by
  induction h with
  | leaf => exact ⟨fun ω h => ⟨_, by simp, h⟩, fun m hm ω h => by rw [List.mem_singleton] at hm; exact hm ▸ h⟩
  | alt hn _ _ ih1 ih2 =>
    refine ⟨fun ω h => ?_, fun m hm ω h => ?_⟩
    · rcases inv_alt hn h with h | h
      · obtain ⟨m, h1, h2⟩ := ih1.1 ω h; exact ⟨m, by simp [h1], h2⟩
      · obtain ⟨m, h1, h2⟩ := ih2.1 ω h; exact ⟨m, by simp [h1], h2⟩
    · rcases List.mem_append.1 hm with hm | hm
      · exact .altL hn (ih1.2 m hm ω h)
      · exact .altR hn (ih2.2 m hm ω h)

private theorem choice_exists (hw : Wf W) : ∀ n, n < W.parsed → ∃ ms, Choice W n ms ∧ ms ≠ [] := by
  intro n
  induction n using Nat.strongRecOn with
  | _ n ih =>
    intro hp
    by_cases h : ∃ l r, W.node n = some (.alt l r)
    · obtain ⟨l, r, h⟩ := h
      have lt : ∀ {m}, Part W n m → m < n := fun hm => by
        rcases hw.order n _ hp hm with h' | ⟨o, h'⟩
        · exact h'
        · rw [h] at h'; cases h'
      obtain ⟨a, a1, a2⟩ := ih l (lt (.altL h)) (Nat.lt_trans (lt (.altL h)) hp)
      obtain ⟨b, b1, -⟩ := ih r (lt (.altR h)) (Nat.lt_trans (lt (.altR h)) hp)
      exact ⟨a ++ b, .alt h a1 b1, by simp [a2]⟩
    · exact ⟨[n], .leaf fun l r e => h ⟨l, r, e⟩, by simp⟩

/-- Every item derives something, possibly with symbols. -/
private theorem some_word (hw : Wf W) (hi : ∀ n s, W.node n ≠ some (.inlined s)) : ∀ n, n < W.parsed → (∃ it, W.node n = some it) → ∃ ω, Der W n ω := by
  intro n
  induction n using Nat.strongRecOn with
  | _ n ih =>
    rintro hp ⟨it, hn⟩
    have key : ∀ {m}, Part W n m → (∀ o, it ≠ .op o) → ∃ ω, Der W m ω := fun {m} hm ho => by
      have h1 : m < n := by
        rcases hw.order n _ hp hm with h' | ⟨o, h'⟩
        · exact h'
        · rw [hn] at h'; cases h'; exact absurd rfl (ho o)
      exact ih _ h1 (Nat.lt_trans h1 hp) (hw.valid _ _ hm)
    cases it with
    | zero => exact ⟨_, .zero hn⟩
    | term => exact ⟨_, .term hn⟩
    | sym => exact ⟨_, .sym hn⟩
    | nonterm s => exact ⟨_, .nonterm hn (.sym (hw.symbols n s (.inl hn)))⟩
    | inlined s => exact absurd hn (hi _ _)
    | plus i => obtain ⟨ω, h⟩ := key (.plus hn) (by simp); exact ⟨_, .plus1 hn h⟩
    | star i => exact ⟨_, .star0 hn⟩
    | action i => cases i with
      | none => exact ⟨_, .action0 hn⟩
      | some i => obtain ⟨ω, h⟩ := key (.action hn) (by simp); exact ⟨_, .action hn h⟩
    | cond i => obtain ⟨ω, h⟩ := key (.cond hn) (by simp); exact ⟨_, .cond hn h⟩
    | annot i => obtain ⟨ω, h⟩ := key (.annot hn) (by simp); exact ⟨_, .annot hn h⟩
    | alt l r => obtain ⟨ω, h⟩ := key (.altL hn) (by simp); exact ⟨_, .altL hn h⟩
    | cons l r =>
      obtain ⟨ω, h⟩ := key (.consL hn) (by simp)
      obtain ⟨ω', h'⟩ := key (.consR hn) (by simp)
      exact ⟨_, .cons hn h h'⟩
    | evolve i s => obtain ⟨ω, h⟩ := key (.evolve hn) (by simp); exact ⟨_, .evolve hn h⟩
    | tryc l r => obtain ⟨ω, h⟩ := key (.tryL hn) (by simp); exact ⟨_, .tryL hn h⟩
    | op o =>
      obtain ⟨s, hs⟩ := hw.opBase n o hn
      exact ⟨_, .opBase hn (.nonterm hs (.sym (hw.symbols _ s (.inl hs))))⟩

/-- Without `try` and inlined symbols, what can be passed without a token can be empty. -/
private theorem idle_null (hw : Wf W) (hp : Plain W) (ht : ∀ n l r, W.node n ≠ some (.tryc l r)) {n : Nat} (h : Idle W n) :
    W.node n ≠ some .sym → (∀ i s, W.node n ≠ some (.evolve i s)) → Nullable W n := by
  have nx : ∀ {n m}, Part W n m → (W.node m ≠ some .sym → (∀ i s, W.node m ≠ some (.evolve i s)) → Nullable W m) → Nullable W m := fun hm h =>
    h (hp.noSym _ _ hm) fun i s => hw.parts _ _ i s hm
  induction h with
  | zero e => intro _ _; exact .zero e
  | sym e => intro h; exact absurd e h
  | @call n s r i e hr hi _ ih => intro _ _; exact .nonterm e (.expand (hw.symbols n s (.inl e)) hr hi (nx (.evolve hi) ih))
  | cons e _ _ ih1 ih2 => intro _ _; exact .cons (α := []) e (nx (.consL e) ih1) (nx (.consR e) ih2)
  | altL e _ ih => intro _ _; exact .altL e (nx (.altL e) ih)
  | altR e _ ih => intro _ _; exact .altR e (nx (.altR e) ih)
  | action0 e => intro _ _; exact .action0 e
  | action e _ ih => intro _ _; exact .action e (nx (.action e) ih)
  | cond e _ ih => intro _ _; exact .cond e (nx (.cond e) ih)
  | annot e _ ih => intro _ _; exact .annot e (nx (.annot e) ih)
  | tryL e => exact absurd e (ht _ _ _)
  | tryR e => exact absurd e (ht _ _ _)
  | recover e => exact absurd e (ht _ _ _)
  | plus e _ ih => intro _ _; exact .plus1 e (nx (.plus e) ih)
  | star e => intro _ _; exact .star0 e
  | op e _ ih => intro _ _; exact .opBase e (nx (.opBase e) ih)
  | inlined e => exact absurd e (hp.noInline _ _)
  | rule e => intro _ h; exact absurd e (h _ _)

end

section
variable {K : Ctx} {E : Env} {G : Nat}

/-- An item inside a rule. -/
structure Spot (K : Ctx) (n : Nat) : Prop where
  seen : FSeen K.W n
  lt : n < K.W.parsed
  here : ∃ self, Here K self n

variable (R : Ready K E G)
include R

theorem Spot.part {n m : Nat} {it : Item} (h : Spot K n) (hn : K.W.node n = some it) (ho : ∀ o, it ≠ .op o) (hm : Part K.W n m) (hs : FSeen K.W m) : Spot K m where
  seen := hs
  lt := by
    have := h.lt
    rcases R.wf.order n _ h.lt hm with h | ⟨o, h⟩
    · omega
    · rw [hn] at h; cases h; exact absurd rfl (ho o)
  here := by obtain ⟨self, hh⟩ := h.here; exact ⟨self, hh.part R.wf R.plain hm⟩

theorem Spot.rule {r i s : Nat} (hr : r ∈ K.W.rules) (hn : K.W.node r = some (.evolve i s)) : Spot K i where
  seen := FSeen.calls ⟨_, .rule hr⟩ (.evolve hn)
  lt := by
    have := (R.wf.rules r hr).1
    rcases R.wf.order r i this (.evolve hn) with h | ⟨o, h⟩
    · omega
    · rw [hn] at h; cases h
  here := ⟨s, here_of_rule R.wf R.plain hr hn⟩

theorem Spot.star {n i : Nat} (h : Spot K n) (hn : K.W.node n = some (.star i)) : Spot K i := by
  obtain ⟨c, a, h1, h2, h3⟩ := R.wf.bnf.star n i hn
  exact h.part R hn (by simp) (.star hn) (((h.seen.direct (.star hn h1)).calls (.twoR (.inl h3))).calls (.consL h2))

theorem Spot.plus {n i : Nat} (h : Spot K n) (hn : K.W.node n = some (.plus i)) : Spot K i := by
  obtain ⟨c, a, h1, h2, h3⟩ := R.wf.bnf.plus n i hn
  exact h.part R hn (by simp) (.plus hn) ((h.seen.direct (.plus hn h1)).calls (.consL h2))

theorem Spot.action {n i : Nat} (h : Spot K n) (hn : K.W.node n = some (.action (some i))) : Spot K i := h.part R hn (by simp) (.action hn) (h.seen.direct (.action hn))
theorem Spot.cond {n i : Nat} (h : Spot K n) (hn : K.W.node n = some (.cond i)) : Spot K i := h.part R hn (by simp) (.cond hn) (h.seen.calls (.annot (.inr hn)))
theorem Spot.annot {n i : Nat} (h : Spot K n) (hn : K.W.node n = some (.annot i)) : Spot K i := h.part R hn (by simp) (.annot hn) (h.seen.calls (.annot (.inl hn)))
theorem Spot.consL {n l r : Nat} (h : Spot K n) (hn : K.W.node n = some (.cons l r)) : Spot K l := h.part R hn (by simp) (.consL hn) (h.seen.calls (.consL hn))
theorem Spot.consR {n l r : Nat} (h : Spot K n) (hn : K.W.node n = some (.cons l r)) : Spot K r := h.part R hn (by simp) (.consR hn) (h.seen.calls (.consR hn))
theorem Spot.altL {n l r : Nat} (h : Spot K n) (hn : K.W.node n = some (.alt l r)) : Spot K l := h.part R hn (by simp) (.altL hn) (h.seen.calls (.twoL (.inl hn)))
theorem Spot.altR {n l r : Nat} (h : Spot K n) (hn : K.W.node n = some (.alt l r)) : Spot K r := h.part R hn (by simp) (.altR hn) (h.seen.calls (.twoR (.inl hn)))

theorem Spot.choice {n : Nat} {ms : List Nat} (h : Spot K n) (hc : Choice K.W n ms) : ∀ m ∈ ms, FSeen K.W m := fun m hm => by
  obtain ⟨self, hh⟩ := h.here
  exact (choice_parts R hc h.seen h.lt hh m hm).1

omit R in
private theorem silent_first {m t : Nat} (h : Silent K m) (hf : First K m t) : False := by
  unfold First at hf
  rw [if_neg h.1] at hf
  have := h.2 t hf.2
  rw [hf.1] at this
  cases this

private theorem alt_clash {n l r t : Nat} {γ : List Nat} (hn : K.W.node n = some (.alt l r)) (hd : Der K.W n (t :: γ)) (ht : t ∈ K.W.terminals) (h0 : Nullable K.W n) (hs : Spot K n)
    (hf : Fol K n t) : False := by
  obtain ⟨ms, hc, -⟩ := choice_exists R.wf n hs.lt
  have occ := hs.here.choose_spec.occ
  obtain ⟨m, h1, h2⟩ := (der_choice hc).1 _ hd
  obtain ⟨m', h3, h4⟩ := (der_choice hc).1 _ h0
  have f1 : First K m t := first_of_der R (.inl (hs.choice R hc m h1)) h2 ht
  have sil := R.ll.altNull n l r ms m' occ hs.lt hn hc h3 h4
  by_cases hne : m = m'
  · subst hne; exact silent_first sil f1
  · rcases pair_of (R.ll.alt n l r ms occ hs.lt hn hc) h1 h3 hne with hp | hp
    · exact hp.2.2 h4 t f1 (hf.mem hn (by simp) (by simp))
    · obtain ⟨u, hu⟩ := hp.1
      exact silent_first sil hu

/-- An item that can be empty does not begin with a token which may come behind it. -/
theorem clash (nt : ∀ n l r, K.W.node n ≠ some (.tryc l r)) {n : Nat} {ω : List Nat} (h : Der K.W n ω) : ∀ {t γ}, ω = t :: γ → t ∈ K.W.terminals → Nullable K.W n →
    (Spot K n → Fol K n t → False) ∧ (K.W.node n = some .sym → (n, t) ∈ K.S → False) := by
  have ns : ∀ {n it t}, K.W.node n = some it → it ≠ .sym → (Spot K n → Fol K n t → False) →
      (Spot K n → Fol K n t → False) ∧ (K.W.node n = some .sym → (n, t) ∈ K.S → False) := fun hn hi h => ⟨h, fun h' => by rw [hn] at h'; cases h'; exact absurd rfl hi⟩
  have op0 : ∀ {n o}, K.W.node n = some (.op o) → Nullable K.W n → False := fun hn h => op_nonempty R hn h rfl
  induction h with
  | zero => intro t γ e; cases e
  | @term n hn =>
    intro t γ e ht h0
    have := der_term hn h0
    cases this
  | @sym n hn =>
    intro t γ e ht
    have := R.wf.terminals t ht
    cases e
    rw [hn] at this; cases this
  | @expand n r i α hn hr0 hnr hd ih =>
    intro t γ e ht h0
    refine ⟨fun hs => absurd hn hs.here.choose_spec.sym, fun _ hf => ?_⟩
    have hx := R.wf.terminals t ht
    have h0' : ∃ r' i', r' ∈ K.W.rules ∧ K.W.node r' = some (.evolve i' n) ∧ Nullable K.W i' := by
      generalize e0 : ([] : List Nat) = ω0 at h0
      unfold Nullable at h0
      rw [e0] at h0
      cases h0 with
      | sym => cases e0
      | expand _ h1 h2 h3 => exact ⟨_, _, h1, h2, by rw [← e0] at h3; exact h3⟩
      | _ h1 => rw [hn] at h1; cases h1
    obtain ⟨r', i', h1, h2, h3⟩ := h0'
    by_cases hrr : r' = r
    · subst hrr
      rw [hnr] at h2
      cases h2
      obtain ⟨V, hv⟩ := ev_of R ⟨_, .rule hr0⟩
      obtain ⟨_, i1, i2⟩ := fev_evolve hv hnr
      have fr := (Fol.incl hf hx i1).mem hnr (by simp) (by simp)
      exact (ih e ht h3).1 (.rule R hr0 hnr) (.incl fr hx i2)
    · have f1 : First K r t := first_of_der R (γ := γ) (.inl ⟨_, .rule hr0⟩) (.evolve hnr (e ▸ hd)) ht
      rcases pair_of (rules_pairwise R n) (mem_rulesOf.2 ⟨h1, i', h2⟩) (mem_rulesOf.2 ⟨hr0, i, hnr⟩) hrr with hp | hp
      · obtain ⟨b, hb⟩ := reduces_total (F := K.F) R.wf (R.wf.valid r' i' (.evolve h2))
        have : b = true := reduces_of_null R (fun j s => R.wf.parts r' i' j s (.evolve h2)) h3 hb
        subst this
        exact ((hp i' i n h2 hnr).2.2.2 hb).2 t f1 hf
      · exact (hp i i' n hnr h2).2.2.1 h3 t f1 hf
  | @evolve n i s α hn hd ih => intro t γ e ht h0; exact ns hn (by simp) fun hs => absurd hn (hs.here.choose_spec.rule _ _)
  | @nonterm n s α hn hd ih =>
    intro t γ e ht h0
    refine ns hn (by simp) fun hs hf => ?_
    obtain ⟨V, hv⟩ := ev_of R hs.seen
    have hsym := R.wf.symbols n s (.inl hn)
    exact (ih e ht (inv_nonterm hn h0)).2 hsym ((Fol.incl (hf.mem hn (by simp) (by simp)) (R.wf.terminals t ht) (fev_symbol hv (.inl hn))).mem hsym (by simp) (by simp))
  | inlined hn => exact absurd hn (R.plain.noInline _ _)
  | @cons n l r α β hn hl hr' ih1 ih2 =>
    intro t γ e ht h0
    refine ns hn (by simp) fun hs hf => ?_
    obtain ⟨f1, f2⟩ := cons_follow R hs.seen hn (R.wf.terminals t ht) (hf.mem hn (by simp) (by simp))
    obtain ⟨a, b, e0, n1, n2⟩ := inv_cons hn h0
    obtain ⟨rfl, rfl⟩ : a = [] ∧ b = [] := by simpa using e0.symm
    cases α with
    | nil => exact (ih2 e ht n2).1 (hs.consR R hn) f1
    | cons u α => cases e; exact (ih1 rfl ht n1).1 (hs.consL R hn) (f2 n2)
  | @altL n l r α hn hd ih => intro t γ e ht h0; exact ns hn (by simp) fun hs hf => alt_clash R hn (.altL hn (e ▸ hd)) ht h0 hs hf
  | @altR n l r α hn hd ih => intro t γ e ht h0; exact ns hn (by simp) fun hs hf => alt_clash R hn (.altR hn (e ▸ hd)) ht h0 hs hf
  | action0 => intro t γ e; cases e
  | @action n i α hn hd ih =>
    intro t γ e ht h0
    refine ns hn (by simp) fun hs hf => ?_
    obtain ⟨V, hv⟩ := ev_of R hs.seen
    exact (ih e ht (inv_action hn h0)).1 (hs.action R hn) (.incl (hf.mem hn (by simp) (by simp)) (R.wf.terminals t ht) (fev_direct hv (.action hn)).2)
  | @cond n i α hn hd ih =>
    intro t γ e ht h0
    refine ns hn (by simp) fun hs hf => ?_
    obtain ⟨V, hv⟩ := ev_of R hs.seen
    exact (ih e ht (inv_cond hn h0)).1 (hs.cond R hn) (.incl (hf.mem hn (by simp) (by simp)) (R.wf.terminals t ht) (fev_annot hv (.inr hn)).2)
  | @annot n i α hn hd ih =>
    intro t γ e ht h0
    refine ns hn (by simp) fun hs hf => ?_
    obtain ⟨V, hv⟩ := ev_of R hs.seen
    exact (ih e ht (inv_annot hn h0)).1 (hs.annot R hn) (.incl (hf.mem hn (by simp) (by simp)) (R.wf.terminals t ht) (fev_annot hv (.inl hn)).2)
  | tryL hn => exact absurd hn (nt _ _ _)
  | tryR hn => exact absurd hn (nt _ _ _)
  | @plus1 n i α hn hd ih =>
    intro t γ e ht h0
    exact ns hn (by simp) fun hs hf => (R.ll.plus n i hs.here.choose_spec.occ hn).2 t (first_of_der R (.inl hs.seen) (.plus1 hn (e ▸ hd)) ht) (hf.mem hn (by simp) (by simp))
  | @plusS n i α β hn hd hd' ih =>
    intro t γ e ht h0
    exact ns hn (by simp) fun hs hf => (R.ll.plus n i hs.here.choose_spec.occ hn).2 t (first_of_der R (γ := γ) (.inl hs.seen) (e ▸ .plusS hn hd hd') ht) (hf.mem hn (by simp) (by simp))
  | star0 => intro t γ e; cases e
  | @starS n i α β hn hd hd' ih =>
    intro t γ e ht h0
    exact ns hn (by simp) fun hs hf => (R.ll.star n i hs.here.choose_spec.occ hn).2 t (first_of_der R (γ := γ) (.inl hs.seen) (e ▸ .starS hn hd hd') ht) (hf.mem hn (by simp) (by simp))
  | opBase hn => intro t γ e ht h0; exact (op0 hn h0).elim
  | opPre hn => intro t γ e ht h0; exact (op0 hn h0).elim
  | opPost hn => intro t γ e ht h0; exact (op0 hn h0).elim
  | opBin hn => intro t γ e ht h0; exact (op0 hn h0).elim
  | opTern hn => intro t γ e ht h0; exact (op0 hn h0).elim
  | opParen hn => intro t γ e ht h0; exact (op0 hn h0).elim

/-- What a symbol begins with, an item with the symbol in front begins with. -/
theorem lead_begins (nt : ∀ n l r, K.W.node n ≠ some (.tryc l r)) {n s t : Nat} {γ : List Nat} (h : Lead K.W n s) :
    (Spot K n ∨ ∃ s, K.W.node n = some (.nonterm s)) → Der K.W s (t :: γ) → ∃ γ', Der K.W n (t :: γ') := by
  have un : ∀ {n it}, K.W.node n = some it → (∀ s, it ≠ .nonterm s) → (Spot K n ∨ ∃ s, K.W.node n = some (.nonterm s)) → Spot K n := fun hn hi h => by
    rcases h with h | ⟨s, h⟩
    · exact h
    · rw [hn] at h; cases h; exact absurd rfl (hi s)
  induction h with
  | call e => intro _ h; exact ⟨_, .nonterm e h⟩
  | @consL n l r s e _ ih =>
    intro hs h
    have hs := un e (by simp) hs
    obtain ⟨γ', h1⟩ := ih (.inl (hs.consL R e)) h
    obtain ⟨β, h2⟩ := some_word R.wf R.plain.noInline r (hs.consR R e).lt (R.wf.valid _ _ (.consR e))
    exact ⟨_, .cons e h1 h2⟩
  | @consR n l r s e hi _ ih =>
    intro hs h
    have hs := un e (by simp) hs
    obtain ⟨γ', h1⟩ := ih (.inl (hs.consR R e)) h
    exact ⟨_, .cons (α := []) e (idle_null R.wf R.plain nt hi (R.plain.noSym _ _ (.consL e)) fun i s => R.wf.parts _ _ i s (.consL e)) h1⟩
  | altL e _ ih => intro hs h; obtain ⟨γ', h1⟩ := ih (.inl ((un e (by simp) hs).altL R e)) h; exact ⟨_, .altL e h1⟩
  | altR e _ ih => intro hs h; obtain ⟨γ', h1⟩ := ih (.inl ((un e (by simp) hs).altR R e)) h; exact ⟨_, .altR e h1⟩
  | action e _ ih => intro hs h; obtain ⟨γ', h1⟩ := ih (.inl ((un e (by simp) hs).action R e)) h; exact ⟨_, .action e h1⟩
  | cond e _ ih => intro hs h; obtain ⟨γ', h1⟩ := ih (.inl ((un e (by simp) hs).cond R e)) h; exact ⟨_, .cond e h1⟩
  | annot e _ ih => intro hs h; obtain ⟨γ', h1⟩ := ih (.inl ((un e (by simp) hs).annot R e)) h; exact ⟨_, .annot e h1⟩
  | tryL e => exact absurd e (nt _ _ _)
  | tryR e => exact absurd e (nt _ _ _)
  | plus e _ ih => intro hs h; obtain ⟨γ', h1⟩ := ih (.inl ((un e (by simp) hs).plus R e)) h; exact ⟨_, .plus1 e h1⟩
  | star e _ ih => intro hs h; obtain ⟨γ', h1⟩ := ih (.inl ((un e (by simp) hs).star R e)) h; exact ⟨_, .starS e h1 (.star0 e)⟩
  | op e _ ih => intro hs h; obtain ⟨γ', h1⟩ := ih (.inr (R.wf.opBase _ _ e)) h; exact ⟨_, .opBase e h1⟩
  | inlined e => exact absurd e (R.plain.noInline _ _)
  | rule e => intro hs; exact absurd e ((un e (by simp) hs).here.choose_spec.rule _ _)

/-- The symbols of a left recursion begin with some token. -/
theorem lively {C : Nat → Prop} (sound : ∀ m t, First K m t → K.W.node t = some .term ∧ ∃ γ, Der K.W m (t :: γ)) (hC : ∀ s, C s → ∃ s', C s' ∧ Left K.W s s')
    (nt : ∀ n l r, K.W.node n ≠ some (.tryc l r)) {n : Nat} {ω : List Nat} (h : Der K.W n ω) : (∀ t ∈ ω, K.W.node t = some .term) →
    (∀ s, Lead K.W n s → C s → Spot K n → ∃ t γ, K.W.node t = some .term ∧ Der K.W n (t :: γ)) ∧
      (K.W.node n = some .sym → C n → ∃ t γ, K.W.node t = some .term ∧ Der K.W n (t :: γ)) := by
  have triv : ∀ {n ω}, Der K.W n ω → (∀ t ∈ ω, K.W.node t = some .term) → ω ≠ [] → ∃ t γ, K.W.node t = some .term ∧ Der K.W n (t :: γ) := fun {n ω} h hω hne => by
    cases ω with
    | nil => exact absurd rfl hne
    | cons t γ => exact ⟨t, γ, hω t (by simp), h⟩
  have ns : ∀ {n it}, K.W.node n = some it → it ≠ .sym → (∀ s, Lead K.W n s → C s → Spot K n → ∃ t γ, K.W.node t = some .term ∧ Der K.W n (t :: γ)) →
      (∀ s, Lead K.W n s → C s → Spot K n → ∃ t γ, K.W.node t = some .term ∧ Der K.W n (t :: γ)) ∧ (K.W.node n = some .sym → C n → ∃ t γ, K.W.node t = some .term ∧ Der K.W n (t :: γ)) :=
    fun hn hi h => ⟨h, fun h' => by rw [hn] at h'; cases h'; exact absurd rfl hi⟩
  have fst : ∀ {n}, (∃ t, First K n t) → ∃ t γ, K.W.node t = some .term ∧ Der K.W n (t :: γ) := fun ⟨t, h⟩ => ⟨t, (sound _ t h).2.choose, (sound _ t h).1, (sound _ t h).2.choose_spec⟩
  have alt : ∀ {n l r}, K.W.node n = some (.alt l r) → Spot K n → ∃ t γ, K.W.node t = some .term ∧ Der K.W n (t :: γ) := fun {n l r} hn hs => by
    obtain ⟨a, a1, a2⟩ := choice_exists R.wf l (hs.altL R hn).lt
    obtain ⟨b, b1, b2⟩ := choice_exists R.wf r (hs.altR R hn).lt
    obtain ⟨x, hx⟩ := List.exists_mem_of_ne_nil a a2
    obtain ⟨y, hy⟩ := List.exists_mem_of_ne_nil b b2
    have hp := (List.pairwise_append.1 (R.ll.alt n l r (a ++ b) hs.here.choose_spec.occ hs.lt hn (.alt hn a1 b1))).2.2 x hx y hy
    obtain ⟨t, γ, h1, h2⟩ := fst hp.1
    exact ⟨t, γ, h1, (der_choice (.alt hn a1 b1)).2 x (by simp [hx]) _ h2⟩
  induction h with
  | zero hn => intro _; exact ns hn (by simp) fun s h => (lead_none (by simp [hn]) h).elim
  | term hn => intro _; exact ns hn (by simp) fun s h => (lead_none (by simp [hn]) h).elim
  | @sym n hn => intro hω; have := hω n (by simp); rw [hn] at this; cases this
  | @expand n r i α hn hr hi hd ih =>
    intro hω
    refine ⟨fun _ _ _ hs => absurd hn hs.here.choose_spec.sym, fun _ hc => ?_⟩
    obtain ⟨s', c', r', h1, i', h2, h3⟩ := hC n hc
    have up : ∀ {r i}, r ∈ K.W.rules → K.W.node r = some (.evolve i n) → (∃ t, First K r t) → ∃ t γ, K.W.node t = some .term ∧ Der K.W n (t :: γ) := fun hr hi h => by
      obtain ⟨t, γ, h1, h2⟩ := fst h
      exact ⟨t, γ, h1, .expand hn hr hi (inv_evolve hi h2)⟩
    by_cases e : r' = r
    · subst e
      rw [hi] at h2; cases h2
      obtain ⟨t, γ, h4, h5⟩ := (ih hω).1 s' h3 c' (.rule R hr hi)
      exact ⟨t, γ, h4, .expand hn hr hi h5⟩
    · rcases pair_of (rules_pairwise R n) (mem_rulesOf.2 ⟨h1, i', h2⟩) (mem_rulesOf.2 ⟨hr, i, hi⟩) e with hp | hp
      · exact up h1 h2 (hp _ _ _ h2 hi).1
      · exact up hr hi (hp _ _ _ hi h2).1
  | evolve hn => intro _; exact ns hn (by simp) fun _ _ _ hs => absurd hn (hs.here.choose_spec.rule _ _)
  | @nonterm n s α hn hd ih =>
    intro hω
    refine ns hn (by simp) fun s' hl hc hs => ?_
    have : s' = s := lead_call hn hl
    subst this
    obtain ⟨t, γ, h1, h2⟩ := (ih hω).2 (R.wf.symbols n _ (.inl hn)) hc
    exact ⟨t, γ, h1, .nonterm hn h2⟩
  | inlined hn => exact absurd hn (R.plain.noInline _ _)
  | @cons n l r α β hn hl hr ih1 ih2 =>
    intro hω
    refine ns hn (by simp) fun s h hc hs => ?_
    cases α with
    | cons u α => exact triv (.cons hn hl hr) hω (by simp)
    | nil =>
      cases h with
      | consL e h => rw [hn] at e; cases e; obtain ⟨t, γ, h1, h2⟩ := (ih1 (by simp)).1 s h hc (hs.consL R hn); exact ⟨t, _, h1, .cons hn h2 hr⟩
      | consR e hi h => rw [hn] at e; cases e; obtain ⟨t, γ, h1, h2⟩ := (ih2 hω).1 s h hc (hs.consR R hn); exact ⟨t, _, h1, .cons hn hl h2⟩
      | _ e => rw [hn] at e; cases e
  | altL hn => intro _; exact ns hn (by simp) fun _ _ _ hs => alt hn hs
  | altR hn => intro _; exact ns hn (by simp) fun _ _ _ hs => alt hn hs
  | action0 hn => intro _; exact ns hn (by simp) fun s h => (lead_none (by simp [hn]) h).elim
  | @action n i α hn hd ih =>
    intro hω
    refine ns hn (by simp) fun s h hc hs => ?_
    have : Lead K.W i s := lead_action hn h
    obtain ⟨t, γ, h1, h2⟩ := (ih hω).1 s this hc (hs.action R hn); exact ⟨t, _, h1, .action hn h2⟩
  | @cond n i α hn hd ih =>
    intro hω
    refine ns hn (by simp) fun s h hc hs => ?_
    have : Lead K.W i s := lead_cond hn h
    obtain ⟨t, γ, h1, h2⟩ := (ih hω).1 s this hc (hs.cond R hn); exact ⟨t, _, h1, .cond hn h2⟩
  | @annot n i α hn hd ih =>
    intro hω
    refine ns hn (by simp) fun s h hc hs => ?_
    have : Lead K.W i s := lead_annot hn h
    obtain ⟨t, γ, h1, h2⟩ := (ih hω).1 s this hc (hs.annot R hn); exact ⟨t, _, h1, .annot hn h2⟩
  | tryL hn => exact absurd hn (nt _ _ _)
  | tryR hn => exact absurd hn (nt _ _ _)
  | plus1 hn => intro _; exact ns hn (by simp) fun _ _ _ hs => fst (R.ll.plus _ _ hs.here.choose_spec.occ hn).1
  | plusS hn => intro _; exact ns hn (by simp) fun _ _ _ hs => fst (R.ll.plus _ _ hs.here.choose_spec.occ hn).1
  | star0 hn => intro _; exact ns hn (by simp) fun _ _ _ hs => fst (R.ll.star _ _ hs.here.choose_spec.occ hn).1
  | starS hn => intro _; exact ns hn (by simp) fun _ _ _ hs => fst (R.ll.star _ _ hs.here.choose_spec.occ hn).1
  | opBase hn hd => intro hω; exact ns hn (by simp) fun _ _ _ _ => triv (.opBase hn hd) hω (op_nonempty R hn (.opBase hn hd))
  | opPre hn ht hd => intro hω; exact ns hn (by simp) fun _ _ _ _ => triv (.opPre hn ht hd) hω (by simp)
  | opPost hn ht hd => intro hω; exact ns hn (by simp) fun _ _ _ _ => triv (.opPost hn ht hd) hω (by simp)
  | opBin hn ht h1 h2 => intro hω; exact ns hn (by simp) fun _ _ _ _ => triv (.opBin hn ht h1 h2) hω (by simp)
  | opTern hn ht h1 h2 h3 => intro hω; exact ns hn (by simp) fun _ _ _ _ => triv (.opTern hn ht h1 h2 h3) hω (by simp)
  | opParen hn ht h1 => intro hω; exact ns hn (by simp) fun _ _ _ _ => triv (.opParen hn ht h1) hω (by simp)

/-- There is no left recursion over symbols which begin with the same token. -/
theorem no_left {C : Nat → Prop} {t : Nat} (ht : t ∈ K.W.terminals) (hC : ∀ s, C s → ∃ s', C s' ∧ Left K.W s s') (hB : ∀ s, C s → ∃ γ, Der K.W s (t :: γ))
    (nt : ∀ n l r, K.W.node n ≠ some (.tryc l r)) {n : Nat} {ω : List Nat} (h : Der K.W n ω) : ∀ {γ}, ω = t :: γ →
    (∀ s, Lead K.W n s → C s → (Spot K n ∨ ∃ s, K.W.node n = some (.nonterm s)) → False) ∧ (K.W.node n = some .sym → C n → False) := by
  have ns : ∀ {n it}, K.W.node n = some it → it ≠ .sym → (∀ s, Lead K.W n s → C s → (Spot K n ∨ ∃ s, K.W.node n = some (.nonterm s)) → False) →
      (∀ s, Lead K.W n s → C s → (Spot K n ∨ ∃ s, K.W.node n = some (.nonterm s)) → False) ∧ (K.W.node n = some .sym → C n → False) :=
    fun hn hi h => ⟨h, fun h' => by rw [hn] at h'; cases h'; exact absurd rfl hi⟩
  have un : ∀ {n it}, K.W.node n = some it → (∀ s, it ≠ .nonterm s) → (Spot K n ∨ ∃ s, K.W.node n = some (.nonterm s)) → Spot K n := fun hn hi h => by
    rcases h with h | ⟨s, h⟩
    · exact h
    · rw [hn] at h; cases h; exact absurd rfl (hi s)
  have beg : ∀ {n s}, Lead K.W n s → C s → Spot K n → ∃ γ, Der K.W n (t :: γ) := fun hl hc hs => by
    obtain ⟨γ, h⟩ := hB _ hc
    exact lead_begins R nt hl (.inl hs) h
  have alt : ∀ {n l r α β}, K.W.node n = some (.alt l r) → Spot K n → Der K.W l (t :: α) → Der K.W r (t :: β) → False := fun {n l r α β} hn hs d1 d2 => by
    obtain ⟨a, a1, -⟩ := choice_exists R.wf l (hs.altL R hn).lt
    obtain ⟨b, b1, -⟩ := choice_exists R.wf r (hs.altR R hn).lt
    obtain ⟨x, hx, x1⟩ := (der_choice a1).1 _ d1
    obtain ⟨y, hy, y1⟩ := (der_choice b1).1 _ d2
    have hp := (List.pairwise_append.1 (R.ll.alt n l r (a ++ b) hs.here.choose_spec.occ hs.lt hn (.alt hn a1 b1))).2.2 x hx y hy
    exact hp.2.1 t (first_of_der R (.inl ((hs.altL R hn).choice R a1 x hx)) x1 ht) (first_of_der R (.inl ((hs.altR R hn).choice R b1 y hy)) y1 ht)
  have opc : ∀ {n o s}, K.W.node n = some (.op o) → Lead K.W n s → C s → t ∈ o.pre ++ o.paren.map (·.1) → False := fun {n o s} hn hl hc hm => by
    obtain ⟨b, hb⟩ := R.wf.opBase n o hn
    have h1 : Lead K.W o.base s := lead_op hn hl
    have : s = b := lead_call hb h1
    subst this
    obtain ⟨γ, h⟩ := hB s hc
    exact (R.ll.opBefore n o s hn hb).2 t hm (first_of_der R (.inr (R.wf.symbols _ s (.inl hb))) h ht)
  have ap : ∀ {α β γ : List Nat}, α ++ β = t :: γ → α ≠ [] → ∃ α', α = t :: α' := fun {α β γ} e h => by
    cases α with
    | nil => exact absurd rfl h
    | cons u α => cases e; exact ⟨_, rfl⟩
  induction h with
  | zero hn => intro γ e; cases e
  | term hn => intro γ e; exact ns hn (by simp) fun s h => (lead_none (by simp [hn]) h).elim
  | @sym n hn => intro γ e; cases e; have := R.wf.terminals _ ht; rw [hn] at this; cases this
  | @expand n r i α hn hr hi hd ih =>
    intro γ e
    refine ⟨fun s h => (lead_none (by simp [hn]) h).elim, fun _ hc => ?_⟩
    obtain ⟨s', c', r', h1, i', h2, h3⟩ := hC n hc
    by_cases e' : r' = r
    · subst e'
      rw [hi] at h2; cases h2
      exact (ih e).1 s' h3 c' (.inl (.rule R hr hi))
    · have f1 : First K r t := first_of_der R (γ := γ) (.inl ⟨_, .rule hr⟩) (.evolve hi (e ▸ hd)) ht
      obtain ⟨γ', h4⟩ := beg h3 c' (.rule R h1 h2)
      have f2 : First K r' t := first_of_der R (γ := γ') (.inl ⟨_, .rule h1⟩) (.evolve h2 h4) ht
      rcases pair_of (rules_pairwise R n) (mem_rulesOf.2 ⟨h1, i', h2⟩) (mem_rulesOf.2 ⟨hr, i, hi⟩) e' with hp | hp
      · exact (hp _ _ _ h2 hi).2.1 t f2 f1
      · exact (hp _ _ _ hi h2).2.1 t f1 f2
  | evolve hn => intro γ e; exact ns hn (by simp) fun _ _ _ hs => absurd hn ((un hn (by simp) hs).here.choose_spec.rule _ _)
  | @nonterm n s α hn hd ih =>
    intro γ e
    refine ns hn (by simp) fun s' hl hc hs => ?_
    have : s' = s := lead_call hn hl
    subst this
    exact (ih e).2 (R.wf.symbols n _ (.inl hn)) hc
  | inlined hn => exact absurd hn (R.plain.noInline _ _)
  | @cons n l r α β hn hl hr ih1 ih2 =>
    intro γ e
    refine ns hn (by simp) fun s h hc hs => ?_
    have hs := un hn (by simp) hs
    cases h with
    | consL e' h =>
      rw [hn] at e'; cases e'
      cases α with
      | cons u α => cases e; exact (ih1 rfl).1 s h hc (.inl (hs.consL R hn))
      | nil =>
        obtain ⟨γ', d⟩ := beg h hc (hs.consL R hn)
        exact (clash R nt d rfl ht hl).1 (hs.consL R hn) (cons_first R hs.seen hn (e ▸ hr : Der K.W r (t :: γ)) ht)
    | consR e' hi h =>
      rw [hn] at e'; cases e'
      cases α with
      | nil => exact (ih2 e).1 s h hc (.inl (hs.consR R hn))
      | cons u α =>
        cases e
        obtain ⟨γ', d⟩ := beg h hc (hs.consR R hn)
        exact (clash R nt hl rfl ht (idle_null R.wf R.plain nt hi (R.plain.noSym _ _ (.consL hn)) fun i s => R.wf.parts _ _ i s (.consL hn))).1 (hs.consL R hn) (cons_first R hs.seen hn d ht)
    | _ e' => rw [hn] at e'; cases e'
  | @altL n l r α hn hd ih =>
    intro γ e
    refine ns hn (by simp) fun s h hc hs => ?_
    have hs := un hn (by simp) hs
    cases h with
    | altL e' h => rw [hn] at e'; cases e'; exact (ih e).1 s h hc (.inl (hs.altL R hn))
    | altR e' h => rw [hn] at e'; cases e'; obtain ⟨γ', d⟩ := beg h hc (hs.altR R hn); exact alt hn hs (e ▸ hd) d
    | _ e' => rw [hn] at e'; cases e'
  | @altR n l r α hn hd ih =>
    intro γ e
    refine ns hn (by simp) fun s h hc hs => ?_
    have hs := un hn (by simp) hs
    cases h with
    | altR e' h => rw [hn] at e'; cases e'; exact (ih e).1 s h hc (.inl (hs.altR R hn))
    | altL e' h => rw [hn] at e'; cases e'; obtain ⟨γ', d⟩ := beg h hc (hs.altL R hn); exact alt hn hs d (e ▸ hd)
    | _ e' => rw [hn] at e'; cases e'
  | action0 hn => intro γ e; cases e
  | @action n i α hn hd ih =>
    intro γ e
    refine ns hn (by simp) fun s h hc hs => ?_
    have : Lead K.W i s := lead_action hn h
    exact (ih e).1 s this hc (.inl ((un hn (by simp) hs).action R hn))
  | @cond n i α hn hd ih =>
    intro γ e
    refine ns hn (by simp) fun s h hc hs => ?_
    have : Lead K.W i s := lead_cond hn h
    exact (ih e).1 s this hc (.inl ((un hn (by simp) hs).cond R hn))
  | @annot n i α hn hd ih =>
    intro γ e
    refine ns hn (by simp) fun s h hc hs => ?_
    have : Lead K.W i s := lead_annot hn h
    exact (ih e).1 s this hc (.inl ((un hn (by simp) hs).annot R hn))
  | tryL hn => exact absurd hn (nt _ _ _)
  | tryR hn => exact absurd hn (nt _ _ _)
  | @plus1 n i α hn hd ih =>
    intro γ e
    refine ns hn (by simp) fun s h hc hs => ?_
    have : Lead K.W i s := lead_plus hn h
    exact (ih e).1 s this hc (.inl ((un hn (by simp) hs).plus R hn))
  | @plusS n i α β hn hd hd' ih1 ih2 =>
    intro γ e
    refine ns hn (by simp) fun s h hc hs => ?_
    cases α with
    | nil => first | exact (ih1 e).1 s h hc hs | exact (ih2 e).1 s h hc hs
    | cons u α =>
      cases e
      have : Lead K.W i s := lead_plus hn h
      have hs := (un hn (by simp) hs).plus R hn
      first | exact (ih1 rfl).1 s this hc (.inl hs) | exact (ih2 rfl).1 s this hc (.inl hs)
  | star0 hn => intro γ e; cases e
  | @starS n i α β hn hd hd' ih1 ih2 =>
    intro γ e
    refine ns hn (by simp) fun s h hc hs => ?_
    cases α with
    | nil => first | exact (ih1 e).1 s h hc hs | exact (ih2 e).1 s h hc hs
    | cons u α =>
      cases e
      have : Lead K.W i s := lead_star hn h
      have hs := (un hn (by simp) hs).star R hn
      first | exact (ih1 rfl).1 s this hc (.inl hs) | exact (ih2 rfl).1 s this hc (.inl hs)
  | @opBase n o α hn hd ih =>
    intro γ e
    refine ns hn (by simp) fun s h hc hs => ?_
    have : Lead K.W o.base s := lead_op hn h
    exact (ih e).1 s this hc (.inr (R.wf.opBase _ _ hn))
  | opPre hn hm hd =>
    intro γ e
    cases e
    exact ns hn (by simp) fun s h hc _ => opc hn h hc (by simp [hm])
  | opPost hn hm hd ih =>
    intro γ e
    obtain ⟨α', e'⟩ := ap e (op_nonempty R hn hd)
    exact ns hn (by simp) fun s h hc hs => (ih e').1 s h hc hs
  | opBin hn hm hd hd' ih1 ih2 =>
    intro γ e
    obtain ⟨α', e'⟩ := ap (by simpa using e) (op_nonempty R hn hd)
    exact ns hn (by simp) fun s h hc hs => (ih1 e').1 s h hc hs
  | opTern hn hm hd hd' hd'' ih1 ih2 ih3 =>
    intro γ e
    obtain ⟨α', e'⟩ := ap (by simpa using e) (op_nonempty R hn hd)
    exact ns hn (by simp) fun s h hc hs => (ih1 e').1 s h hc hs
  | opParen hn hm hd =>
    intro γ e
    cases e
    exact ns hn (by simp) fun s h hc _ => opc hn h hc (by simp only [List.mem_append, List.mem_map]; exact .inr ⟨_, hm, rfl⟩)

theorem occurs_spot (nt : ∀ n l r, K.W.node n ≠ some (.tryc l r)) {n : Nat} (h : Occurs K.W n) :
    (n ∈ K.W.rules ∧ ∃ i s, K.W.node n = some (.evolve i s)) ∨ Spot K n ∨ ∃ s, K.W.node n = some (.nonterm s) := by
  induction h with
  | @rule r hr => exact .inl ⟨hr, (R.wf.rules r hr).2⟩
  | @part n m hn hm ih =>
    rcases ih with ⟨hr, i, s, e⟩ | hs | ⟨s, e⟩
    · have : m = i := by cases hm <;> simp_all
      subst this
      exact .inr (.inl (.rule R hr e))
    · refine .inr ?_
      cases hm with
      | consL e => exact .inl (hs.consL R e)
      | consR e => exact .inl (hs.consR R e)
      | altL e => exact .inl (hs.altL R e)
      | altR e => exact .inl (hs.altR R e)
      | action e => exact .inl (hs.action R e)
      | cond e => exact .inl (hs.cond R e)
      | annot e => exact .inl (hs.annot R e)
      | tryL e => exact absurd e (nt _ _ _)
      | tryR e => exact absurd e (nt _ _ _)
      | plus e => exact .inl (hs.plus R e)
      | star e => exact .inl (hs.star R e)
      | opBase e => exact .inr (R.wf.opBase _ _ e)
      | evolve e => exact absurd e (hs.here.choose_spec.rule _ _)
    · cases hm <;> simp_all

omit R in
private theorem star_begins {n i t : Nat} {ω : List Nat} (h : Der K.W n ω) : ∀ {γ}, ω = t :: γ → K.W.node n = some (.star i) ∨ K.W.node n = some (.plus i) → ∃ γ', Der K.W i (t :: γ') := by
  induction h with
  | star0 e => intro γ h; cases h
  | @starS n j α β e h1 h2 ih1 ih2 =>
    intro γ he hn
    have : j = i := by simp_all
    subst this
    cases α with
    | nil => first | exact ih2 he hn | exact ih1 he hn
    | cons u α => cases he; exact ⟨_, h1⟩
  | @plus1 n j α e h1 ih =>
    intro γ he hn
    have : j = i := by simp_all
    subst this
    exact ⟨γ, he ▸ h1⟩
  | @plusS n j α β e h1 h2 ih1 ih2 =>
    intro γ he hn
    have : j = i := by simp_all
    subst this
    cases α with
    | nil => first | exact ih2 he hn | exact ih1 he hn
    | cons u α => cases he; exact ⟨_, h1⟩
  | _ e => intro γ _ hn; simp [e] at hn

/-- No loops over something that may be empty. -/
theorem loop_idle (sound : ∀ m t, First K m t → K.W.node t = some .term ∧ ∃ γ, Der K.W m (t :: γ)) (hd : Declared K.W) (nt : ∀ n l r, K.W.node n ≠ some (.tryc l r)) {n i : Nat}
    (ho : Occurs K.W n) (hn : K.W.node n = some (.star i) ∨ K.W.node n = some (.plus i)) : ¬ Idle K.W i := by
  intro hi
  have hs : Spot K n := by
    rcases occurs_spot R nt ho with ⟨_, j, s, e⟩ | h | ⟨s, e⟩
    · simp [e] at hn
    · exact h
    · simp [e] at hn
  rcases hn with hn | hn
  · obtain ⟨t, ft⟩ := (R.ll.star n i ho hn).1
    obtain ⟨t1, γ, d⟩ := sound n t ft
    obtain ⟨γ', d'⟩ := star_begins d rfl (.inl hn)
    exact (clash R nt d' rfl (hd t t1) (idle_null R.wf R.plain nt hi (R.plain.noSym _ _ (.star hn)) fun j s => R.wf.parts _ _ j s (.star hn))).1 (hs.star R hn) (star_follow R hs.seen hn t1 (.inr ⟨hd t t1, d⟩)).2
  · obtain ⟨t, ft⟩ := (R.ll.plus n i ho hn).1
    obtain ⟨t1, γ, d⟩ := sound n t ft
    obtain ⟨γ', d'⟩ := star_begins d rfl (.inr hn)
    exact (clash R nt d' rfl (hd t t1) (idle_null R.wf R.plain nt hi (R.plain.noSym _ _ (.plus hn)) fun j s => R.wf.parts _ _ j s (.plus hn))).1 (hs.plus R hn) (plus_follow R hs.seen hn t1 (.inr ⟨hd t t1, d⟩)).2

/-- No left recursion. -/
theorem left_none (sound : ∀ m t, First K m t → K.W.node t = some .term ∧ ∃ γ, Der K.W m (t :: γ)) (hd : Declared K.W) (nt : ∀ n l r, K.W.node n ≠ some (.tryc l r))
    (hprod : ∀ r ∈ K.W.rules, ∀ i s, K.W.node r = some (.evolve i s) → ∃ ω, Der K.W s ω ∧ ∀ t ∈ ω, K.W.node t = some .term) (s : Nat) : ¬ Relation.TransGen (Left K.W) s s := by
  intro h
  have hC : ∀ x, Relation.TransGen (Left K.W) x s → ∃ y, Relation.TransGen (Left K.W) y s ∧ Left K.W x y := fun x hx => by
    rcases Relation.TransGen.head'_iff.1 hx with ⟨y, h1, h2⟩
    exact ⟨y, Relation.TransGen.trans_right h2 h, h1⟩
  obtain ⟨y, -, r, hr, i, hi, -⟩ := hC s h
  obtain ⟨ω, h1, h2⟩ := hprod r hr i s hi
  have hsym := R.wf.symbols r s (.inr (.inr ⟨i, hi⟩))
  obtain ⟨t, γ, ht, d⟩ := (lively R sound hC nt h1 h2).2 hsym h
  have up : ∀ x z, Left K.W x z → (∃ γ, Der K.W z (t :: γ)) → ∃ γ, Der K.W x (t :: γ) := fun x z hl ⟨γ, d⟩ => by
    obtain ⟨r, hr, i, hi, hl⟩ := hl
    obtain ⟨γ', d'⟩ := lead_begins R nt hl (.inl (.rule R hr hi)) d
    exact ⟨γ', .expand (R.wf.symbols r x (.inr (.inr ⟨i, hi⟩))) hr hi d'⟩
  have hB : ∀ x, Relation.TransGen (Left K.W) x s → ∃ γ, Der K.W x (t :: γ) := fun x hx => by
    induction hx using Relation.TransGen.head_induction_on with
    | single h => exact up _ _ h ⟨γ, d⟩
    | head h _ ih => exact up _ _ h ih
  exact (no_left R (hd t ht) hC hB nt d rfl).2 hsym h

end

end Verif.Gen
