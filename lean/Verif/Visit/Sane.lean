import Verif.Visit.Spec
import Verif.Vars.TreeLemmas

/-!
# Trees of the parser are well typed

Every value in a node of a parsed tree comes from an annotation of that kind in a rule of the node's symbol — with or without `try`.
-/

namespace Verif.Visit

open Verif.Vars

/-- Tokens are assigned to token variables, nodes to node variables. -/
def Sorted : Code → Prop
  | .seq a b => Sorted a ∧ Sorted b
  | .setTok d => d.kind = .tok
  | .snocTok d => d.kind = .tok
  | .callSet _ _ d => d.kind = .node
  | .callSnoc _ _ d => d.kind = .node
  | .ite a b => Sorted a ∧ Sorted b
  | .while b => Sorted b
  | .doWhile b => Sorted b
  | .recover _ b _ => Sorted b
  | .rollback _ a b => Sorted a ∧ Sorted b
  | _ => True

theorem sorted_chain {c : Nat} {l : List Code} (h : ∀ a ∈ l, Sorted a) : Sorted (chain c l) := by
  induction l with
  | nil => trivial
  | cons a l ih => exact ⟨h a List.mem_cons_self, ih fun b hb => h b (List.mem_cons_of_mem _ hb)⟩

theorem emit_sorted (G : Grammar) (hk : ∀ s r, r ∈ G.rules s → Kinded r.item) : ∀ f : Nat,
    (∀ i c k code k', emit G f i c k = some (code, k') → Kinded i → Sorted code) ∧
    (∀ i c k codes k', emitAlts G f i c k = some (codes, k') → Kinded i → ∀ a ∈ codes, Sorted a) := by
  intro f
  induction f with
  | zero => exact ⟨fun i c k code k' h => by simp [emit] at h, fun i c k code k' h => by simp [emitAlts] at h⟩
  | succ f ih =>
    obtain ⟨ih1, ih2⟩ := ih
    have one : ∀ i c k code k', emit G (f + 1) i c k = some (code, k') → Kinded i → Sorted code := by
      intro i c k code k' h hp
      cases i with
      | zero => simp only [emit, Option.some.injEq, Prod.mk.injEq] at h; rw [← h.1]; trivial
      | atom a =>
        cases a <;> simp only [emit, Option.some.injEq, Prod.mk.injEq] at h <;> rw [← h.1] <;> simp [Sorted]
      | inl s =>
        simp only [emit] at h
        split at h
        · cases h
        · rename_i r rs hr
          simp only [Option.map_eq_some_iff, Prod.mk.injEq] at h
          obtain ⟨⟨p1, p2⟩, hp1, rfl, rfl⟩ := h
          have e := ih1 _ _ _ _ _ hp1 (hk s r (by rw [hr]; exact List.mem_cons_self))
          refine ⟨⟨e, ?_⟩, trivial⟩
          split <;> trivial
      | ann d a =>
        cases a with
        | tok t =>
          simp only [emit, Option.some.injEq, Prod.mk.injEq] at h
          rw [← h.1]
          refine ⟨trivial, ?_, trivial⟩
          split <;> exact hp
        | sym s =>
          simp only [emit, Option.some.injEq, Prod.mk.injEq] at h
          rw [← h.1]
          split <;> exact hp
      | cons l r =>
        simp only [emit, Option.bind_eq_some_iff, Option.map_eq_some_iff, Prod.mk.injEq] at h
        obtain ⟨⟨p1, p2⟩, hp1, ⟨q1, q2⟩, hq1, rfl, rfl⟩ := h
        exact ⟨ih1 _ _ _ _ _ hp1 hp.1, ih1 _ _ _ _ _ hq1 hp.2⟩
      | alt l r =>
        simp only [emit, Option.bind_eq_some_iff, Option.map_eq_some_iff, Prod.mk.injEq] at h
        obtain ⟨⟨p1, p2⟩, hp1, ⟨q1, q2⟩, hq1, rfl, rfl⟩ := h
        refine sorted_chain fun a ha => ?_
        rcases List.mem_append.1 ha with ha | ha
        · exact ih2 _ _ _ _ _ hp1 hp.1 a ha
        · exact ih2 _ _ _ _ _ hq1 hp.2 a ha
      | star x =>
        simp only [emit, Option.map_eq_some_iff, Prod.mk.injEq] at h
        obtain ⟨⟨p1, p2⟩, hp1, rfl, rfl⟩ := h
        (have e := ih1 _ _ _ _ _ hp1 hp; exact e)
      | plus x =>
        simp only [emit, Option.map_eq_some_iff, Prod.mk.injEq] at h
        obtain ⟨⟨p1, p2⟩, hp1, rfl, rfl⟩ := h
        (have e := ih1 _ _ _ _ _ hp1 hp; exact e)
      | act x => simp only [emit] at h; (have e := ih1 _ _ _ _ _ h hp; exact e)
      | cond x => simp only [emit] at h; (have e := ih1 _ _ _ _ _ h hp; exact e)
      | recover x fl =>
        simp only [emit, Option.map_eq_some_iff, Prod.mk.injEq] at h
        obtain ⟨⟨p1, p2⟩, hp1, rfl, rfl⟩ := h
        (have e := ih1 _ _ _ _ _ hp1 hp; exact e)
      | rollback x y =>
        simp only [emit, Option.bind_eq_some_iff, Option.map_eq_some_iff, Prod.mk.injEq] at h
        obtain ⟨⟨p1, p2⟩, hp1, ⟨q1, q2⟩, hq1, rfl, rfl⟩ := h
        exact ⟨ih1 _ _ _ _ _ hp1 hp.1, ih1 _ _ _ _ _ hq1 hp.2⟩
      | op => simp [emit] at h
    refine ⟨one, ?_⟩
    intro i c k codes k' h hp a ha
    rw [emitAlts.eq_def] at h
    dsimp only at h
    split at h
    · simp only [Option.bind_eq_some_iff, Option.map_eq_some_iff, Prod.mk.injEq] at h
      obtain ⟨⟨p1, p2⟩, hp1, ⟨q1, q2⟩, hq1, rfl, rfl⟩ := h
      rcases List.mem_append.1 ha with ha | ha
      · exact ih2 _ _ _ _ _ hp1 hp.1 a ha
      · exact ih2 _ _ _ _ _ hq1 hp.2 a ha
    · simp only [Option.map_eq_some_iff, Prod.mk.injEq] at h
      obtain ⟨⟨p1, p2⟩, hp1, rfl, rfl⟩ := h
      rw [List.mem_singleton] at ha
      subst ha
      (have e := ih1 _ _ _ _ _ hp1 hp; exact e)

theorem emitRules_sorted (G : Grammar) (hk : ∀ s r, r ∈ G.rules s → Kinded r.item) {f s : Nat} : ∀ {rs : List Rule} {k : Nat} {code : Code},
    (∀ r ∈ rs, r ∈ G.rules s) → emitRules G f s rs k = some code → Sorted code ∧ ∀ d ∈ code.assigns, ∃ r ∈ rs, Annotates G d r.item
  | [], k, code, _, h => by
    simp only [emitRules, Option.some.injEq] at h
    subst h
    simp [Sorted, Code.assigns]
  | r :: rs, k, code, hr, h => by
    simp only [emitRules, Option.bind_eq_some_iff, Option.map_eq_some_iff] at h
    obtain ⟨⟨p1, p2⟩, hp, q, hq, rfl⟩ := h
    obtain ⟨h1, h2⟩ := emitRules_sorted G hk (fun r' h' => hr r' (List.mem_cons_of_mem _ h')) hq
    have e := (emit_sorted G hk f).1 _ _ _ _ _ hp (hk s r (hr r List.mem_cons_self))
    constructor
    · refine ⟨⟨e, ?_⟩, h1⟩
      split <;> trivial
    · intro d hd
      simp only [Code.assigns, List.mem_append] at hd
      rcases hd with (hd | hd) | hd
      · exact ⟨r, List.mem_cons_self, (emit_assigns G f).1 _ _ _ _ _ hp d hd⟩
      · split at hd <;> simp [Code.assigns] at hd
      · obtain ⟨r', hr', h'⟩ := h2 d hd
        exact ⟨r', List.mem_cons_of_mem _ hr', h'⟩

/-- A value fits a member. -/
def Fit (P : Decl → Prop) (n : String) (b : Bool) (t : Tree) : Prop :=
  ∃ d, P d ∧ d.temp = false ∧ d.name = n ∧ d.seq = b ∧ ((d.kind = .tok ∧ ∃ k, t = .tok k) ∨ (d.kind = .node ∧ ∃ s x y vars, t = .node s x y vars))

/-- A tree all of whose values fit. -/
inductive Sane (G : Grammar) : Tree → Prop
  | tok {k} : Sane G (.tok k)
  | node {s a b vars} : Once vars → (∀ n q vs t, (n, q, vs) ∈ vars → t ∈ vs → Fit (fun d => ∃ r ∈ G.rules s, Annotates G d r.item) n q t) →
      (∀ n q vs t, (n, q, vs) ∈ vars → t ∈ vs → Sane G t) → Sane G (.node s a b vars)

/-- The same for a store. -/
def Fine (G : Grammar) (P : Decl → Prop) (st : Store) : Prop := Once st ∧ ∀ n q vs t, (n, q, vs) ∈ st → t ∈ vs → Fit P n q t ∧ Sane G t

theorem fine_assign {G : Grammar} {P : Decl → Prop} {st : St} {d : Decl} {v : Tree} (h : Fine G P st.members) (hd : P d) (hv : Sane G v)
    (hf : (d.kind = .tok ∧ ∃ k, v = .tok k) ∨ (d.kind = .node ∧ ∃ s x y vars, v = .node s x y vars)) : Fine G P (st.assign d v).members := by
  unfold St.assign
  dsimp only
  split
  · exact h
  · rename_i ht
    have ht' : d.temp = false := by simpa using ht
    refine ⟨once_update h.1, ?_⟩
    intro n q vs t hm hmt
    rcases (mem_update h.1).1 hm with ⟨rfl, rfl, hw⟩ | ⟨_, hm⟩
    · have hnew : t = v ∨ ∃ w, (d.name, d.seq, w) ∈ st.members ∧ t ∈ w := by
        rcases hw with ⟨w, hw, rfl⟩ | ⟨_, rfl⟩
        · split at hmt
          · rcases List.mem_append.1 hmt with h1 | h1
            · exact Or.inr ⟨w, hw, h1⟩
            · exact Or.inl (List.mem_singleton.1 h1)
          · exact Or.inl (List.mem_singleton.1 hmt)
        · split at hmt
          · simp only [List.nil_append] at hmt
            exact Or.inl (List.mem_singleton.1 hmt)
          · exact Or.inl (List.mem_singleton.1 hmt)
      rcases hnew with rfl | ⟨w, hw, htw⟩
      · exact ⟨⟨d, hd, ht', rfl, rfl, hf⟩, hv⟩
      · exact h.2 _ _ _ _ hw htw
    · exact h.2 _ _ _ _ hm hmt

/-- Execution keeps the members well typed; a parsed tree is. -/
theorem exec_fine (W : World) (hk : ∀ s r, r ∈ W.G.rules s → Kinded r.item) : ∀ f : Nat,
    (∀ P code st r st', exec W f code st = some (r, st') → Sorted code → (∀ d ∈ code.assigns, P d) → Fine W.G P st.members → Fine W.G P st'.members) ∧
    (∀ s st t p n, parse W f s st = some (some t, p, n) → Sane W.G t ∧ ∃ x y vars, t = .node s x y vars) := by
  intro f
  induction f with
  | zero => exact ⟨fun P code st r st' h => by simp [exec] at h, fun s st t p n h => by simp [parse] at h⟩
  | succ f ih =>
    obtain ⟨ih1, ih2⟩ := ih
    constructor
    · intro P code st r st' h hs ha hf
      have call : ∀ s c d, (d.kind = .node) → P d → (match parse W f s st with
          | some (some t, p, n) => some (Res.ok, St.assign { st with pos := p, asked := n } d t)
          | some (none, p, n) => some (failed c, { st with pos := p, asked := n })
          | none => none) = some (r, st') → Fine W.G P st'.members := by
        intro s c d hd hP h
        split at h
        · rename_i t p n hp
          simp only [Option.some.injEq, Prod.mk.injEq] at h
          rw [← h.2]
          obtain ⟨h1, x, y, vars, rfl⟩ := ih2 _ _ _ _ _ hp
          exact fine_assign (st := { st with pos := p, asked := n }) hf hP h1 (Or.inr ⟨hd, _, _, _, _, rfl⟩)
        · simp only [Option.some.injEq, Prod.mk.injEq] at h
          rw [← h.2]
          exact hf
        · cases h
      cases code with
      | skip => simp only [exec, Option.some.injEq, Prod.mk.injEq] at h; rw [← h.2]; exact hf
      | seq a b =>
        simp only [Code.assigns, List.mem_append] at ha
        simp only [exec] at h
        split at h
        · rename_i st1 h1
          exact ih1 P _ _ _ _ h hs.2 (fun d hd => ha d (Or.inr hd)) (ih1 P _ _ _ _ h1 hs.1 (fun d hd => ha d (Or.inl hd)) hf)
        · exact ih1 P _ _ _ _ h hs.1 (fun d hd => ha d (Or.inl hd)) hf
      | test t c => simp only [exec, Option.some.injEq, Prod.mk.injEq] at h; rw [← h.2]; exact hf
      | lex => simp only [exec, Option.some.injEq, Prod.mk.injEq] at h; rw [← h.2]; exact hf
      | setTok d =>
        simp only [exec, Option.some.injEq, Prod.mk.injEq] at h; rw [← h.2]
        exact fine_assign hf (ha d (by simp [Code.assigns])) .tok (Or.inl ⟨hs, _, rfl⟩)
      | snocTok d =>
        simp only [exec, Option.some.injEq, Prod.mk.injEq] at h; rw [← h.2]
        exact fine_assign hf (ha d (by simp [Code.assigns])) .tok (Or.inl ⟨hs, _, rfl⟩)
      | call s c =>
        simp only [exec] at h
        split at h
        · simp only [Option.some.injEq, Prod.mk.injEq] at h; rw [← h.2]; exact hf
        · simp only [Option.some.injEq, Prod.mk.injEq] at h; rw [← h.2]; exact hf
        · cases h
      | callSet s c d => exact call s c d hs (ha d (by simp [Code.assigns])) h
      | callSnoc s c d => exact call s c d hs (ha d (by simp [Code.assigns])) h
      | ite a b =>
        simp only [Code.assigns, List.mem_append] at ha
        simp only [exec] at h
        split at h
        · (have e := ih1 P _ _ _ _ h hs.1 (fun d hd => ha d (Or.inl hd)) hf; exact e)
        · (have e := ih1 P _ _ _ _ h hs.2 (fun d hd => ha d (Or.inr hd)) hf; exact e)
      | «while» b =>
        simp only [exec] at h
        split at h
        · split at h
          · rename_i st1 h1
            exact ih1 P _ _ _ _ h hs ha (ih1 P _ _ _ _ h1 hs ha hf)
          · (have e := ih1 P _ _ _ _ h hs ha hf; exact e)
        · simp only [Option.some.injEq, Prod.mk.injEq] at h; rw [← h.2]; exact hf
      | doWhile b =>
        simp only [exec] at h
        split at h
        · rename_i st1 h1
          have hf1 := ih1 P _ _ _ _ h1 hs ha hf
          split at h
          · (have e := ih1 P _ _ _ _ h hs ha hf1; exact e)
          · simp only [Option.some.injEq, Prod.mk.injEq] at h; rw [← h.2]; exact hf1
        · (have e := ih1 P _ _ _ _ h hs ha hf; exact e)
      | fail c => simp only [exec, Option.some.injEq, Prod.mk.injEq] at h; rw [← h.2]; exact hf
      | eof => simp only [exec, Option.some.injEq, Prod.mk.injEq] at h; rw [← h.2]; exact hf
      | recover i b fl =>
        simp only [exec] at h
        split at h
        · rename_i j st1 h1
          have hf1 := ih1 P _ _ _ _ h1 hs ha hf
          split at h
          · simp only [Option.map_eq_some_iff, Prod.mk.injEq] at h
            obtain ⟨q, _, _, rfl⟩ := h
            exact hf1
          · simp only [Option.some.injEq, Prod.mk.injEq] at h; rw [← h.2]; exact hf1
        · (have e := ih1 P _ _ _ _ h hs ha hf; exact e)
      | rollback i a b =>
        simp only [Code.assigns, List.mem_append] at ha
        simp only [exec] at h
        split at h
        · rename_i j st1 h1
          have hf1 := ih1 P _ _ _ _ h1 hs.1 (fun d hd => ha d (Or.inl hd)) hf
          split at h
          · (have e := ih1 P _ _ _ _ h hs.2 (fun d hd => ha d (Or.inr hd)) hf1; exact e)
          · simp only [Option.some.injEq, Prod.mk.injEq] at h; rw [← h.2]; exact hf1
        · (have e := ih1 P _ _ _ _ h hs.1 (fun d hd => ha d (Or.inl hd)) hf; exact e)
    · intro s st t p n h
      simp only [parse] at h
      split at h
      · cases h
      · rename_i code hc
        obtain ⟨hs, hd⟩ := emitRules_sorted W.G hk (fun r hr => hr) hc
        split at h
        · cases h
        · rename_i st1 h1
          simp only [Option.some.injEq, Prod.mk.injEq] at h
          obtain ⟨rfl, _, _⟩ := h
          have hf := ih1 (fun d => ∃ r ∈ W.G.rules s, Annotates W.G d r.item) _ _ _ _ h1 hs hd ⟨List.Pairwise.nil, by simp⟩
          exact ⟨.node hf.1 (fun n q vs t hm ht => (hf.2 n q vs t hm ht).1) (fun n q vs t hm ht => (hf.2 n q vs t hm ht).2), _, _, _, rfl⟩
        · simp only [Option.some.injEq, Prod.mk.injEq, reduceCtorEq, false_and] at h

end Verif.Visit
