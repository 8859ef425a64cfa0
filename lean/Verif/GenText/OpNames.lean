import Verif.GenText.OpScope

/-! # Names in the text of functions with operator rules: the function -/

namespace Verif.GenText

open Verif.Grammar
open Verif.Gen (Ctx Row OpKind isCond rulesOf rows1 rows2 symOf)
open Spec

section
variable {o : Opts} {K : Ctx}

abbrev stackVar : Var := (.«opStack», 0)

theorem next_le (d : Nat) : d ≤ nextVar o d := by
  unfold nextVar
  split <;> omega

theorem row_le (self n : Nat) (r : Row) (d : Nat) : d ≤ (rowToks o K self n r d).2 := by
  unfold rowToks
  split <;> first | exact next_le d | exact Nat.le_refl d

theorem rows_le (self n : Nat) : ∀ (rs : List Row) (d : Nat), d ≤ (rowsToks o K self n rs d).2
  | [], d => Nat.le_refl d
  | r :: rs, d => Nat.le_trans (row_le self n r d) (rows_le self n rs _)

theorem op_le {self n : Nat} {q : OpItem} {d : Nat} {ts : Toks} {d' : Nat} (h : opToks o K self n q d = some (ts, d')) : d ≤ d' := by
  unfold opToks at h
  split at h
  · cases h
  obtain ⟨sym, -, h⟩ := Option.map_eq_some_iff.1 h
  cases h
  exact Nat.le_trans (Nat.le_trans (rows_le self n _ d) (rows_le self n _ _)) (next_le _)

theorem calm_eof (s : Nat) {x : Tok} {st : Sc} (ho : st.scopes ≠ []) : Sc.scan x st (if s ∈ K.W.start then [.kIf, .lp, .sym .«Token_» K.eofTok, .w .«!=», .w .«yytoken», .rp, .lb, .kReturn, .w .«false», .semi, .rb] else []) = some st := by
  obtain ⟨a, l, e⟩ := List.exists_cons_of_ne_nil ho
  have : st = At a l st.pending st.labels := by rw [At, ← e]
  rw [this]
  split
  · repeat (first | refine (scan_calm (by rfl)).trans ?_ | refine scan_lb.trans ?_ | refine scan_rb.trans ?_)
    rfl
  · rfl

/-- An operator rule, where `opStack` is in force. -/
theorem opRule_ok (ha : o.ast = true) {fuel r i s k d : Nat} {q : OpItem} (hi : K.W.node i = some (.op q)) {ts : Toks} {k' d' : Nat} (h : fullRule o K fuel r i s k d = some (ts, k', d')) {st : Sc} (ho : st.scopes ≠ [])
    (hv : stackVar ∈ st.visible) : Goes st ts st ∧ k' = k ∧ d ≤ d' := by
  rw [fullRule, hi] at h
  obtain ⟨t, h1, h2⟩ := Option.bind_eq_some_iff.1 h
  obtain ⟨⟨tb, db⟩, h3, h4⟩ := Option.map_eq_some_iff.1 h2
  cases h4
  refine ⟨?_, rfl, op_le h3⟩
  obtain ⟨a, l, e⟩ := List.exists_cons_of_ne_nil ho
  have est : st = At a l st.pending st.labels := by rw [At, ← e]
  rw [Sc.visible, e, List.flatten_cons, List.mem_append] at hv
  rw [est]
  intro x
  simp only [List.append_assoc, List.cons_append, List.nil_append]
  refine (scan_calm (by rfl)).trans ((scan_calm (by rfl)).trans (scan_calms (calm_rule h1) ?_))
  refine (scan_calm (by rfl)).trans (scan_lb.trans ?_)
  refine scan_calms (calm_local _) ((scan_calm (by rfl)).trans ?_)
  refine scan_app (op_scan ha h3 (a := []) (by simp only [in_cons]; exact .inr hv) (by simp)) rfl (scan_app (calm_eof s (by simp [At])) rfl ?_)
  exact scan_rb.trans rfl

theorem full_plain {fuel r i s k d : Nat} (hi : ∀ q, K.W.node i ≠ some (.op q)) : fullRule o K fuel r i s k d = textRule o K fuel r i s 0 k d := by
  unfold fullRule
  split
  · next q e => exact absurd e (hi q)
  · rfl

/-- The item of rule `r` is an operator item. -/
def OpRule (K : Ctx) (r : Nat) : Prop := ∃ i s q, K.W.node r = some (.evolve i s) ∧ K.W.node i = some (.op q)

theorem fullRules_ok (fuel : Nat) : ∀ {rs k d ts}, fullRules o K fuel rs k d = some ts → ∀ st, Before k d st → ((∃ r ∈ rs, OpRule K r) → o.ast = true ∧ stackVar ∈ st.visible) →
    ∃ st' k' d', Goes st ts st' ∧ Moves 0 k d k' d' st st'
  | [], k, d, ts, h, st, B, _ => by
    rw [fullRules] at h
    cases h
    obtain ⟨st', h1, h2⟩ := (Fine.calm (c := 0) (k := k) (d := d) (ts := [.kReturn, .w .«false», .semi]) (by simp [Calm, neutral])).block st B
    exact ⟨st', k, d, h1, h2⟩
  | r :: rs, k, d, ts, h, st, B, hv => by
    rw [fullRules] at h
    split at h
    · next i s e =>
      obtain ⟨⟨ta, ka, da⟩, h1, h2⟩ := Option.bind_eq_some_iff.1 h
      obtain ⟨tb, h3, rfl⟩ := Option.map_eq_some_iff.1 h2
      have A : ∃ st', Goes st ta st' ∧ Moves 0 k d ka da st st' := by
        by_cases hi : ∃ q, K.W.node i = some (.op q)
        · obtain ⟨q, hq⟩ := hi
          obtain ⟨ha, hs⟩ := hv ⟨r, .head _, i, s, q, e, hq⟩
          obtain ⟨g, rfl, hd⟩ := opRule_ok ha hq h1 B.open' hs
          exact ⟨st, g, { Moves.refl (c := 0) (k := ka) (d := da) B.open' with
            scopes := by
              obtain ⟨a, l, e⟩ := List.exists_cons_of_ne_nil B.open'
              exact ⟨[], a, l, e, e, nofun⟩
            le' := hd }⟩
        · rw [full_plain fun q hq => hi ⟨q, hq⟩] at h1
          exact (text_fine o K fuel).2.2 (Nat.zero_le _) h1 st B
      obtain ⟨st1, g1, m1⟩ := A
      obtain ⟨st2, k', d', g2, m2⟩ := fullRules_ok fuel h3 st1 (m1.before B (Nat.zero_le _)) fun ⟨r', hr', hr''⟩ => by
        obtain ⟨ha, hs⟩ := hv ⟨r', .tail _ hr', hr''⟩
        exact ⟨ha, m1.visible hs⟩
      exact ⟨st2, k', d', g1.append (Goes.append (a := [.kElse]) (goes_neutral (by simp [neutral])) g2), m1.trans m2⟩
    · cases h

/-- A variable that is not in force is used. -/
theorem scan_none {st : Sc} {x : Tok} {v i ts} (hx : declares x = false) (hv : v ≠ .«__catch_») (h : (v, i) ∉ st.visible) : Sc.scan x st (.num v i :: ts) = none := by
  have : Sc.step x st (.num v i) = none := by
    cases v <;> first | exact absurd rfl hv | simp [Sc.step, hx, h]
  rw [Sc.scan, this]
  rfl

theorem scan_app_none {st : Sc} {x : Tok} {ts ts' : Toks} (h : Sc.scan x st ts = none) : Sc.scan x st (ts ++ ts') = none := by rw [scan_append, h]; rfl

/-- The block of the first operator uses `opStack`. -/
theorem head_none {a : List Var} {l p b x} {r : Row} (h : stackVar ∉ a ∧ ¬ In stackVar l) : Sc.scan x (At [] (a :: l) p b) (opHead r) = none := by
  have hn : stackVar ∉ (At [(.«br», 0), (.«last», 0), (.«priority», 0)] (a :: l) p b).visible := by
    rw [At, Sc.visible, List.flatten_cons, List.flatten_cons]
    simp only [List.mem_append, not_or]
    exact ⟨by simp [stackVar], h.1, h.2⟩
  simp only [nm, opHead, lastN, popBack, endOf, List.cons_append, List.nil_append]
  repeat (first
    | refine (scan_calm (by rfl)).trans ?_
    | refine (scan_use (by rfl) (by simp) (Or.inl (by decide))).trans ?_
    | refine (scan_decl (by rfl) (by simp) (by simp)).trans ?_)
  exact scan_none rfl (by simp) hn

theorem row_none {a : List Var} {l p b x} {self n : Nat} {r : Row} {d : Nat} (hr : r.kind = .post ∨ r.kind = .bin ∨ r.kind = .tern) (h : stackVar ∉ a ∧ ¬ In stackVar l) : Sc.scan x (At a l p b) (rowToks o K self n r d).1 = none := by
  have go : ∀ rest : Toks, Sc.scan x (At a l p b) (.kIf :: .lp :: (opTest o K r.tok r.ask ++ (.rp :: .lb :: (opHead r ++ rest)))) = none := fun rest =>
    (scan_calm (by rfl)).trans ((scan_calm (by rfl)).trans (scan_calms (calm_opTest _ _) <| (scan_calm (by rfl)).trans (scan_lb.trans (scan_app_none (head_none h)))))
  unfold rowToks
  rcases hr with e | e | e <;> rw [e]
  · simp only [postToks, List.append_assoc, List.cons_append, List.nil_append]; exact go _
  · simp only [binToks, List.append_assoc, List.cons_append, List.nil_append]; exact go _
  · simp only [ternToks, List.append_assoc, List.cons_append, List.nil_append]; exact go _

theorem rows_kinds {n : Nat} {q : OpItem} {r : Row} (hr : r ∈ rows1 K n .post q.post ++ rows1 K n .bin q.bin ++ rows2 K n .tern q.tern) : r.kind = .post ∨ r.kind = .bin ∨ r.kind = .tern := by
  simp only [List.mem_append, rows1, rows2, List.mem_mapIdx] at hr
  rcases hr with (⟨i, hi, rfl⟩ | ⟨i, hi, rfl⟩) | ⟨i, hi, rfl⟩ <;> simp

theorem op_none {a : List Var} {l p b x} {self n : Nat} {q : OpItem} {d : Nat} {ts : Toks} {d' : Nat} (h : opToks o K self n q d = some (ts, d')) (hn : (.«expectOperator», 0) ∉ a) (hs : stackVar ∉ a ∧ ¬ In stackVar l) :
    Sc.scan x (At a l p b) ts = none := by
  unfold opToks at h
  split at h
  · cases h
  next hne =>
  obtain ⟨sym, -, h⟩ := Option.map_eq_some_iff.1 h
  cases h
  simp only [List.append_assoc]
  refine scan_app (st1 := At [] ([] :: ((.«expectOperator», 0) :: a) :: l) p b) (y := .lb) ?_ rfl (scan_app_none ?_)
  · simp only [nm]
    refine (scan_calm (by rfl)).trans ((scan_decl (by rfl) (by simp) hn).trans ?_)
    repeat (first
      | refine (scan_calm (by rfl)).trans ?_ | refine scan_lb.trans ?_
      | refine (scan_use (by rfl) (by simp) (by simp [in_cons])).trans ?_)
    rfl
  · have hk := fun r (hr : r ∈ rows1 K n .post q.post ++ (rows1 K n .bin q.bin ++ rows2 K n .tern q.tern)) => rows_kinds (K := K) (n := n) (q := q) (r := r) (by simpa only [List.append_assoc] using hr)
    cases e : rows1 K n .post q.post ++ (rows1 K n .bin q.bin ++ rows2 K n .tern q.tern) with
    | nil =>
      refine absurd ?_ hne
      simpa [rows1, rows2] using e
    | cons r rs =>
      rw [e] at hk
      exact scan_app_none (row_none (hk r (.head _)) (by simpa [in_cons, stackVar] using hs))

theorem opRule_none {fuel r i s k d : Nat} {q : OpItem} (hi : K.W.node i = some (.op q)) {ts : Toks} {k' d' : Nat} (h : fullRule o K fuel r i s k d = some (ts, k', d')) {st : Sc} (ho : st.scopes ≠ [])
    (hv : stackVar ∉ st.visible) (x : Tok) : Sc.scan x st ts = none := by
  rw [fullRule, hi] at h
  obtain ⟨t, h1, h2⟩ := Option.bind_eq_some_iff.1 h
  obtain ⟨⟨tb, db⟩, h3, h4⟩ := Option.map_eq_some_iff.1 h2
  cases h4
  obtain ⟨a, l, e⟩ := List.exists_cons_of_ne_nil ho
  have est : st = At a l st.pending st.labels := by rw [At, ← e]
  rw [Sc.visible, e, List.flatten_cons, List.mem_append] at hv
  rw [est]
  simp only [List.append_assoc, List.cons_append, List.nil_append]
  refine (scan_calm (by rfl)).trans ((scan_calm (by rfl)).trans (scan_calms (calm_rule h1) ?_))
  refine (scan_calm (by rfl)).trans (scan_lb.trans ?_)
  refine scan_calms (calm_local _) ((scan_calm (by rfl)).trans (scan_app_none (op_none h3 (by simp) ?_)))
  rw [in_cons]
  exact ⟨by simp, hv⟩

theorem Moves.stack {c k d k' d' st st'} (h : Moves c k d k' d' st st') (hs : stackVar ∉ st.visible) : stackVar ∉ st'.visible := by
  obtain ⟨new, top, rest, h1, h2, h3⟩ := h.scopes
  rw [Sc.visible, h1, List.flatten_cons] at hs
  rw [Sc.visible, h2, List.flatten_cons, List.append_assoc, List.mem_append]
  rintro (hv | hv)
  · have := h3 _ hv
    rw [if_neg (by simp)] at this
    simp at this
  · exact hs hv

theorem fullRules_none (fuel : Nat) : ∀ {rs k d ts}, fullRules o K fuel rs k d = some ts → ∀ st, Before k d st → stackVar ∉ st.visible → (∃ r ∈ rs, OpRule K r) → ∀ x, Sc.scan x st ts = none
  | [], k, d, ts, h, st, B, hs, ⟨r, hr, _⟩, x => nomatch hr
  | r :: rs, k, d, ts, h, st, B, hs, ⟨r', hr', ho⟩, x => by
    rw [fullRules] at h
    split at h
    · next i s e =>
      obtain ⟨⟨ta, ka, da⟩, h1, h2⟩ := Option.bind_eq_some_iff.1 h
      obtain ⟨tb, h3, rfl⟩ := Option.map_eq_some_iff.1 h2
      by_cases hi : ∃ q, K.W.node i = some (.op q)
      · obtain ⟨q, hq⟩ := hi
        exact scan_app_none (opRule_none hq h1 B.open' hs x)
      · rw [full_plain fun q hq => hi ⟨q, hq⟩] at h1
        obtain ⟨st1, g1, m1⟩ := (text_fine o K fuel).2.2 (Nat.zero_le _) h1 st B
        have hr : r' ∈ rs := by
          rcases List.mem_cons.1 hr' with rfl | hr
          · obtain ⟨i', s', q, e', hq⟩ := ho
            rw [e] at e'
            cases e'
            exact absurd ⟨q, hq⟩ hi
          · exact hr
        have ih := fullRules_none fuel h3 st1 (m1.before B (Nat.zero_le _)) (m1.stack hs) ⟨r', hr, ho⟩ .kElse
        exact scan_app (g1 x) rfl ((scan_calm (by rfl)).trans ih)
    · cases h

theorem full_names {fuel s : Nat} {ts : Toks} (h : fullText o K fuel s = some ts) : Named ts ↔ ((∃ r ∈ rulesOf K.W s, OpRule K r) → o.ast = true ∧ Check.isOpSym K.W s = true) := by
  unfold fullText at h
  split at h
  · cases h
  obtain ⟨tb, h1, rfl⟩ := Option.map_eq_some_iff.1 h
  have hi : Calm ([.w .«*», .w .«yynode», .w .«=», .w .«create», .w .«<», .sym .«Ast» s, .w .«>», .lp, .rp, .semi] ++ yynode ++ .w .«startToken» :: .w .«=» :: here ++ [.semi] ++
      (o.inits s).flatMap (fun n => yynode ++ [.mem n, .w .«=», .w .«-1», .semi])) := Calm.append (by simp [Calm, neutral, yynode, here]) (calm_inits _)
  have ht : Calm (yynode ++ [.w .«endToken», .w .«=», .w .«tokenStream», .w .«->», .w .«index», .lp, .rp, .w .«-», .w .«2», .semi]) := by simp [Calm, neutral, yynode]
  have hl := calm_local (o.locals s)
  -- the state behind the head of the function
  by_cases hc : o.ast = true ∧ Check.isOpSym K.W s = true
  · refine iff_of_true ?_ fun _ => hc
    have e1 : Sc.scan .semi {} (.lb :: funHead o K s) = some (At [stackVar] [[]] [] []) := by
      rw [funHead, if_pos hc.1, if_pos hc.2]
      rfl
    obtain ⟨st, k', d', g, m⟩ := fullRules_ok fuel h1 (At [stackVar] [[]] [] []) ⟨fun v hv => by simp [At, Sc.visible] at hv; subst hv; simp, nofun, nofun, by simp [At]⟩ fun _ => ⟨hc.1, by simp [At, Sc.visible]⟩
    obtain ⟨new, top, rest, g1, g2, g3⟩ := m.scopes
    obtain ⟨q, hq, hq'⟩ := m.pending
    simp only [At, List.cons.injEq] at g1
    obtain ⟨rfl, rfl⟩ := g1
    have hp : st.pending = [] := by
      rw [hq]
      cases q with
      | nil => rfl
      | cons x q => exact absurd rfl (hq' x (.head _)).1
    have no : ∀ w : Word, w ≠ .«__node_» → w ≠ .«opStack» → (w, 0) ∉ new ++ [stackVar] := by
      intro w h1 h2 hm
      rcases List.mem_append.1 hm with hm | hm
      · have := g3 _ hm
        rw [if_neg h1] at this
        simp at this
      · rw [List.mem_singleton] at hm
        exact h2 (Prod.mk.inj hm).1
    have est : st = At (new ++ [stackVar]) [[]] st.pending st.labels := by rw [At, ← g2]
    have hsv : stackVar ∈ new ++ [stackVar] := by simp
    have e2 : ∀ x, Sc.scan x (At (new ++ [stackVar]) [[]] st.pending st.labels) (funTail o K s ++ [.kReturn, .w .«true», .semi, .rb]) = some (At [] [] st.pending st.labels) := by
      intro x
      rw [funTail, if_pos hc.1, if_pos hc.2]
      simp only [nm, lastN, endOf, popBack, List.cons_append, List.nil_append]
      refine (scan_calm (by rfl)).trans ((scan_calm (by rfl)).trans ((scan_decl (by rfl) (by simp) (no _ (by simp) (by simp))).trans ?_))
      refine (scan_calm (by rfl)).trans ((scan_calm (by rfl)).trans ((scan_decl (by rfl) (by simp) (by rw [List.mem_cons, not_or]; exact ⟨by simp, no _ (by simp) (by simp)⟩)).trans ?_))
      repeat (first
        | refine (scan_calm (by rfl)).trans ?_ | refine scan_lb.trans ?_ | refine scan_rb.trans ?_
        | refine (scan_use (by rfl) (by simp) (by simp [in_cons, stackVar])).trans ?_)
      rfl
    refine ⟨At [] [] st.pending st.labels, ?_, rfl, hp⟩
    simp only [List.append_assoc]
    exact scan_app e1 rfl (scan_calms hl (scan_app (g _) rfl (by rw [est]; exact e2 _)))
  · have e1 : ∀ ts', Sc.scan .semi {} ((.lb :: funHead o K s) ++ ts') = Sc.scan ((funHead o K s).getLastD .lb) (At [] [[]] [] []) ts' := by
      intro ts'
      show Sc.scan .lb (At [] [[]] [] []) (funHead o K s ++ ts') = _
      refine scan_calms ?_ rfl
      unfold funHead
      split
      · next ha =>
        rw [if_neg fun h => hc ⟨ha, h⟩]
        exact hi
      · exact .nil
    have e2 : Calm (funTail o K s ++ [.kReturn, .w .«true», .semi]) := by
      refine Calm.append ?_ (by simp [Calm, neutral])
      unfold funTail
      split
      · next ha =>
        rw [if_neg fun h => hc ⟨ha, h⟩]
        exact ht
      · exact .nil
    have B : Before (K.count s) (o.first s) (At [] [[]] [] []) := ⟨nofun, nofun, nofun, by simp [At]⟩
    by_cases hr : ∃ r ∈ rulesOf K.W s, OpRule K r
    · refine iff_of_false ?_ fun h => hc (h hr)
      rintro ⟨st, h2, -⟩
      simp only [List.append_assoc] at h2
      rw [← List.append_assoc] at h2
      have hnone := fullRules_none fuel h1 (At [] [[]] [] []) B (by simp [At, Sc.visible]) hr
      have : ∀ x ts', Sc.scan x (At [] [[]] [] []) (localToks (o.locals s) ++ (tb ++ ts')) = none := fun x ts' => scan_calms hl (scan_app_none (hnone _))
      simp only [List.append_assoc] at h2
      rw [e1, this] at h2
      cases h2
    · refine iff_of_true ?_ fun h => absurd h hr
      obtain ⟨st, k', d', g, m⟩ := fullRules_ok fuel h1 _ B fun h => absurd h hr
      obtain ⟨new, top, rest, g1, g2, g3⟩ := m.scopes
      obtain ⟨q, hq, hq'⟩ := m.pending
      simp only [At, List.cons.injEq] at g1
      obtain ⟨rfl, rfl⟩ := g1
      have hp : st.pending = [] := by
        rw [hq]
        cases q with
        | nil => rfl
        | cons x q => exact absurd rfl (hq' x (.head _)).1
      have est : st = At (new ++ []) [[]] st.pending st.labels := by rw [At, ← g2]
      refine ⟨At [] [] st.pending st.labels, ?_, rfl, hp⟩
      have e3 : ∀ x, Sc.scan x st (funTail o K s ++ [.kReturn, .w .«true», .semi] ++ [.rb]) = some (At [] [] st.pending st.labels) := fun x => by
        rw [est]
        exact scan_calms e2 rfl
      simp only [List.append_assoc] at e3 ⊢
      rw [e1]
      exact scan_calms hl (scan_app (g _) rfl (e3 _))

end

end Verif.GenText
