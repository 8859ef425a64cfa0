import Verif.GenText.Sim

/-! # All items, rules and functions -/

namespace Verif.GenText

open Verif.Grammar
open Verif.Gen (Env Ctx Stmt State Out Test exec step andThen lookup leave complain parseFun ofSet testOf altTest ruleTest isCond flatten gen genAlts genRule genRules rulesOf)
open Spec

section
variable {E : Env} {F : Nat → Option Tree} {X : Nat → CState → Bool → CState → Prop} {o : Opts} {P : Nat → Option Stmt} {K : Ctx} {N self : Nat}

/-! ### Errors -/

theorem run_guard {st : State} {σ : CState} (R : Rel o st σ) {e : Toks} (he : ∀ σ, Effect e σ { σ with errors := σ.errors + 1 }) :
    ∃ σ', Run E F X (.stmt none (errTree o e)) σ (.ret false) σ' ∧ Rel o (complain 0 st).2 σ' := by
  unfold errTree guardTrees
  by_cases hb : st.blocked = true
  · have hm : o.mgmt = true := by
      cases h : o.mgmt with
      | true => rfl
      | false => rw [R.mgmt h] at hb; cases hb
    rw [if_pos hm]
    have h1 : Run E F X (.cond .loud) σ (.val !σ.blocked) σ := .loud
    rw [R.blocked, hb] at h1
    refine ⟨σ, .seqGo rfl (.else h1 .skip) (run_one .ret), ?_⟩
    simp only [complain, hb]
    exact R
  · have hb' : st.blocked = false := by simpa using hb
    have e2 : (complain 0 st).2 = { st with errors := st.errors + 1 } := by simp [complain, hb']
    rw [e2]
    refine ⟨{ σ with errors := σ.errors + 1 }, ?_, { R with errors := congrArg (· + 1) R.errors }⟩
    split
    · have h1 : Run E F X (.cond .loud) σ (.val !σ.blocked) σ := .loud
      rw [R.blocked, hb'] at h1
      exact .seqGo rfl (.then h1 (run_one (.simple (he σ)))) (run_one .ret)
    · exact .seqGo rfl (.simple (he σ)) (run_one .ret)

theorem complain_pos {c : Nat} {st : State} (hc : c ≠ 0) : complain c st = (.goto c, st) := by simp [complain, leave, hc]

theorem complain_tok (n c : Nat) : Complain E F X o c (tokErr o n c) := by
  intro st σ R
  unfold tokErr
  split
  · next hc =>
    subst hc
    exact run_guard R fun σ => .token
  · next hc =>
    have : outOf (leave c) = .jump c := by simp [leave, hc, outOf]
    rw [this, complain_pos hc]
    exact ⟨σ, .goto, R⟩

theorem complain_call (s c : Nat) : Complain E F X o c (callErr o s c) := by
  intro st σ R
  unfold callErr
  split
  · next hc =>
    subst hc
    exact run_guard R fun σ => .symbol
  · next hc =>
    have : outOf (leave c) = .jump c := by simp [leave, hc, outOf]
    rw [this, complain_pos hc]
    exact ⟨σ, run_one .goto, R⟩

theorem leave_run (c : Nat) (σ : CState) : Run E F X (.stmt none (if c = 0 then body [.ret false] else body [.goto c])) σ (outOf (leave c)) σ := by
  unfold leave
  split
  · exact run_one .ret
  · exact run_one .goto

/-! ### Labels -/

theorem has_guard (o : Opts) (e : Toks) (i : Nat) : has i (errTree o e) = false := by
  unfold errTree guardTrees
  split <;> simp [has, body]

theorem has_tok (o : Opts) (n c i : Nat) : has i (tokErr o n c) = false := by
  unfold tokErr
  split
  · exact has_guard o _ i
  · rfl

theorem has_call (o : Opts) (s c i : Nat) : has i (callErr o s c) = false := by
  unfold callErr
  split
  · exact has_guard o _ i
  · rfl

theorem calls_labels (o : Opts) (s c d i : Nat) : (callTrees o s c d).any (has i) = false := by
  unfold callTrees
  split <;> simp [has, has_call]

/-- Labels between two counters. -/
def Labels (l : List Tree) (k k' : Nat) : Prop := ∀ i, l.any (has i) = true → k < i ∧ i ≤ k'

theorem Labels.none {l k k'} (h : ∀ i, l.any (has i) = false) : Labels l k k' := fun i hi => by rw [h i] at hi; cases hi

theorem Labels.append {l l' k k' k''} (h : Labels l k k') (h' : Labels l' k' k'') (hk : k ≤ k') (hk' : k' ≤ k'') : Labels (l ++ l') k k'' := by
  intro i hi
  rw [List.any_append, Bool.or_eq_true] at hi
  rcases hi with hi | hi
  · have := h i hi; omega
  · have := h' i hi; omega

theorem Labels.below {l k k' c} (h : Labels l k k') (hc : c ≤ k) : l.any (has c) = false := by
  cases e : l.any (has c) with
  | false => rfl
  | true => have := h c e; omega

theorem Labels.one {t k k'} (h : ∀ i, has i t = true → k < i ∧ i ≤ k') : Labels [t] k k' := fun i hi => h i (by simpa using hi)

theorem Labels.body {l k k'} (h : Labels l k k') {i} (hi : has i (GenText.body l) = true) : k < i ∧ i ≤ k' := h i (by rwa [has_body] at hi)

/-! ### Items -/

/-- A text and a statement of `Gen`. -/
structure Good (E : Env) (F : Nat → Option Tree) (X : Nat → CState → Bool → CState → Prop) (o : Opts) (P : Nat → Option Stmt) (K : Ctx) (N : Nat) (c k k' : Nat) (ts : Toks) (s : Stmt) (l : List Tree) : Prop where
  series : Series ts l
  le : k ≤ k'
  labels : Labels l k k'
  sim : Sim E F X o P K.eofTok N c s l

theorem Good.seq {c k k' k'' ts ts' s s' l l'} (h : Good E F X o P K N c k k' ts s l) (h' : Good E F X o P K N c k' k'' ts' s' l') (hc : c ≤ k) :
    Good E F X o P K N c k k'' (ts ++ ts') (.seq s s') (l ++ l') where
  series := h.series.append h'.series
  le := Nat.le_trans h.le h'.le
  labels := h.labels.append h'.labels h.le h'.le
  sim := h.sim.seq h'.sim fun _ => h'.labels.below (Nat.le_trans hc h.le)

theorem good_call (hcall : ∀ f, f < N → CallOk E F X o P K.eofTok f) (n s c d k : Nat) : Good E F X o P K N c k k (callToks o n s c d) (.call s c) (callTrees o s c d) where
  series := call_series o n s c d
  le := Nat.le_refl _
  labels := .none fun i => calls_labels o s c d i
  sim := by
    have := Sim.call (o := o) (s := s) hcall (complain_call s c)
    unfold callTrees
    split
    · exact this.before .result
    · exact this

theorem good_test (n c k : Nat) : Good E F X o P K N c k k (tokToks o n c) (.test n c) [.ite (.isNot n) (tokErr o n c) .skip] where
  series := (tok_one o n c).series
  le := Nat.le_refl _
  labels := .none fun i => by simp [has, has_tok]
  sim := Sim.test (complain_tok n c)

theorem good_lex (c k : Nat) : Good E F X o P K N c k k lexToks .lex [.simple [.w .yylex, .lp, .rp]] where
  series := lex_one.series
  le := Nat.le_refl _
  labels := .none fun i => rfl
  sim := Sim.lex

theorem good_code (n c k : Nat) : Good E F X o P K N c k k [.code n] (.code n) [.code n] where
  series := (One.code n).series
  le := Nat.le_refl _
  labels := .none fun i => rfl
  sim := Sim.code

theorem Good.behind {c k k' ts s l e} (h : Good E F X o P K N c k k' ts s l) (he : Silent e) : Good E F X o P K N c k k' (ts ++ (e ++ [.semi])) s (l ++ [.simple e]) where
  series := h.series.append (Series.silent he)
  le := h.le
  labels := h.labels.append (.none fun i => rfl : Labels _ k' k') h.le (Nat.le_refl _)
  sim := h.sim.behind he

theorem Good.silent {c k k' ts s l} (h : Good E F X o P K N c k k' ts s l) {es : List Toks} {ts' : Toks} (he : ∀ e ∈ es, Silent e) (hs : Series ts' (es.map .simple)) :
    Good E F X o P K N c k k' (ts' ++ ts) s (es.map .simple ++ l) where
  series := hs.append h.series
  le := h.le
  labels := (.append (.none fun i => by simp [List.any_map, Function.comp_def, has] : Labels _ k k) h.labels (Nat.le_refl _) h.le)
  sim := h.sim.silent he

theorem exec_unblock {f i st x} (h : exec P K.eofTok E f (.unblock i) st = some x) : x.1 = .ok := by
  cases f with
  | zero => cases h
  | succ f =>
    obtain ⟨b, -, rfl⟩ := Option.map_eq_some_iff.1 h
    rfl

theorem exec_skip {f st x} (h : exec P K.eofTok E f .skip st = some x) : x.1 = .ok := by
  cases f with
  | zero => cases h
  | succ f => cases h; rfl

theorem try_labels {i k' l la t lh} (hl : Labels l i k') (hla : ∀ j, la.any (has j) = false) (ht : ∀ j, has j t = false) {k''} (hlh : Labels lh k' k'') (h1 : i ≤ k') (h2 : k' ≤ k'') {k} (hk : k < i) :
    Labels (tryTrees i l la t lh) k k'' := by
  intro j hj
  simp only [tryTrees, List.any_cons, List.any_append, Bool.or_eq_true, hla, has, delTree, saveTok, saveState, List.any_nil, Bool.or_false, Bool.false_or, Bool.false_eq_true, false_or, or_false] at hj
  rcases hj with hj | hj
  · have := hl.body hj; omega
  · rw [has_body, List.any_cons, Bool.or_eq_true] at hj
    rcases hj with hj | hj
    · simp only [has, ht, Bool.or_false, decide_eq_true_eq] at hj; omega
    · have := hlh j hj; omega

theorem has_restore (i j : Nat) : has j (restoreTree i) = false := rfl

theorem good_recover {ts : Toks} {s : Stmt} {l : List Tree} {c k k' n : Nat} (h : Good E F X o P K N (k + 1) (k + 1) k' ts s l) :
    Good E F X o P K N c k k' (openToks (k + 1) ++ ts ++ [.rb] ++ deleteToks (k + 1) ++ catchToks (k + 1) ++ recoverToks o K n (k + 1) ++ [.rb])
      (.seq (.save (k + 1)) (.tryc (k + 1) s .skip (.seq (.restore (k + 1)) (.seq (.step (k + 1)) (.skipTo ((K.S.of n).filter (isTerm K.W)))))))
      (tryTrees (k + 1) l [] (restoreTree (k + 1)) [stepTree K.eofTok (k + 1), skipTree K.eofTok (sorted o K.W (K.S.of n))]) where
  series := by simpa only [List.append_nil] using try_series h.series Series.nil (recover_series o K n (k + 1))
  le := by have := h.le; omega
  labels := try_labels h.labels (fun _ => rfl) (has_restore _) (k'' := k') (.none fun j => rfl) h.le (Nat.le_refl _) (by omega)
  sim := Sim.tryc h.sim (fun c => Sim.skip) (Sim.restore.seq (Sim.step.seq (Sim.skipTo fun x => mem_sorted) fun _ => rfl) fun _ => rfl) (fun _ => rfl) fun f st x h => exec_skip h

theorem good_rollback (hm : o.mgmt = true) {ts th : Toks} {s h' : Stmt} {l lh : List Tree} {c k k' k'' : Nat} (hc : c ≤ k) (h : Good E F X o P K N (k + 1) (k + 1) k' ts s l) (hh : Good E F X o P K N c k' k'' th h' lh) :
    Good E F X o P K N c k k'' (blockToks (k + 1) ++ openToks (k + 1) ++ ts ++ [.rb] ++ unblockToks (k + 1) ++ deleteToks (k + 1) ++ catchToks (k + 1) ++ unblockToks (k + 1) ++ rewindToks (k + 1) ++ th ++ [.rb])
      (.seq (.block (k + 1)) (.seq (.save (k + 1)) (.tryc (k + 1) s (.unblock (k + 1)) (.seq (.restore (k + 1)) (.seq (.unblock (k + 1)) (.seq (.rewind (k + 1)) h'))))))
      (blockTree (k + 1) :: tryTrees (k + 1) l [unblockTree (k + 1)] (restoreTree (k + 1)) (unblockTree (k + 1) :: rewindTree (k + 1) :: lh)) := by
  have hbel : lh.any (has c) = false := hh.labels.below (by have := h.le; omega)
  have hlab := try_labels h.labels (la := [unblockTree (k + 1)]) (fun _ => rfl) (has_restore (k + 1)) (lh := unblockTree (k + 1) :: rewindTree (k + 1) :: lh) (k'' := k'')
    (fun i hi => hh.labels i (by simpa [unblockTree, rewindTree, has] using hi)) h.le hh.le (k := k) (by omega)
  refine ⟨?_, by have := h.le; have := hh.le; omega, fun i hi => hlab i (by simpa [blockTree, has] using hi), ?_⟩
  · have := (block_series (k + 1)).append (try_series (i := k + 1) h.series (unblock_series (k + 1)) ((unblock_series (k + 1)).append ((rewind_series (k + 1)).append hh.series)))
    simpa only [List.append_assoc, List.cons_append, List.nil_append] using this
  · refine Sim.seq (l := [blockTree (k + 1)]) (Sim.block hm) (Sim.tryc h.sim (fun c => Sim.unblock hm) (Sim.seq (l := [restoreTree (k + 1)]) Sim.restore
      (Sim.seq (l := [unblockTree (k + 1)]) (Sim.unblock hm) (Sim.seq (l := [rewindTree (k + 1)]) Sim.rewind hh.sim fun _ => hbel) fun _ => hbel) fun _ => hbel) (fun _ => rfl) fun f st x h => exec_unblock h) fun _ => ?_
    exact hlab.below hc

/-- Conditions on the sets. -/
structure Fits (o : Opts) (K : Ctx) : Prop where
  first : ∀ n, Terms K.W (K.F.of n)
  follow : ∀ n, Terms K.W (K.S.of n)
  /-- `needStateManagement` is set if there is a try block -/
  mgmt : ∀ n l r, K.W.node n = some (.tryc l r) → o.mgmt = true

theorem good_eof (c k : Nat) : Good E F X o P K N c k k [.kIf, .lp, .sym .«Token_» K.eofTok, .w .«!=», .w .«yytoken», .rp, .lb, .kReturn, .w .«false», .semi, .rb] .eof [.ite (.isNot K.eofTok) (body [.ret false]) .skip] where
  series := by
    have := One.ifOnly (c := [.sym .«Token_» K.eofTok, .w .«!=», .w .«yytoken»]) (fun r => prim_disj .isNot' closed_rp) (One.block One.ret.series)
    simpa only [List.append_assoc, List.cons_append, List.nil_append] using this.series
  le := Nat.le_refl _
  labels := .none fun i => rfl
  sim := Sim.eof

theorem text_good (hF : Fits o K) (hcall : ∀ f, f < N → CallOk E F X o P K.eofTok f) : ∀ g : Nat,
    (∀ {n c k d ts k' d'}, c ≤ k → text o K g n c k d = some (ts, k', d') → ∃ s l, gen K self g n c k = some (s, k') ∧ Good E F X o P K N c k k' ts s l) ∧
    (∀ {ns c k d ts k' d'}, c ≤ k → textAlts o K g ns c k d = some (ts, k', d') → ∃ s t, genAlts K self g ns c k = some (s, k') ∧ One ts t ∧ Good E F X o P K N c k k' ts s [t]) ∧
    (∀ {r i s c k d ts k' d'}, c ≤ k → textRule o K g r i s c k d = some (ts, k', d') → ∃ a e tc tb b l, genRule K self g r i s c k = some (a, b, k') ∧ ts = [.kIf, .lp] ++ tc ++ [.rp, .lb] ++ tb ++ [.rb] ∧
      (∀ q, Closed q → Reads .disj (tc ++ q) e q) ∧ CondOk E F X a e ∧ Good E F X o P K N c k k' tb b l)
  | 0 => ⟨fun _ h => by simp [text] at h, fun _ h => by simp [textAlts] at h, fun _ h => by simp [textRule] at h⟩
  | g + 1 => by
    obtain ⟨ih1, ih2, ih3⟩ := text_good hF hcall g
    refine ⟨?_, ?_, ?_⟩
    · intro n c k d ts k' d' hc h
      rw [text] at h
      rw [gen]
      split at h
      · cases h
      · next e =>
        rw [e]
        cases h
        exact ⟨.skip, [], rfl, .nil, Nat.le_refl _, .none fun _ => rfl, Sim.skip⟩
      · next e =>
        rw [e]
        cases h
        exact ⟨.skip, [], rfl, .nil, Nat.le_refl _, .none fun _ => rfl, Sim.skip⟩
      · next s e =>
        rw [e]
        cases h
        exact ⟨_, _, rfl, good_call hcall n s c d k⟩
      · next e =>
        rw [e]
        cases h
        exact ⟨_, _, rfl, (good_test n c k).seq (good_lex c k) hc⟩
      · next i e =>
        rw [e]
        obtain ⟨⟨tb, kb, db⟩, h1, h2⟩ := Option.map_eq_some_iff.1 h
        cases h2
        obtain ⟨s, l, h3, G⟩ := ih1 hc h1
        refine ⟨.doWhile s (testOf K n), [.doWhile (body l) (testTree o K n)], by simp [h3], ?_, G.le, .one fun j hj => G.labels.body hj, Sim.doWhile (cond_test (hF.first n)) G.sim⟩
        have := One.doWhile (fun r => read_test (o := o) (hF.first n) (r := .rp :: r) closed_rp) (One.block G.series)
        simpa only [List.append_assoc, List.cons_append, List.nil_append] using this.series
      · next i e =>
        rw [e]
        obtain ⟨⟨tb, kb, db⟩, h1, h2⟩ := Option.map_eq_some_iff.1 h
        cases h2
        obtain ⟨s, l, h3, G⟩ := ih1 hc h1
        refine ⟨.while (testOf K n) s, [.while (testTree o K n) (body l)], by simp [h3], ?_, G.le, .one fun j hj => G.labels.body hj, Sim.while (cond_test (hF.first n)) G.sim⟩
        have := One.while (fun r => read_test (o := o) (hF.first n) (r := .rp :: r) closed_rp) (One.block G.series)
        simpa only [List.append_assoc, List.cons_append, List.nil_append] using this.series
      · next e =>
        rw [e]
        cases h
        exact ⟨_, _, rfl, good_code n c k⟩
      · next i e =>
        rw [e]
        obtain ⟨⟨tb, kb, db⟩, h1, h2⟩ := Option.map_eq_some_iff.1 h
        cases h2
        obtain ⟨s, l, h3, G⟩ := ih1 hc h1
        exact ⟨_, _, by simp only [h3, Option.map_some], G.seq (good_code n c _) hc⟩
      · next i e => rw [e]; exact ih1 hc h
      · next i e =>
        rw [e]
        split at h
        · next ha =>
          obtain ⟨⟨tb, kb, db⟩, h1, h2⟩ := Option.bind_eq_some_iff.1 h
          obtain ⟨s, l, h3, G⟩ := ih1 hc h1
          cases g with
          | zero => simp [text] at h1
          | succ g =>
            split at h2
            · next e' =>
              rw [gen, e'] at h3
              rw [text, e'] at h1
              cases h1
              cases h2
              cases h3
              have hg : gen K self (g + 1) i c k = some (.seq (.test i c) .lex, k) := by rw [gen, e']
              exact ⟨.seq (.test i c) .lex, _, hg, ((good_test i c k).behind (assign_silent (Or.inl rfl))).seq (good_lex c k) hc⟩
            · next s' e' =>
              rw [text, e'] at h1
              cases h1
              cases h2
              exact ⟨.call s' c, _, by show gen K self (g + 1) i c k = _; rw [gen, e'], (good_call hcall i s' c d k).behind (assign_silent (Or.inr ⟨d, rfl⟩))⟩
            · cases h2
        · exact ih1 hc h
      · next l r e =>
        rw [e]
        obtain ⟨a, h1, h2⟩ := Option.bind_eq_some_iff.1 h
        obtain ⟨b, h3, h4⟩ := Option.bind_eq_some_iff.1 h2
        obtain ⟨s, t, h5, -, G⟩ := ih2 hc h4
        exact ⟨s, [t], by simp only [h1, h3, Option.bind_some, h5], G⟩
      · next l r e =>
        rw [e]
        obtain ⟨⟨ta, ka, da⟩, h1, h2⟩ := Option.bind_eq_some_iff.1 h
        obtain ⟨⟨tb, kb, db⟩, h3, h4⟩ := Option.map_eq_some_iff.1 h2
        cases h4
        obtain ⟨s, la, h5, G⟩ := ih1 hc h1
        obtain ⟨s', lb, h6, G'⟩ := ih1 (Nat.le_trans hc G.le) h3
        exact ⟨_, _, by simp only [h5, Option.bind_some, h6, Option.map_some], G.seq G' hc⟩
      · next i s e =>
        rw [e]
        obtain ⟨a, ec, tc, tb, b, l, h1, rfl, h3, h4, G⟩ := ih3 hc h
        refine ⟨.ite a b .skip, [.ite ec (body l) .skip], by simp only [h1, Option.map_some], ?_, G.le, .one fun j hj => G.labels.body (by simpa [has] using hj), Sim.ite h4 G.sim Sim.one_skip⟩
        have := One.ifOnly (c := tc) (fun r => h3 (.rp :: r) closed_rp) (One.block G.series)
        simpa only [List.append_assoc, List.cons_append, List.nil_append] using this.series
      · next l e =>
        rw [e]
        obtain ⟨⟨tb, kb, db⟩, h1, h2⟩ := Option.map_eq_some_iff.1 h
        cases h2
        obtain ⟨s, la, h5, G⟩ := ih1 (Nat.le_refl _) h1
        exact ⟨_, _, by simp only [h5, Option.map_some], good_recover G⟩
      · next l r e =>
        rw [e]
        obtain ⟨⟨tb, kb, db⟩, h1, h2⟩ := Option.bind_eq_some_iff.1 h
        obtain ⟨⟨th, kh, dh⟩, h3, h4⟩ := Option.map_eq_some_iff.1 h2
        cases h4
        obtain ⟨s, la, h5, G⟩ := ih1 (Nat.le_refl _) h1
        obtain ⟨s', lb, h6, G'⟩ := ih1 (c := c) (show c ≤ kb by have := G.le; omega) h3
        exact ⟨_, _, by simp only [h5, Option.bind_some, h6, Option.map_some], good_rollback (hF.mgmt _ _ _ e) hc G G'⟩
      · cases h
      · next e =>
        rw [e]
        cases h
        exact ⟨.skip, [], rfl, .nil, Nat.le_refl _, .none fun _ => rfl, Sim.skip⟩
      · next s e =>
        rw [e]
        split at h
        · next e2 =>
          cases h
          simp only [e2]
          exact ⟨.skip, [], rfl, .nil, Nat.le_refl _, .none fun _ => rfl, Sim.skip⟩
        · next e2 =>
          simp only [e2]
          exact ih1 hc h
    · intro ns c k d ts k' d' hc h
      cases ns with
      | nil =>
        rw [textAlts] at h
        cases h
        refine ⟨.fail c, _, by rw [genAlts], leave_one c, (leave_one c).series, Nat.le_refl _, .none fun i => ?_, Sim.fail (leave_run c)⟩
        split <;> rfl
      | cons n ns =>
        rw [textAlts] at h
        obtain ⟨⟨ta, ka, da⟩, h1, h2⟩ := Option.bind_eq_some_iff.1 h
        obtain ⟨⟨tb, kb, db⟩, h3, h4⟩ := Option.map_eq_some_iff.1 h2
        cases h4
        obtain ⟨s, la, h5, G⟩ := ih1 hc h1
        obtain ⟨s', t, h6, h7, G'⟩ := ih2 (Nat.le_trans hc G.le) h3
        have hone := One.ifElse (fun r => read_alt (o := o) (hF.first n) (r := .rp :: r) closed_rp) G.series h7
        refine ⟨.ite (altTest K n) s s', _, by rw [genAlts]; simp only [h5, Option.bind_some, h6, Option.map_some], hone, hone.series, Nat.le_trans G.le G'.le, .one fun j hj => ?_, Sim.ite (cond_alt (hF.first n)) G.sim G'.sim⟩
        have g1 := G.le
        have g2 := G'.le
        simp only [has, Bool.or_eq_true] at hj
        rcases hj with hj | hj
        · have := G.labels.body hj; omega
        · have := G'.labels j (by simpa using hj); omega
    · intro r i s c k d ts k' d' hc h
      rw [textRule] at h
      obtain ⟨t, h1, h2⟩ := Option.bind_eq_some_iff.1 h
      obtain ⟨⟨tb, kb, db⟩, h3, h4⟩ := Option.map_eq_some_iff.1 h2
      cases h4
      obtain ⟨a, e, h5, h6, h7⟩ := cond_rule (E := E) (F := F) (X := X) hF.first hF.follow h1
      obtain ⟨sb, l, h8, G⟩ := ih1 hc h3
      obtain ⟨es, h9, h10⟩ := local_series (o.locals r)
      have G2 : ∃ s' l', Good E F X o P K N c k k' (tb ++ if s ∈ K.W.start then [.kIf, .lp, .sym .«Token_» K.eofTok, .w .«!=», .w .«yytoken», .rp, .lb, .kReturn, .w .«false», .semi, .rb] else []) s' l' ∧
          s' = if s ∈ K.W.start then .seq sb .eof else sb := by
        split
        · exact ⟨_, _, G.seq (good_eof c _) hc, rfl⟩
        · exact ⟨_, _, by rw [List.append_nil]; exact G, rfl⟩
      obtain ⟨s', l', G2, rfl⟩ := G2
      refine ⟨a, e, t, _, _, _, by rw [genRule]; simp only [h5, h8, Option.bind_some, Option.map_some], ?_, h6, h7, ((good_code r c k).seq G2 hc).silent h9 h10⟩
      simp only [List.append_assoc, List.cons_append, List.nil_append]

end

end Verif.GenText
