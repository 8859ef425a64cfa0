import Verif.GenText.Scope

/-! # Names in the text of parse functions: induction over the items -/

namespace Verif.GenText

open Verif.Grammar
open Verif.Gen (Ctx isCond flatten rulesOf)
open Spec

section
variable {o : Opts} {K : Ctx}

/-- All tokens are neutral. -/
def Calm (ts : Toks) : Prop := ∀ t ∈ ts, neutral t = true

theorem Calm.append {a b : Toks} (ha : Calm a) (hb : Calm b) : Calm (a ++ b) := fun t ht => (List.mem_append.1 ht).elim (ha t) (hb t)

theorem Calm.cons {t : Tok} {a : Toks} (ht : neutral t = true) (ha : Calm a) : Calm (t :: a) := fun x hx => by
  rcases List.mem_cons.1 hx with rfl | hx
  · exact ht
  · exact ha x hx

theorem Calm.nil : Calm [] := nofun

theorem calm_is : ∀ ns : List Nat, Calm (isToks ns)
  | [] => .nil
  | [n] => by simp [isToks, Calm, neutral]
  | n :: m :: ns => .cons rfl (.cons rfl (.cons rfl (.cons rfl (calm_is (m :: ns)))))

theorem calm_set (W : World) (s : List Nat) : Calm (setToks o W s) := by
  unfold setToks
  split
  · simp [Calm, neutral]
  · exact calm_is _

theorem calm_test (n : Nat) : Calm (testToks o K n) := by
  unfold testToks
  split
  · exact calm_is _
  · exact calm_set _ _

theorem calm_alt (n : Nat) : Calm (altToks o K n) := by
  unfold altToks
  split
  · exact .cons rfl ((calm_test n).append (by simp [Calm, neutral]))
  · exact calm_test n

theorem calm_rule {r i s : Nat} {t : Toks} (h : ruleToks o K r i s = some t) : Calm t := by
  obtain ⟨e, -, rfl⟩ := Option.map_eq_some_iff.1 h
  have h1 : Calm (testToks o K r ++ if e = true then .w .«||» :: setToks o K.W (K.S.of s) else []) := (calm_test r).append (by
    split
    · exact .cons rfl (calm_set _ _)
    · exact .nil)
  show Calm (if _ then _ else _)
  split
  · exact .cons rfl (h1.append (by simp [Calm, neutral]))
  · exact h1

theorem calm_local : ∀ l : List (Nat × Bool), Calm (localToks l)
  | [] => .nil
  | p :: l => by
    have ih := calm_local l
    unfold localToks at *
    rw [List.flatMap_cons]
    refine Calm.append ?_ ih
    split <;> simp [Calm, neutral]

theorem calm_lex : Calm lexToks := by simp [Calm, lexToks, neutral]

theorem Fine.cast {c k d k' d' a b} (h : Fine c k d k' d' a) (e : a = b) : Fine c k d k' d' b := e ▸ h

theorem Fine.calm {c k d ts} (h : Calm ts) : Fine c k d k d ts := .neutral h

/-- A block with calm tokens around it. -/
theorem Fine.around {c k d k' d' a ts b} (hc : c ≤ k) (ha : Calm a) (h : Fine c k d k' d' ts) (hb : Calm b) (_hk : c ≤ k') : Fine c k d k' d' (a ++ .lb :: (ts ++ .rb :: b)) :=
  ((Fine.calm ha).append hc (h.block.append hc (Fine.calm (c := c) (k := k') (d := d') hb))).cast (by simp)

theorem fine_guarded {e : Toks} (he : Calm e) (c k d : Nat) (hc : c ≤ k) : Fine c k d k d (guarded o e) := by
  unfold guarded
  split
  · exact (Fine.around (a := [.kIf, .lp, .w .«!», .w .«mBlockErrors», .rp]) hc (by simp [Calm, neutral]) (.calm (he.append (b := [.semi]) (by simp [Calm, neutral]))) .nil hc).cast (by simp)
  · exact .calm (he.append (by simp [Calm, neutral]))

theorem fine_report {e : Toks} (he : Calm e) (c k d : Nat) (hc : c ≤ k) : Fine c k d k d (.lb :: (guarded o e ++ [.kReturn, .w .«false», .semi, .rb])) := by
  have h : Fine c k d k d [.kReturn, .w .«false», .semi] := .calm (by simp [Calm, neutral])
  exact ((fine_guarded (o := o) he c k d hc).append hc h).block.cast (by simp)

theorem fine_tok (n c k d : Nat) (hc : c ≤ k) : Fine c k d k d (tokToks o n c) := by
  unfold tokToks
  refine (Fine.calm (by simp [Calm, neutral])).append hc ?_
  split
  · exact fine_report (by simp [Calm, neutral]) c k d hc
  · next h => exact fine_goto h

/-- The block behind a call. -/
theorem fine_callErr (s c k d : Nat) (hc : c ≤ k) : Fine c k d k d (if c = 0 then
    .lb :: (guarded o [.w .«expectedSymbol», .lp, .w .«AstNode», .w .«::», .sym .«Kind» s, .w .«,», .w .«QStringLiteral», .lp, .lit s, .rp, .rp] ++ [.kReturn, .w .«false», .semi, .rb])
  else [.lb, .kGoto, .num .«__catch_» c, .semi, .rb]) := by
  split
  · exact fine_report (by simp [Calm, neutral]) c k d hc
  · next h => exact (fine_goto h).block

theorem not_node {k d st} (B : Before k d st) : (Word.«__node_», d) ∉ st.visible := fun h => by
  have := B.vars _ h
  simp at this

theorem mem_top {st : Sc} {top rest v} (e : st.scopes = top :: rest) (h : v ∈ top) : v ∈ st.visible := by
  rw [Sc.visible, e, List.flatten_cons]
  exact List.mem_append_left _ h

theorem declare_ok {st : Sc} {v : Var} (h : v ∉ st.visible) {top rest} (e : st.scopes = top :: rest) : st.declare v = some { st with scopes := (v :: top) :: rest } := by
  rw [Sc.declare, e]
  simp only
  rw [if_neg fun hv => h (mem_top e hv)]

/-- A call; behind it the variable of the call is in force. -/
theorem goes_call (n s c k d : Nat) (hc : c ≤ k) (st : Sc) (B : Before k d st) :
    ∃ st', Goes st (callToks o n s c d) st' ∧ Moves c k d k (nextVar o d) st st' ∧ (o.ast = true → (Word.«__node_», d) ∈ st'.visible) := by
  unfold callToks nextVar
  by_cases ha : o.ast = true
  · rw [if_pos ha, if_pos ha]
    obtain ⟨top, rest, e⟩ := List.exists_cons_of_ne_nil B.open'
    let st1 : Sc := { st with scopes := ((Word.«__node_», d) :: top) :: rest }
    have hv : (Word.«__node_», d) ∈ st1.visible := mem_top (top := (Word.«__node_», d) :: top) rfl (.head _)
    have m1 : Moves c k d k (d + 1) st st1 := ⟨⟨[(Word.«__node_», d)], top, rest, e, rfl, by simp⟩, ⟨[], rfl, nofun⟩, ⟨[], rfl, nofun⟩, Nat.le_refl _, Nat.le_succ _⟩
    obtain ⟨st2, g2, m2⟩ := fine_callErr (o := o) s c k (d + 1) hc st1 (m1.before B hc)
    have g1 : Goes st ([.sym .«Ast» s, .w .«*», .num .«__node_» d, .w .«=», .w .«nullptr», .semi, .kIf, .lp, .w .«!», .sym .«parse» s, .lp, .w .«&», .num .«__node_» d] ++ (if o.args n then [.w .«,», .args n] else []) ++ [.rp, .rp]) st1 := by
      intro p
      have hd := declare_ok (not_node B) e
      have : Sc.scan p st [.sym .«Ast» s, .w .«*», .num .«__node_» d, .w .«=», .w .«nullptr», .semi, .kIf, .lp, .w .«!», .sym .«parse» s, .lp, .w .«&», .num .«__node_» d] = some st1 := by
        simp [Sc.scan, Sc.step, declares, hd, show (Word.«__node_», d) ∈ Sc.visible { st with scopes := ((Word.«__node_», d) :: top) :: rest } from hv, st1]
      rw [List.append_assoc, scan_append, this]
      exact goes_neutral (by split <;> simp [neutral]) _
    exact ⟨st2, g1.append g2, m1.trans m2, fun _ => m2.visible hv⟩
  · rw [if_neg ha, if_neg ha]
    obtain ⟨st2, g2, m2⟩ := fine_callErr (o := o) s c k d hc st B
    refine ⟨st2, (goes_neutral (st := st) ?_).append g2, m2, fun h => absurd h ha⟩
    split <;> simp [neutral]

theorem goes_assign (n d : Nat) {st : Sc} (hv : (Word.«__node_», d) ∈ st.visible) : Goes st (assignToks o n [.num .«__node_» d]) st := by
  intro p
  unfold assignToks
  cases o.member n <;> cases o.seq n <;> simp [Sc.scan, Sc.step, declares, yynode, hv]

theorem calm_assign (n : Nat) : Calm (assignToks o n here) := by
  unfold assignToks
  cases o.member n <;> cases o.seq n <;> simp [Calm, neutral, yynode, here]

theorem goes_delete (i : Nat) {st : Sc} (hv : (Word.«try_startState_», i) ∈ st.visible) : Goes st (deleteToks i) st := by
  intro p
  simp [deleteToks, Sc.scan, Sc.step, declares, hv]

theorem goes_unblock (i : Nat) {st : Sc} (hv : (Word.«blockErrors_», i) ∈ st.visible) : Goes st (unblockToks i) st := by
  intro p
  simp [unblockToks, Sc.scan, Sc.step, declares, hv]

theorem goes_rewind (i : Nat) {st : Sc} (hv : (Word.«try_startToken_», i) ∈ st.visible) : Goes st (rewindToks i) st := by
  intro p
  simp [rewindToks, Sc.scan, Sc.step, declares, hv]

theorem visible_push (st : Sc) : Sc.visible { st with scopes := [] :: st.scopes } = st.visible := rfl

theorem goes_restore (i : Nat) {st : Sc} (hv : (Word.«try_startState_», i) ∈ st.visible) (ho : st.scopes ≠ []) :
    Goes st [.kIf, .lp, .num .«try_startState_» i, .rp, .lb, .w .«restoreState», .lp, .num .«try_startState_» i, .rp, .semi, .w .«delete», .num .«try_startState_» i, .semi, .rb] st := by
  intro p
  obtain ⟨a, l, e⟩ := List.exists_cons_of_ne_nil ho
  have hv' : (Word.«try_startState_», i) ∈ Sc.visible { st with scopes := [] :: st.scopes } := hv
  simp [Sc.scan, Sc.step, declares, hv, e]
  rw [e] at hv'
  simp [hv']
  rw [← e]

/-- The recovery. -/
theorem fine_recover {n i c k d : Nat} (hc : c ≤ k) {st : Sc} (B : Before k d st) (hv : (Word.«try_startToken_», i) ∈ st.visible) : ∃ st', Goes st (recoverToks o K n i) st' ∧ Moves c k d k d st st' := by
  have h1 : Goes st [.kIf, .lp, .num .«try_startToken_» i, .w .«==»] st := fun p => by simp [Sc.scan, Sc.step, declares, hv]
  have h2 : Calm (here ++ [.w .«&&», .w .«yytoken», .w .«!=», .sym .«Token_» K.eofTok, .rp] ++ lexToks ++ [.kWhile, .lp, .w .«yytoken», .w .«!=», .sym .«Token_» K.eofTok] ++
      (((K.S.of n).filter (isTerm K.W)).mergeSort o.le).flatMap (fun t => [.w .«&&», .w .«yytoken», .w .«!=», .sym .«Token_» t]) ++ [.rp]) := by
    refine Calm.append (Calm.append (by simp [Calm, neutral, here, lexToks]) ?_) (by simp [Calm, neutral])
    intro t ht
    obtain ⟨x, -, hx⟩ := List.mem_flatMap.1 ht
    simp only [List.mem_cons, List.not_mem_nil, or_false] at hx
    rcases hx with rfl | rfl | rfl | rfl <;> rfl
  obtain ⟨st', g, m⟩ := Fine.around (c := c) (k := k) (d := d) hc h2 (.calm calm_lex) .nil hc st B
  refine ⟨st', ?_, m⟩
  have := h1.append g
  unfold recoverToks
  simpa only [List.append_assoc, List.cons_append, List.nil_append] using this

/-- A `try` block: `new` are its variables, `ta` declares them, `tu` uses them, `th` is the handler. -/
theorem fine_try {c k d kb db kh dh : Nat} {ta body tu th : Toks} {new : List Var} (hc : c ≤ k) (hnew : ∀ v ∈ new, v.1 ≠ .«__node_» ∧ v.2 = k + 1) (hs : (Word.«try_startState_», k + 1) ∈ new)
    (ha : ∀ st, Before k d st → ∀ top rest, st.scopes = top :: rest → Goes st ta { st with scopes := (new ++ top) :: rest })
    (hbody : Fine (k + 1) (k + 1) d kb db body) (hu : ∀ st : Sc, (∀ v ∈ new, v ∈ st.visible) → Goes st tu st)
    (hh : ∀ st : Sc, Before kb db st → (∀ v ∈ new, v ∈ st.visible) → ∃ st', Goes st th st' ∧ Moves c kb db kh dh st st') :
    Fine c k d kh dh (ta ++ .lb :: (body ++ [.rb]) ++ tu ++ catchToks (k + 1) ++ th ++ [.rb]) := by
  intro st B
  obtain ⟨top, rest, e⟩ := List.exists_cons_of_ne_nil B.open'
  let st1 : Sc := { st with scopes := (new ++ top) :: rest }
  have m1 : Moves c k d (k + 1) d st st1 := ⟨⟨new, top, rest, e, rfl, fun v hv => by rw [if_neg (hnew v hv).1, (hnew v hv).2]; omega⟩, ⟨[], rfl, nofun⟩, ⟨[], rfl, nofun⟩, Nat.le_succ _, Nat.le_refl _⟩
  have hv1 : ∀ v ∈ new, v ∈ st1.visible := fun v hv => mem_top (top := new ++ top) rfl (List.mem_append_left _ hv)
  -- the body and its block
  obtain ⟨stb, gb, mb⟩ := hbody _ (before_push (m1.before B hc))
  obtain ⟨nb, tb, rb, h1, h2, -⟩ := mb.scopes
  simp only [List.cons.injEq] at h1
  obtain ⟨rfl, rfl⟩ := h1
  obtain ⟨l, hl1, hl2⟩ := mb.labels
  obtain ⟨q, hq1, hq2⟩ := mb.pending
  have le1 := mb.le
  have le2 := mb.le'
  let st2 : Sc := { stb with scopes := st1.scopes }
  have g2 : Goes st1 (.lb :: (body ++ [.rb])) st2 := by
    have : Goes stb [.rb] st2 := fun p => by
      simp only [Sc.scan, Sc.step]
      rw [h2]
      rfl
    intro p
    rw [Sc.scan]
    exact (gb.append this) _
  have hv2 : ∀ v ∈ new, v ∈ st2.visible := hv1
  -- the label
  let st3 : Sc := { scopes := [] :: st1.scopes, labels := (k + 1) :: stb.labels, pending := st.pending }
  have hfil : stb.pending.filter (·.1 ≠ k + 1) = st.pending := by
    rw [hq1, List.filter_append, List.filter_eq_nil_iff.2 fun x hx => by simp [(hq2 x hx).2.1], List.nil_append, List.filter_eq_self]
    intro x hx
    have := B.pending x hx
    simp only [ne_eq, decide_eq_true_eq]
    omega
  have hlab : Sc.label { stb with scopes := [] :: st1.scopes } (k + 1) = some st3 := by
    unfold Sc.label
    rw [if_neg, if_pos]
    · simp only [Option.some.injEq, st3, Sc.mk.injEq, true_and]
      exact ⟨hfil, trivial⟩
    · rw [List.all_eq_true]
      intro x hx
      simp only [hq1] at hx
      rcases List.mem_append.1 hx with hx | hx
      · rw [Bool.or_eq_true]
        refine .inr (List.all_eq_true.2 fun v hv => ?_)
        rw [List.contains_iff_mem]
        exact (hq2 x hx).2.2 v hv
      · have := B.pending x hx
        simp only [Bool.or_eq_true, decide_eq_true_eq]
        exact .inl (by omega)
    · simp only [hl1]
      intro hm
      rcases List.mem_append.1 hm with hm | hm
      · have := (hl2 _ hm).1; omega
      · have := B.labels _ hm; omega
  have B3 : Before kb db st3 := by
    have B1 := m1.before B hc
    refine ⟨fun v hv => ?_, fun i hi => ?_, fun p hp => ?_, by simp [st3]⟩
    · have := B1.vars v hv
      split at this
      · next e => rw [if_pos e]; omega
      · next e => rw [if_neg e]; omega
    · simp only [st3, List.mem_cons, hl1] at hi
      rcases hi with rfl | hi
      · exact le1
      · rcases List.mem_append.1 hi with hi | hi
        · exact (hl2 _ hi).2
        · have := B.labels _ hi; omega
    · have := B.pending p hp; omega
  have hv3 : ∀ v ∈ new, v ∈ st3.visible := hv1
  have g3 : Goes st2 (catchToks (k + 1)) st3 := by
    intro p
    have r := goes_restore (k + 1) (hv3 _ hs) B3.open'
    show Sc.scan p st2 (([.kIf, .lp, .w .«false», .rp, .lb, .num .«__catch_» (k + 1), .colon]) ++ _) = some st3
    have : Goes st2 [.kIf, .lp, .w .«false», .rp, .lb, .num .«__catch_» (k + 1), .colon] st3 := by
      intro p
      simp only [Sc.scan, Sc.step, Option.bind_some, reduceCtorEq, if_false]
      rw [show ({ st2 with scopes := [] :: st2.scopes } : Sc) = { stb with scopes := [] :: st1.scopes } from rfl, hlab]
      rfl
    exact (this.append r) p
  obtain ⟨st4, g4, m4⟩ := hh st3 B3 hv3
  obtain ⟨n4, t4, r4, h41, h42, -⟩ := m4.scopes
  simp only [st3, List.cons.injEq] at h41
  obtain ⟨rfl, rfl⟩ := h41
  obtain ⟨l4, hl41, hl42⟩ := m4.labels
  obtain ⟨q4, hq41, hq42⟩ := m4.pending
  have le3 := m4.le
  have le4 := m4.le'
  refine ⟨{ st4 with scopes := st1.scopes }, ((((ha st B top rest e).append g2).append (hu st2 hv2)).append g3).append g4 |>.append ?_, ?_⟩
  · intro p
    simp only [Sc.scan, Sc.step]
    rw [h42]
    rfl
  · refine ⟨⟨new, top, rest, e, rfl, fun v hv => by rw [if_neg (hnew v hv).1, (hnew v hv).2]; omega⟩, ⟨l4 ++ (k + 1) :: l, ?_, fun i hi => ?_⟩, ⟨q4, hq41, fun x hx => ⟨(hq42 x hx).1, (hq42 x hx).2.1, fun v hv => (hq42 x hx).2.2 v (m1.visible hv)⟩⟩, by omega, by omega⟩
    · simp [hl41, st3, hl1, st1]
    · rcases List.mem_append.1 hi with hi | hi
      · have := hl42 i hi; omega
      · rcases List.mem_cons.1 hi with rfl | hi
        · omega
        · have := hl2 i hi; omega

theorem Fine.le {c k d k' d' ts} (h : Fine c k d k' d' ts) : k ≤ k' := by
  obtain ⟨st', -, m⟩ := h {} ⟨nofun, nofun, nofun, by simp⟩
  exact m.le

theorem not_try {k d st} (B : Before k d st) {v : Word} (hv : v ≠ .«__node_») : (v, k + 1) ∉ st.visible := fun h => by
  have := B.vars _ h
  rw [if_neg hv] at this
  simp at this
  omega

theorem goes_open {i : Nat} {st : Sc} {top rest} (e : st.scopes = top :: rest) (h1 : (Word.«try_startToken_», i) ∉ st.visible) (h2 : (Word.«try_startState_», i) ∉ st.visible) :
    Goes st (.w .«qint64» :: .num .«try_startToken_» i :: .w .«=» :: (here ++ [.semi, .w .«ParserState», .w .«*», .num .«try_startState_» i, .w .«=», .w .«copyCurrentState», .lp, .rp, .semi]))
      { st with scopes := ((.«try_startState_», i) :: (.«try_startToken_», i) :: top) :: rest } := by
  intro p
  have d1 := declare_ok h1 e
  have d2 := declare_ok (st := { st with scopes := ((.«try_startToken_», i) :: top) :: rest }) (v := (.«try_startState_», i)) (by
    intro h
    rw [Sc.visible, List.flatten_cons, List.cons_append, List.mem_cons] at h
    rcases h with h | h
    · cases h
    · exact h2 (by rw [Sc.visible, e, List.flatten_cons]; exact h)) rfl
  simp [Sc.scan, Sc.step, declares, here, d1, d2]

theorem goes_block {i : Nat} {st : Sc} {top rest} (e : st.scopes = top :: rest) (h1 : (Word.«blockErrors_», i) ∉ st.visible) : Goes st (blockToks i) { st with scopes := ((.«blockErrors_», i) :: top) :: rest } := by
  intro p
  have d1 := declare_ok h1 e
  simp [blockToks, Sc.scan, Sc.step, declares, d1]

theorem fine_recovered {n c k d kb db : Nat} {body : Toks} (hc : c ≤ k) (h : Fine (k + 1) (k + 1) d kb db body) :
    Fine c k d kb db (openToks (k + 1) ++ body ++ [.rb] ++ deleteToks (k + 1) ++ catchToks (k + 1) ++ recoverToks o K n (k + 1) ++ [.rb]) := by
  have := fine_try (c := c) (tu := deleteToks (k + 1)) (th := recoverToks o K n (k + 1)) (new := [(.«try_startState_», k + 1), (.«try_startToken_», k + 1)]) (kh := kb) (dh := db) hc (by simp) (by simp)
    (fun st B top rest e => goes_open e (not_try B (by simp)) (not_try B (by simp))) h (fun st hv => goes_delete _ (hv _ (by simp)))
    (fun st B hv => fine_recover (by have := h.le; omega) B (hv _ (by simp)))
  refine this.cast ?_
  simp only [openToks, List.append_assoc, List.cons_append, List.nil_append]

theorem fine_rolled {c k d kb db kh dh : Nat} {body th : Toks} (hc : c ≤ k) (h : Fine (k + 1) (k + 1) d kb db body) (hh : Fine c kb db kh dh th) :
    Fine c k d kh dh (blockToks (k + 1) ++ openToks (k + 1) ++ body ++ [.rb] ++ unblockToks (k + 1) ++ deleteToks (k + 1) ++ catchToks (k + 1) ++ unblockToks (k + 1) ++ rewindToks (k + 1) ++ th ++ [.rb]) := by
  have := fine_try (c := c) (tu := unblockToks (k + 1) ++ deleteToks (k + 1)) (th := unblockToks (k + 1) ++ rewindToks (k + 1) ++ th)
    (new := [(.«try_startState_», k + 1), (.«try_startToken_», k + 1), (.«blockErrors_», k + 1)]) (kh := kh) (dh := dh) hc (by simp) (by simp)
    (fun st B top rest e => by
      have g1 := goes_block e (not_try B (v := .«blockErrors_») (by simp))
      have no : ∀ v : Word, v ≠ .«__node_» → v ≠ .«blockErrors_» → (v, k + 1) ∉ Sc.visible { st with scopes := ((.«blockErrors_», k + 1) :: top) :: rest } := by
        intro v h1 h2 hv
        rw [Sc.visible, List.flatten_cons, List.cons_append, List.mem_cons] at hv
        rcases hv with hv | hv
        · exact h2 (Prod.mk.inj hv).1
        · exact not_try B h1 (by rw [Sc.visible, e, List.flatten_cons]; exact hv)
      exact g1.append (goes_open rfl (no _ (by simp) (by simp)) (no _ (by simp) (by simp))))
    h (fun st hv => (goes_unblock _ (hv _ (by simp))).append (goes_delete _ (hv _ (by simp))))
    (fun st B hv => by
      obtain ⟨st', g, m⟩ := hh st B
      exact ⟨st', ((goes_unblock _ (hv _ (by simp))).append (goes_rewind _ (hv _ (by simp)))).append g, m⟩)
  refine this.cast ?_
  simp only [openToks, List.append_assoc, List.cons_append, List.nil_append]

theorem text_fine (o : Opts) (K : Ctx) : ∀ g : Nat,
    (∀ {n c k d ts k' d'}, c ≤ k → text o K g n c k d = some (ts, k', d') → Fine c k d k' d' ts) ∧
    (∀ {ns c k d ts k' d'}, c ≤ k → textAlts o K g ns c k d = some (ts, k', d') → Fine c k d k' d' ts) ∧
    (∀ {r i s c k d ts k' d'}, c ≤ k → textRule o K g r i s c k d = some (ts, k', d') → Fine c k d k' d' ts)
  | 0 => ⟨fun _ h => by simp [text] at h, fun _ h => by simp [textAlts] at h, fun _ h => by simp [textRule] at h⟩
  | g + 1 => by
    obtain ⟨ih1, ih2, ih3⟩ := text_fine o K g
    refine ⟨?_, ?_, ?_⟩
    · intro n c k d ts k' d' hc h
      rw [text] at h
      split at h
      · cases h
      · cases h
        exact .nil
      · cases h
        exact .nil
      · next s e =>
        cases h
        intro st B
        obtain ⟨st', h1, h2, -⟩ := goes_call (o := o) n s c k d hc st B
        exact ⟨st', h1, h2⟩
      · cases h
        exact (fine_tok n c k d hc).append hc (.calm calm_lex)
      · obtain ⟨⟨tb, kb, db⟩, h1, h2⟩ := Option.map_eq_some_iff.1 h
        cases h2
        have F := ih1 hc h1
        have := Fine.around (a := [.kDo]) (b := [.kWhile, .lp] ++ testToks o K n ++ [.rp, .semi]) hc (by simp [Calm, neutral]) F
          (Calm.append (Calm.append (by simp [Calm, neutral]) (calm_test n)) (by simp [Calm, neutral])) (by have := F.le; omega)
        exact this.cast (by simp only [List.append_assoc, List.cons_append, List.nil_append])
      · obtain ⟨⟨tb, kb, db⟩, h1, h2⟩ := Option.map_eq_some_iff.1 h
        cases h2
        have F := ih1 hc h1
        have := Fine.around (a := [.kWhile, .lp] ++ testToks o K n ++ [.rp]) (b := []) hc (Calm.append (Calm.append (by simp [Calm, neutral]) (calm_test n)) (by simp [Calm, neutral])) F .nil (by have := F.le; omega)
        exact this.cast (by simp only [List.append_assoc, List.cons_append, List.nil_append])
      · cases h
        exact .calm (by simp [Calm, neutral])
      · obtain ⟨⟨tb, kb, db⟩, h1, h2⟩ := Option.map_eq_some_iff.1 h
        cases h2
        exact (ih1 hc h1).append hc (.calm (by simp [Calm, neutral]))
      · exact ih1 hc h
      · next i e =>
        split at h
        · next ha =>
          obtain ⟨⟨tb, kb, db⟩, h1, h2⟩ := Option.bind_eq_some_iff.1 h
          cases g with
          | zero => simp [text] at h1
          | succ g =>
            split at h2
            · next e' =>
              rw [text, e'] at h1
              cases h1
              cases h2
              exact ((fine_tok i c k d hc).append hc (.calm (calm_assign n))).append hc (.calm calm_lex)
            · next s' e' =>
              rw [text, e'] at h1
              cases h1
              cases h2
              intro st B
              obtain ⟨st', h1, h2, h3⟩ := goes_call (o := o) i s' c k d hc st B
              exact ⟨st', h1.append (goes_assign n d (h3 ha)), h2⟩
            · cases h2
        · exact ih1 hc h
      · obtain ⟨a, h1, h2⟩ := Option.bind_eq_some_iff.1 h
        obtain ⟨b, h3, h4⟩ := Option.bind_eq_some_iff.1 h2
        exact ih2 hc h4
      · obtain ⟨⟨ta, ka, da⟩, h1, h2⟩ := Option.bind_eq_some_iff.1 h
        obtain ⟨⟨tb, kb, db⟩, h3, h4⟩ := Option.map_eq_some_iff.1 h2
        cases h4
        have F := ih1 hc h1
        exact F.append hc (ih1 (Nat.le_trans hc F.le) h3)
      · exact ih3 hc h
      · obtain ⟨⟨tb, kb, db⟩, h1, h2⟩ := Option.map_eq_some_iff.1 h
        cases h2
        exact fine_recovered hc (ih1 (Nat.le_refl _) h1)
      · obtain ⟨⟨tb, kb, db⟩, h1, h2⟩ := Option.bind_eq_some_iff.1 h
        obtain ⟨⟨th, kh, dh⟩, h3, h4⟩ := Option.map_eq_some_iff.1 h2
        cases h4
        have F := ih1 (Nat.le_refl _) h1
        exact fine_rolled hc F (ih1 (show c ≤ kb by have := F.le; omega) h3)
      · cases h
      · cases h
        exact .nil
      · split at h
        · cases h
          exact .nil
        · exact ih1 hc h
    · intro ns c k d ts k' d' hc h
      cases ns with
      | nil =>
        rw [textAlts] at h
        cases h
        exact (fine_leave c k d).block
      | cons n ns =>
        rw [textAlts] at h
        obtain ⟨⟨ta, ka, da⟩, h1, h2⟩ := Option.bind_eq_some_iff.1 h
        obtain ⟨⟨tb, kb, db⟩, h3, h4⟩ := Option.map_eq_some_iff.1 h2
        cases h4
        have F := ih1 hc h1
        have hc' : c ≤ ka := by have := F.le; omega
        have := (Fine.around (a := [.kIf, .lp] ++ altToks o K n ++ [.rp]) (b := [.kElse]) hc (Calm.append (Calm.append (by simp [Calm, neutral]) (calm_alt n)) (by simp [Calm, neutral])) F (by simp [Calm, neutral]) hc').append hc
          (ih2 hc' h3)
        exact this.cast (by simp only [List.append_assoc, List.cons_append, List.nil_append])
    · intro r i s c k d ts k' d' hc h
      rw [textRule] at h
      obtain ⟨t, h1, h2⟩ := Option.bind_eq_some_iff.1 h
      obtain ⟨⟨tb, kb, db⟩, h3, h4⟩ := Option.map_eq_some_iff.1 h2
      cases h4
      have F := ih1 hc h3
      have hc' : c ≤ k' := by have := F.le; omega
      have E : Fine c k' d' k' d' (if s ∈ K.W.start then [.kIf, .lp, .sym .«Token_» K.eofTok, .w .«!=», .w .«yytoken», .rp, .lb, .kReturn, .w .«false», .semi, .rb] else []) := by
        split
        · exact Fine.around (a := [.kIf, .lp, .sym .«Token_» K.eofTok, .w .«!=», .w .«yytoken», .rp]) (ts := [.kReturn, .w .«false», .semi]) (b := []) hc' (by simp [Calm, neutral]) (.calm (by simp [Calm, neutral])) .nil hc'
        · exact .nil
      have L : Fine c k d k d (localToks (o.locals r) ++ [.code r]) := .calm ((calm_local _).append (by simp [Calm, neutral]))
      have := Fine.around (a := [.kIf, .lp] ++ t ++ [.rp]) (b := []) hc (Calm.append (Calm.append (by simp [Calm, neutral]) (calm_rule h1)) (by simp [Calm, neutral])) ((L.append hc F).append hc E) .nil hc'
      exact this.cast (by simp only [List.append_assoc, List.cons_append, List.nil_append])

theorem rules_fine (o : Opts) (K : Ctx) (fuel : Nat) : ∀ {rs k d ts}, textRules o K fuel rs k d = some ts → ∃ k' d', Fine 0 k d k' d' ts
  | [], k, d, ts, h => by
    rw [textRules] at h
    cases h
    exact ⟨k, d, (Fine.calm (ts := [.kReturn, .w .«false», .semi]) (by simp [Calm, neutral])).block⟩
  | r :: rs, k, d, ts, h => by
    rw [textRules] at h
    split at h
    · next i s e =>
      obtain ⟨⟨ta, ka, da⟩, h1, h2⟩ := Option.bind_eq_some_iff.1 h
      obtain ⟨tb, h3, rfl⟩ := Option.map_eq_some_iff.1 h2
      have F := (text_fine o K fuel).2.2 (Nat.zero_le _) h1
      obtain ⟨k', d', F'⟩ := rules_fine o K fuel h3
      have E : Fine 0 ka da ka da [.kElse] := .calm (by simp [Calm, neutral])
      exact ⟨k', d', (F.append (Nat.zero_le _) (E.append (Nat.zero_le _) F')).cast (by simp)⟩
    · cases h

theorem calm_inits (l : List Nat) : Calm (l.flatMap fun n => yynode ++ [.mem n, .w .«=», .w .«-1», .semi]) := by
  intro t ht
  obtain ⟨n, -, h⟩ := List.mem_flatMap.1 ht
  have : Calm (yynode ++ [.mem n, .w .«=», .w .«-1», .semi]) := by simp [Calm, yynode, neutral]
  exact this t h

theorem fun_fine (o : Opts) (K : Ctx) {fuel s : Nat} {ts : Toks} (h : funText o K fuel s = some ts) : Named ts := by
  unfold funText at h
  split at h
  · cases h
  obtain ⟨tb, h1, rfl⟩ := Option.map_eq_some_iff.1 h
  obtain ⟨k', d', F⟩ := rules_fine o K fuel h1
  have z := Nat.zero_le (K.count s)
  have P : Fine 0 (K.count s) (o.first s) (K.count s) (o.first s) ((if o.ast then [.w .«*», .w .«yynode», .w .«=», .w .«create», .w .«<», .sym .«Ast» s, .w .«>», .lp, .rp, .semi] ++ yynode ++ .w .«startToken» :: .w .«=» :: here ++ [.semi] ++
        (o.inits s).flatMap (fun n => yynode ++ [.mem n, .w .«=», .w .«-1», .semi]) else []) ++ localToks (o.locals s)) := by
    refine .calm (Calm.append ?_ (calm_local _))
    split
    · exact Calm.append (by simp [Calm, neutral, yynode, here]) (calm_inits _)
    · exact .nil
  have Q : Fine 0 k' d' k' d' ((if o.ast then yynode ++ [.w .«endToken», .w .«=», .w .«tokenStream», .w .«->», .w .«index», .lp, .rp, .w .«-», .w .«2», .semi] else []) ++ [.kReturn, .w .«true», .semi]) := by
    refine .calm (Calm.append ?_ (by simp [Calm, neutral]))
    split
    · simp [Calm, neutral, yynode]
    · exact .nil
  obtain ⟨st, g, m, hs⟩ := ((P.append z F).append z Q).closed {} ⟨nofun, nofun, nofun, by simp⟩
  refine ⟨st, ?_, ?_, ?_⟩
  · have := g .semi
    simpa only [List.append_assoc, List.cons_append, List.nil_append] using this
  · exact hs
  · obtain ⟨q, hq, hq'⟩ := m.pending
    rw [hq]
    cases q with
    | nil => rfl
    | cons x q => exact absurd rfl (hq' x (.head _)).1

end

end Verif.GenText
