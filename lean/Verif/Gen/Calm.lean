import Verif.Gen.Sound
import Mathlib.Tactic.Common

/-! # Positions and error blocking in all runs, also failing ones -/

namespace Verif.Gen

open Verif.Grammar

/-- No operator items. -/
def NoOps (W : World) : Prop := ∀ n o, W.node n ≠ some (.op o)

section
variable {K : Ctx} {E : Env} {G : Nat}

/-- No position before the start is reached, error blocking is as before, and while errors are blocked none is reported (without
operator items). -/
structure Calm (W : World) (st st' : State) : Prop where
  pos : st.pos ≤ st'.pos
  blocked : st'.blocked = st.blocked
  errors : NoOps W → st.blocked = true → st'.errors = st.errors

theorem Calm.refl {W st} : Calm W st st := ⟨Nat.le_refl _, rfl, fun _ _ => rfl⟩

theorem Calm.trans {W a b c} (h : Calm W a b) (h' : Calm W b c) : Calm W a c :=
  ⟨Nat.le_trans h.pos h'.pos, h'.blocked.trans h.blocked, fun hn hb => (h'.errors hn (h.blocked.trans hb)).trans (h.errors hn hb)⟩

/-- The same with states that differ in the other fields. -/
theorem Calm.cong {W} {a b a' b' : State} (h : Calm W a b) (h1 : a'.pos = a.pos) (h2 : a'.blocked = a.blocked) (h3 : a'.errors = a.errors)
    (h4 : b'.pos = b.pos) (h5 : b'.blocked = b.blocked) (h6 : b'.errors = b.errors) : Calm W a' b' :=
  ⟨by rw [h1, h4]; exact h.pos, by rw [h2, h5]; exact h.blocked, fun hn hb => by
    rw [h3, h6]; exact h.errors hn (by rw [← h2]; exact hb)⟩

theorem calm_complain {W c st} : Calm W st (complain c st).2 := by
  unfold complain
  dsimp only
  split
  · rename_i h
    exact ⟨Nat.le_refl _, rfl, fun _ hb => absurd hb h.2⟩
  · exact .refl

theorem calm_lex {W st} : Calm W st st.lex := ⟨Nat.le_succ _, rfl, fun _ _ => rfl⟩

/-- Outcomes under catch `c`: with a catch, no `return false`. -/
def Mild (c : Nat) (o : Out) : Prop := c ≠ 0 → o ≠ .failed

abbrev Ends (K : Ctx) (E : Env) (G f : Nat) (s : Stmt) (st : State) (o : Out) (st' : State) : Prop :=
  exec (parseFun K G) K.eofTok E f s st = some (o, st')

/-- Under a catch there are no operator items and no rules of start symbols. -/
def Fit (K : Ctx) (c n : Nat) : Prop := c ≠ 0 → (∀ o, K.W.node n ≠ some (.op o)) ∧
  ∀ i s, K.W.node n = some (.evolve i s) → s ∉ K.W.start ∧ ∀ o, K.W.node i ≠ some (.op o)

theorem fit_part (hw : Wf K.W) (hp : Tame K.W) {n m c} (hn : ∀ i s, K.W.node n ≠ some (.evolve i s)) (hm : Part K.W n m) : Fit K c m :=
  fun _ => ⟨fun o ho => by
    obtain ⟨s, hs⟩ := hp.opRule _ _ _ hm ho
    exact absurd hs (hn _ _), fun i s h => absurd h (hw.parts _ _ i s hm)⟩

theorem fit_item (hw : Wf K.W) {n i s c} (hn : K.W.node n = some (.evolve i s)) (h : Fit K c n) : Fit K c i :=
  fun hc => ⟨((h hc).2 _ _ hn).2, fun j t h' => absurd h' (hw.parts _ _ j t (.evolve hn))⟩

def NodeB (K : Ctx) (E : Env) (G f : Nat) : Prop := ∀ g self n c k s k' st o st', Fit K c n →
  gen K self g n c k = some (s, k') → Ends K E G f s st o st' → Calm K.W st st' ∧ Mild c o

def AltB (K : Ctx) (E : Env) (G f : Nat) : Prop := ∀ g self ns c k s k' st o st', (∀ n ∈ ns, Fit K c n) →
  genAlts K self g ns c k = some (s, k') → Ends K E G f s st o st' → Calm K.W st st' ∧ Mild c o

def RulesB (K : Ctx) (E : Env) (G f : Nat) : Prop := ∀ g self rs k s k' st o st', (∀ r ∈ rs, r ∈ rulesOf K.W self) →
  genRules K self g rs k = some (s, k') → Ends K E G f s st o st' → Calm K.W st st'

def CallB (K : Ctx) (E : Env) (G f : Nat) : Prop := ∀ s c st o st', Ends K E G f (.call s c) st o st' → Calm K.W st st' ∧ Mild c o

def OpB (K : Ctx) (E : Env) (G f : Nat) : Prop := ∀ d e l st o st', Ends K E G f (.opLoop d e l) st o st' → ¬ NoOps K.W → Calm K.W st st'

theorem mild_leave {c} : Mild c (leave c) := by
  intro hc
  unfold leave
  rw [if_neg hc]
  exact fun h => Out.noConfusion h

theorem callB {f} (ih : RulesB K E G f) : CallB K E G (f + 1) := by
  intro s c st o st' h
  simp only [Ends, exec, step, Option.bind_eq_some_iff, Option.map_eq_some_iff] at h
  obtain ⟨b, h1, ⟨o1, st1⟩, h2, h3⟩ := h
  unfold parseFun at h1
  simp only [Option.map_eq_some_iff] at h1
  obtain ⟨⟨s', k'⟩, h1, rfl⟩ := h1
  have hc := ih _ _ _ _ _ _ _ _ _ (fun _ h => h) h1 h2
  have hb : Calm K.W st (st1.back st) := hc.cong rfl rfl rfl rfl rfl rfl
  cases o1 with
  | ok =>
    simp only [returned, Prod.mk.injEq] at h3
    obtain ⟨rfl, rfl⟩ := h3
    exact ⟨hb, fun _ h => Out.noConfusion h⟩
  | failed =>
    have e1 := congrArg Prod.fst h3
    have e2 := congrArg Prod.snd h3
    dsimp only at e1 e2
    rw [← e1, ← e2]
    exact ⟨hb.trans calm_complain, mild_leave⟩
  | goto i =>
    have e1 := congrArg Prod.fst h3
    have e2 := congrArg Prod.snd h3
    dsimp only at e1 e2
    rw [← e1, ← e2]
    exact ⟨hb.trans calm_complain, mild_leave⟩

/-- The run of a sequence. -/
theorem ends_seq {P eofTok f a b st o st'} (h : exec P eofTok E f (.seq a b) st = some (o, st')) : ∃ f', f = f' + 1 ∧
    ((∃ st1, exec P eofTok E f' a st = some (.ok, st1) ∧ exec P eofTok E f' b st1 = some (o, st')) ∨
      (o ≠ .ok ∧ exec P eofTok E f' a st = some (o, st'))) := by
  cases f with
  | zero => exact absurd h exec_zero
  | succ f => exact ⟨f, rfl, andThen_some h⟩

theorem ends_ite {P eofTok f t a b st o st'} (h : exec P eofTok E f (.ite t a b) st = some (o, st')) : ∃ f', f = f' + 1 ∧ ∃ j,
    exec P eofTok E f' a { st with asked := j } = some (o, st') ∨ exec P eofTok E f' b { st with asked := j } = some (o, st') := by
  cases f with
  | zero => exact absurd h exec_zero
  | succ f =>
    refine ⟨f, rfl, ?_⟩
    simp only [exec, step] at h
    split at h
    · exact ⟨_, .inl h⟩
    · exact ⟨_, .inr h⟩

theorem ends_code {P eofTok f n st o st'} (h : exec P eofTok E f (.code n) st = some (o, st')) : o = .ok ∧ st' = { st with user := E.act n st.user } := by
  cases f with
  | zero => exact absurd h exec_zero
  | succ f => simp only [exec, step, Option.some.injEq, Prod.mk.injEq] at h; exact ⟨h.1.symm, h.2.symm⟩

theorem ends_eof {P eofTok f st o st'} (h : exec P eofTok E f .eof st = some (o, st')) : st' = st := by
  cases f with
  | zero => exact absurd h exec_zero
  | succ f =>
    simp only [exec, step] at h
    split at h <;> (simp only [Option.some.injEq, Prod.mk.injEq] at h; exact h.2.symm)

theorem ends_fail {P eofTok f c st o st'} (h : exec P eofTok E f (.fail c) st = some (o, st')) : o = leave c ∧ st' = st := by
  cases f with
  | zero => exact absurd h exec_zero
  | succ f => simp only [exec, step, Option.some.injEq, Prod.mk.injEq] at h; exact ⟨h.1.symm, h.2.symm⟩

theorem ends_test {P eofTok f t c st o st'} (h : exec P eofTok E f (.test t c) st = some (o, st')) :
    (o = .ok ∧ st' = st ∧ E.inp st.pos = t) ∨ (o = leave c ∧ st' = (complain c st).2 ∧ E.inp st.pos ≠ t) := by
  cases f with
  | zero => exact absurd h exec_zero
  | succ f =>
    simp only [exec, step] at h
    split at h
    · rename_i ht
      simp only [Option.some.injEq, Prod.mk.injEq] at h; exact .inl ⟨h.1.symm, h.2.symm, ht⟩
    · rename_i ht
      have h := Option.some.inj h
      exact .inr ⟨(congrArg Prod.fst h).symm, (congrArg Prod.snd h).symm, ht⟩

theorem ends_lex {P eofTok f st o st'} (h : exec P eofTok E f .lex st = some (o, st')) : o = .ok ∧ st' = st.lex := by
  cases f with
  | zero => exact absurd h exec_zero
  | succ f => simp only [exec, step, Option.some.injEq, Prod.mk.injEq] at h; exact ⟨h.1.symm, h.2.symm⟩

theorem ends_skip {P eofTok f st o st'} (h : exec P eofTok E f .skip st = some (o, st')) : o = .ok ∧ st' = st := by
  cases f with
  | zero => exact absurd h exec_zero
  | succ f => simp only [exec, step, Option.some.injEq, Prod.mk.injEq] at h; exact ⟨h.1.symm, h.2.symm⟩

theorem ends_step {P eofTok f i st o st'} (h : exec P eofTok E f (.step i) st = some (o, st')) : o = .ok ∧ ∃ v, lookup i st.saved = some v ∧
    st' = (if v.pos = st.pos ∧ E.inp st.pos ≠ eofTok then { st with recovered := st.recovered + 1 }.lex else { st with recovered := st.recovered + 1 }) := by
  cases f with
  | zero => exact absurd h exec_zero
  | succ f =>
    simp only [exec, step, Option.map_eq_some_iff, Prod.mk.injEq] at h
    obtain ⟨v, hv, e1, e2⟩ := h
    exact ⟨e1.symm, v, hv, e2.symm⟩

/-- Skipping stops at the end of the input or at one of the tokens. -/
theorem ends_skipTo {P eofTok ts} : ∀ {f st o st'}, exec P eofTok E f (.skipTo ts) st = some (o, st') →
    o = .ok ∧ st.pos ≤ st'.pos ∧ st' = { st with pos := st'.pos } ∧ (E.inp st'.pos = eofTok ∨ E.inp st'.pos ∈ ts)
  | 0, _, _, _, h => absurd h exec_zero
  | f + 1, st, o, st', h => by
    simp only [exec, step] at h
    split at h
    · rename_i ht
      simp only [Option.some.injEq, Prod.mk.injEq] at h
      rw [← h.2]
      exact ⟨h.1.symm, Nat.le_refl _, rfl, ht⟩
    · obtain ⟨h1, h2, h3, h4⟩ := ends_skipTo h
      simp only [State.lex] at h2 h3
      exact ⟨h1, by omega, h3, h4⟩

theorem calm_skipTo {W P eofTok ts f st o st'} (h : exec P eofTok E f (.skipTo ts) st = some (o, st')) : Calm W st st' := by
  obtain ⟨-, h2, h3, -⟩ := ends_skipTo h
  exact ⟨h2, by rw [h3], fun _ _ => by rw [h3]⟩

theorem rulesB (hw : Wf K.W) (hp : Tame K.W) {f} (ih : ∀ f' < f, NodeB K E G f' ∧ RulesB K E G f') : RulesB K E G f := by
  intro g self rs k s k' st o st' hrs hg hrun
  cases rs with
  | nil =>
    simp only [genRules, Option.some.injEq, Prod.mk.injEq] at hg
    rw [← hg.1] at hrun
    rw [(ends_fail hrun).2]; exact .refl
  | cons r rs =>
    unfold genRules at hg
    obtain ⟨hr, i, hd⟩ := mem_rulesOf.mp (hrs r List.mem_cons_self)
    rw [hd] at hg
    simp only [Option.bind_eq_some_iff, Option.map_eq_some_iff, Prod.mk.injEq] at hg
    obtain ⟨⟨t, a, k1⟩, ha, ⟨b, k2⟩, hb, rfl, rfl⟩ := hg
    obtain ⟨f, rfl, j, h | h⟩ := ends_ite hrun
    · cases g with
      | zero => simp [genRule] at ha
      | succ g =>
        unfold genRule at ha
        simp only [Option.bind_eq_some_iff, Option.map_eq_some_iff, Prod.mk.injEq] at ha
        obtain ⟨t', -, ⟨b', k3⟩, hb', -, rfl, rfl⟩ := ha
        have hh : Fit K 0 i := fun h => absurd rfl h
        obtain ⟨f, rfl, ⟨st1, h1, h2⟩ | ⟨h0, h1⟩⟩ := ends_seq h
        · obtain ⟨-, e1⟩ := ends_code h1
          have : Calm K.W st1 st' := by
            split at h2
            · obtain ⟨f, rfl, ⟨st2, h3, h4⟩ | ⟨h0, h3⟩⟩ := ends_seq h2
              · rw [ends_eof h4]
                exact ((ih f (by omega)).1 _ _ _ _ _ _ _ _ _ _ hh hb' h3).1
              · exact ((ih f (by omega)).1 _ _ _ _ _ _ _ _ _ _ hh hb' h3).1
            · exact ((ih f (by omega)).1 _ _ _ _ _ _ _ _ _ _ hh hb' h2).1
          exact this.cong (by rw [e1]) (by rw [e1]) (by rw [e1]) rfl rfl rfl
        · exact absurd (ends_code h1).1 h0
    · exact ((ih f (by omega)).2 _ _ _ _ _ _ _ _ _ (fun r h => hrs r (List.mem_cons_of_mem _ h)) hb h).cong rfl rfl rfl rfl rfl rfl

theorem altB {f} (ih : ∀ f' < f, NodeB K E G f' ∧ AltB K E G f') : AltB K E G f := by
  intro g self ns c k s k' st o st' hns hg hrun
  cases g with
  | zero => simp [genAlts] at hg
  | succ g =>
  cases ns with
  | nil =>
    simp only [genAlts, Option.some.injEq, Prod.mk.injEq] at hg
    rw [← hg.1] at hrun
    obtain ⟨e1, e2⟩ := ends_fail hrun
    rw [e1, e2]
    exact ⟨.refl, mild_leave⟩
  | cons n ns =>
    unfold genAlts at hg
    simp only [Option.bind_eq_some_iff, Option.map_eq_some_iff, Prod.mk.injEq] at hg
    obtain ⟨⟨a, k1⟩, ha, ⟨b, k2⟩, hb, rfl, rfl⟩ := hg
    obtain ⟨f, rfl, j, h | h⟩ := ends_ite hrun
    · obtain ⟨h3, h4⟩ := (ih f (by omega)).1 _ _ _ _ _ _ _ _ _ _ (hns n List.mem_cons_self) ha h
      exact ⟨h3.cong rfl rfl rfl rfl rfl rfl, h4⟩
    · obtain ⟨h3, h4⟩ := (ih f (by omega)).2 _ _ _ _ _ _ _ _ _ _ (fun x hx => hns x (List.mem_cons_of_mem _ hx)) hb h
      exact ⟨h3.cong rfl rfl rfl rfl rfl rfl, h4⟩

/-- With operator items nothing is claimed about errors. -/
theorem calm_of {W} {a b : State} (hn : ¬ NoOps W) (h1 : a.pos ≤ b.pos) (h2 : b.blocked = a.blocked) : Calm W a b := ⟨h1, h2, fun h => absurd h hn⟩

theorem calm_closes {W r st} : Calm W st (closes E r st).2 := by
  unfold closes
  split
  · split
    · exact ⟨Nat.le_refl _, rfl, fun _ _ => rfl⟩
    · exact .refl
  · exact .refl

theorem opB {f} (ih : ∀ f' < f, OpB K E G f' ∧ CallB K E G f') : OpB K E G f := by
  intro d e l st o st' h hno
  cases f with
  | zero => exact absurd h exec_zero
  | succ f =>
  have ih1 := (ih f (by omega)).1
  have ih2 := (ih f (by omega)).2
  have ask : ∀ {st : State} {j}, Calm K.W st { st with asked := j } := ⟨Nat.le_refl _, rfl, fun _ _ => rfl⟩
  cases e
  · simp only [Ends, exec, step] at h
    split at h
    · split at h
      · exact (ask.trans calm_lex).trans (ih1 _ _ _ _ _ _ h hno)
      · split at h
        · have hl : Calm K.W st { (State.lex { st with asked := (pick E (E.inp st.pos) d.before st.asked).2 }) with asked := (Test.eval E (State.lex { st with asked := (pick E (E.inp st.pos) d.before st.asked).2 }).pos d.selfTest (pick E (E.inp st.pos) d.before st.asked).2).2 } :=
            ask.trans (calm_lex.trans ask)
          rcases andThen_some h with ⟨st1, h1, h2⟩ | ⟨-, h1⟩
          · refine (hl.trans (ih2 _ _ _ _ _ h1).1).trans ?_
            split at h2
            · exact (calm_closes.trans calm_lex).trans (ih1 _ _ _ _ _ _ h2 hno)
            · simp only [Option.some.injEq, Prod.mk.injEq] at h2; rw [← h2.2]; exact calm_closes
          · exact hl.trans (ih2 _ _ _ _ _ h1).1
        · simp only [Option.some.injEq, Prod.mk.injEq] at h; rw [← h.2]
          exact ask.trans (calm_lex.trans ask)
      · cases h
    · split at h
      · rcases andThen_some h with ⟨st1, h1, h2⟩ | ⟨-, h1⟩
        · exact (ask.trans (ih2 _ _ _ _ _ h1).1).trans (ih1 _ _ _ _ _ _ h2 hno)
        · exact ask.trans (ih2 _ _ _ _ _ h1).1
      · simp only [Option.some.injEq, Prod.mk.injEq] at h; rw [← h.2]
        exact calm_of hno (Nat.le_refl _) rfl
  · simp only [Ends, exec, step] at h
    split at h
    · simp only [Option.some.injEq, Prod.mk.injEq] at h; rw [← h.2]; exact ask
    · split at h
      · exact (ask.trans calm_lex).trans (ih1 _ _ _ _ _ _ h hno)
      · exact (ask.trans calm_lex).trans (ih1 _ _ _ _ _ _ h hno)
      · split at h
        · exact (ask.trans calm_lex).trans (ih1 _ _ _ _ _ _ h hno)
        · rcases andThen_some h with ⟨st1, h1, h2⟩ | ⟨-, h1⟩
          · refine ((ask.trans calm_lex).trans (ih2 _ _ _ _ _ h1).1).trans ?_
            split at h2
            · exact (calm_closes.trans calm_lex).trans (ih1 _ _ _ _ _ _ h2 hno)
            · simp only [Option.some.injEq, Prod.mk.injEq] at h2; rw [← h2.2]; exact calm_closes
          · exact (ask.trans calm_lex).trans (ih2 _ _ _ _ _ h1).1
      · cases h

/-- All outcomes of a try/rollback statement. -/
theorem rollback_runs {P eofTok id b h f st o st'} (hs : ¬ Stmt.sets id b) (hx : b.exits id)
    (hr : exec P eofTok E f (.seq (.block id) (.seq (.save id) (.tryc id b (.unblock id) (.seq (.restore id)
      (.seq (.unblock id) (.seq (.rewind id) h)))))) st = some (o, st')) :
    ∃ f1 < f, ∃ o1 st1, exec P eofTok E f1 b { st with blocked := true, blocks := (id, st.blocked) :: st.blocks, saved := (id, ⟨st.pos, st.user⟩) :: st.saved } = some (o1, st1) ∧
      ((o1 = .ok ∧ o = .ok ∧ st' = { st1 with blocked := st.blocked }) ∨ (o1 = .failed ∧ o = .failed ∧ st' = st1) ∨
        (o1 = .goto id ∧ ∃ f2 < f, exec P eofTok E f2 h { st1 with user := st.user, blocked := st.blocked, pos := st.pos } = some (o, st'))) := by
  obtain ⟨f1, rfl, ⟨st1, h1, hr⟩ | ⟨h0, h1⟩⟩ := ends_seq hr
  swap
  · exact absurd (block_effect h1).1 h0
  obtain ⟨-, e1⟩ := block_effect h1
  obtain ⟨f2, rfl, ⟨st2, h1, hr⟩ | ⟨h0, h1⟩⟩ := ends_seq hr
  swap
  · exact absurd (save_effect h1).1 h0
  obtain ⟨-, e2⟩ := save_effect h1
  have e3 : st2 = { st with blocked := true, blocks := (id, st.blocked) :: st.blocks, saved := (id, ⟨st.pos, st.user⟩) :: st.saved } := by
    rw [e2, e1]
  cases f2 with
  | zero => exact absurd hr exec_zero
  | succ f2 =>
  simp only [exec, step, Option.bind_eq_some_iff] at hr
  obtain ⟨⟨o1, st3⟩, h2, h3⟩ := hr
  have hk := exec_keeps hs h2
  rw [e3] at h2
  have hl : lookup id st3.saved = some ⟨st.pos, st.user⟩ ∧ lookup id st3.blocks = some st.blocked := by
    rw [hk.1, hk.2, e3]; exact ⟨lookup_cons_eq, lookup_cons_eq⟩
  refine ⟨f2, by omega, o1, st3, h2, ?_⟩
  cases o1 with
  | ok =>
    obtain ⟨v, hv, e4, e5⟩ := unblock_effect h3
    rw [hl.2, Option.some.injEq] at hv
    dsimp only at e5
    exact .inl ⟨rfl, e4, by rw [e5, ← hv]⟩
  | failed =>
    simp only [Option.some.injEq, Prod.mk.injEq] at h3
    exact .inr (.inl ⟨rfl, h3.1.symm, h3.2.symm⟩)
  | goto j =>
    have hj : j = id := by
      rcases exec_leaves _ _ _ _ _ _ hx h2 with h | h | ⟨-, h⟩
      · cases h
      · cases h
      · cases h; rfl
    subst hj
    simp only [if_true] at h3
    refine .inr (.inr ⟨rfl, ?_⟩)
    obtain ⟨f3, rfl, ⟨st4, h4, h3⟩ | ⟨h0, h4⟩⟩ := ends_seq h3
    swap
    · exact absurd (restore_effect h4).choose_spec.2.1 h0
    obtain ⟨v, hv, -, e4⟩ := restore_effect h4
    rw [hl.1, Option.some.injEq] at hv
    obtain ⟨f4, rfl, ⟨st5, h4, h3⟩ | ⟨h0, h4⟩⟩ := ends_seq h3
    swap
    · exact absurd (unblock_effect h4).choose_spec.2.1 h0
    obtain ⟨v', hv', -, e5⟩ := unblock_effect h4
    rw [e4] at hv'
    dsimp only at hv'
    rw [hl.2, Option.some.injEq] at hv'
    obtain ⟨f5, rfl, ⟨st6, h4, h3⟩ | ⟨h0, h4⟩⟩ := ends_seq h3
    swap
    · exact absurd (rewind_effect h4).choose_spec.2.1 h0
    obtain ⟨v'', hv'', -, e6⟩ := rewind_effect h4
    rw [e5, e4] at hv''
    dsimp only at hv''
    rw [hl.1, Option.some.injEq] at hv''
    refine ⟨f5, by omega, ?_⟩
    rw [← hv] at e4
    rw [← hv'] at e5
    rw [← hv''] at e6
    rw [e6, e5, e4] at h3
    exact h3

/-- All outcomes of a try/recover statement. -/
theorem recover_runs {P eofTok id b ts f st o st'} (hs : ¬ Stmt.sets id b) (hx : b.exits id)
    (hr : exec P eofTok E f (.seq (.save id) (.tryc id b .skip (.seq (.restore id) (.seq (.step id) (.skipTo ts))))) st = some (o, st')) :
    ∃ f1 < f, ∃ o1 st1, exec P eofTok E f1 b { st with saved := (id, ⟨st.pos, st.user⟩) :: st.saved } = some (o1, st1) ∧
      ((o1 = .ok ∧ o = .ok ∧ st' = st1) ∨ (o1 = .failed ∧ o = .failed ∧ st' = st1) ∨
        (o1 = .goto id ∧ o = .ok ∧ st' = { st1 with user := st.user, recovered := st1.recovered + 1, pos := st'.pos } ∧ st1.pos ≤ st'.pos ∧
          (E.inp st'.pos = eofTok ∨ E.inp st'.pos ∈ ts) ∧ (st1.pos = st.pos → E.inp st.pos ≠ eofTok → st.pos < st'.pos))) := by
  obtain ⟨f1, rfl, ⟨st1, h1, hr⟩ | ⟨h0, h1⟩⟩ := ends_seq hr
  swap
  · exact absurd (save_effect h1).1 h0
  obtain ⟨-, e1⟩ := save_effect h1
  cases f1 with
  | zero => exact absurd hr exec_zero
  | succ f1 =>
  simp only [exec, step, Option.bind_eq_some_iff] at hr
  obtain ⟨⟨o1, st3⟩, h2, h3⟩ := hr
  have hk := exec_keeps hs h2
  rw [e1] at h2
  have hl : lookup id st3.saved = some ⟨st.pos, st.user⟩ := by
    rw [hk.1, e1]; exact lookup_cons_eq
  refine ⟨f1, by omega, o1, st3, h2, ?_⟩
  cases o1 with
  | ok =>
    obtain ⟨e4, e5⟩ := ends_skip h3
    exact .inl ⟨rfl, e4, e5⟩
  | failed =>
    simp only [Option.some.injEq, Prod.mk.injEq] at h3
    exact .inr (.inl ⟨rfl, h3.1.symm, h3.2.symm⟩)
  | goto j =>
    have hj : j = id := by
      rcases exec_leaves _ _ _ _ _ _ hx h2 with h | h | ⟨-, h⟩
      · cases h
      · cases h
      · cases h; rfl
    subst hj
    simp only [if_true] at h3
    refine .inr (.inr ⟨rfl, ?_⟩)
    obtain ⟨f3, rfl, ⟨st4, h4, h3⟩ | ⟨h0, h4⟩⟩ := ends_seq h3
    swap
    · exact absurd (restore_effect h4).choose_spec.2.1 h0
    obtain ⟨v, hv, -, e4⟩ := restore_effect h4
    rw [hl, Option.some.injEq] at hv
    rw [← hv] at e4
    obtain ⟨f4, rfl, ⟨st5, h4, h3⟩ | ⟨h0, h4⟩⟩ := ends_seq h3
    swap
    · exact absurd (ends_step h4).1 h0
    obtain ⟨-, v', hv', e5⟩ := ends_step h4
    rw [e4] at hv'
    dsimp only at hv'
    rw [hl, Option.some.injEq] at hv'
    rw [← hv', e4] at e5
    dsimp only at e5
    obtain ⟨h5, h6, h7, h8⟩ := ends_skipTo h3
    have h9 : st5 = { st3 with user := st.user, recovered := st3.recovered + 1, pos := st5.pos } ∧ st3.pos ≤ st5.pos ∧
        (st3.pos = st.pos → E.inp st.pos ≠ eofTok → st.pos < st5.pos) := by
      rw [e5]
      split
      · rename_i hc
        exact ⟨rfl, Nat.le_succ _, fun h _ => by simp only [State.lex]; omega⟩
      · rename_i hc
        refine ⟨rfl, Nat.le_refl _, fun h h' => absurd ⟨h.symm, ?_⟩ hc⟩
        rw [h]; exact h'
    obtain ⟨h9, h10, h11⟩ := h9
    refine ⟨h5, ?_, by omega, h8, fun a b => by have := h11 a b; omega⟩
    rw [h7, h9]

theorem nodeB (hw : Wf K.W) (hp : Tame K.W) {f} (ih : ∀ f' < f, NodeB K E G f') (ihA : AltB K E G f)
    (ihC : CallB K E G f) (ihO : OpB K E G f) : NodeB K E G f := by
  intro g
  induction g with
  | zero => intro self n c k s k' st o st' hh hg hrun; simp [gen] at hg
  | succ g ihg =>
  intro self n c k s k' st o st' hh hg hrun
  have part : ∀ {m d : Nat}, (∀ i s, K.W.node n ≠ some (.evolve i s)) → Part K.W n m → Fit K d m := fun hn hm => fit_part hw hp hn hm
  have okc : ∀ {d}, Mild d .ok := fun _ h => Out.noConfusion h
  unfold gen at hg
  split at hg
  · cases hg
  · simp only [Option.some.injEq, Prod.mk.injEq] at hg
    rw [← hg.1] at hrun
    obtain ⟨e1, e2⟩ := ends_skip hrun
    rw [e1, e2]; exact ⟨.refl, okc⟩
  · simp only [Option.some.injEq, Prod.mk.injEq] at hg
    rw [← hg.1] at hrun
    obtain ⟨e1, e2⟩ := ends_skip hrun
    rw [e1, e2]; exact ⟨.refl, okc⟩
  · simp only [Option.some.injEq, Prod.mk.injEq] at hg
    rw [← hg.1] at hrun
    exact ihC _ _ _ _ _ hrun
  · simp only [Option.some.injEq, Prod.mk.injEq] at hg
    rw [← hg.1] at hrun
    obtain ⟨f, rfl, ⟨st1, h1, h2⟩ | ⟨h0, h1⟩⟩ := ends_seq hrun
    · obtain ⟨e1, e2⟩ := ends_lex h2
      rw [e1, e2]
      refine ⟨?_, okc⟩
      rcases ends_test h1 with ⟨-, e, -⟩ | ⟨-, e, -⟩
      · rw [e]; exact calm_lex
      · rw [e]; exact calm_complain.trans calm_lex
    · rcases ends_test h1 with ⟨h, -, -⟩ | ⟨e1, e2, -⟩
      · exact absurd h h0
      · rw [e1, e2]; exact ⟨calm_complain, mild_leave⟩
  · rename_i i hd
    simp only [Option.map_eq_some_iff, Prod.mk.injEq] at hg
    obtain ⟨⟨b, k1⟩, h1, rfl, rfl⟩ := hg
    have hg' : gen K self (g + 1) n c k = some (.doWhile b (testOf K n), k1) := by
      rw [gen, hd]; dsimp only; rw [h1]; rfl
    cases f with
    | zero => exact absurd hrun exec_zero
    | succ f =>
    rcases andThen_some hrun with ⟨st1, h2, h3⟩ | ⟨-, h2⟩
    · have a := (ih f (by omega) _ _ _ _ _ _ _ _ _ _ (part (by simp [hd]) (.plus hd)) h1 h2).1
      dsimp only at h3
      split at h3
      · obtain ⟨h4, h5⟩ := ih f (by omega) _ _ _ _ _ _ _ _ _ _ hh hg' h3
        exact ⟨a.trans (h4.cong rfl rfl rfl rfl rfl rfl), h5⟩
      · simp only [Option.some.injEq, Prod.mk.injEq] at h3
        rw [← h3.1, ← h3.2]
        exact ⟨a.cong rfl rfl rfl rfl rfl rfl, okc⟩
    · exact ih f (by omega) _ _ _ _ _ _ _ _ _ _ (part (by simp [hd]) (.plus hd)) h1 h2
  · rename_i i hd
    simp only [Option.map_eq_some_iff, Prod.mk.injEq] at hg
    obtain ⟨⟨b, k1⟩, h1, rfl, rfl⟩ := hg
    have hg' : gen K self (g + 1) n c k = some (.while (testOf K n) b, k1) := by
      rw [gen, hd]; dsimp only; rw [h1]; rfl
    cases f with
    | zero => exact absurd hrun exec_zero
    | succ f =>
    simp only [Ends, exec, step] at hrun
    split at hrun
    · rcases andThen_some hrun with ⟨st1, h2, h3⟩ | ⟨-, h2⟩
      · obtain ⟨h4, -⟩ := ih f (by omega) _ _ _ _ _ _ _ _ _ _ (part (by simp [hd]) (.star hd)) h1 h2
        obtain ⟨h5, h6⟩ := ih f (by omega) _ _ _ _ _ _ _ _ _ _ hh hg' h3
        exact ⟨Calm.trans (h4.cong (a' := st) (b' := st1) rfl rfl rfl rfl rfl rfl) h5, h6⟩
      · obtain ⟨h4, h5⟩ := ih f (by omega) _ _ _ _ _ _ _ _ _ _ (part (by simp [hd]) (.star hd)) h1 h2
        exact ⟨h4.cong rfl rfl rfl rfl rfl rfl, h5⟩
    · simp only [Option.some.injEq, Prod.mk.injEq] at hrun
      rw [← hrun.1, ← hrun.2]
      exact ⟨Calm.refl.cong rfl rfl rfl rfl rfl rfl, okc⟩
  · simp only [Option.some.injEq, Prod.mk.injEq] at hg
    rw [← hg.1] at hrun
    obtain ⟨e1, e2⟩ := ends_code hrun
    rw [e1, e2]
    exact ⟨Calm.refl.cong rfl rfl rfl rfl rfl rfl, okc⟩
  · rename_i i hd
    simp only [Option.map_eq_some_iff, Prod.mk.injEq] at hg
    obtain ⟨⟨b, k1⟩, h1, rfl, rfl⟩ := hg
    obtain ⟨f, rfl, ⟨st1, h2, h3⟩ | ⟨h0, h2⟩⟩ := ends_seq hrun
    · obtain ⟨e1, e2⟩ := ends_code h3
      rw [e1, e2]
      exact ⟨(ih f (by omega) _ _ _ _ _ _ _ _ _ _ (part (by simp [hd]) (.action hd)) h1 h2).1.cong rfl rfl rfl rfl rfl rfl, okc⟩
    · exact ih f (by omega) _ _ _ _ _ _ _ _ _ _ (part (by simp [hd]) (.action hd)) h1 h2
  · rename_i i hd
    exact ihg _ _ _ _ _ _ _ _ _ (part (by simp [hd]) (.cond hd)) hg hrun
  · rename_i i hd
    exact ihg _ _ _ _ _ _ _ _ _ (part (by simp [hd]) (.annot hd)) hg hrun
  · rename_i l r hd
    simp only [Option.bind_eq_some_iff] at hg
    obtain ⟨a, ha, b, hb, hg⟩ := hg
    let Q := fun m => Fit K c m
    have hQ : ∀ n l r, Q n → K.W.node n = some (.alt l r) → Q l ∧ Q r := fun n l r _ hd =>
      ⟨fit_part hw hp (by simp [hd]) (.altL hd), fit_part hw hp (by simp [hd]) (.altR hd)⟩
    refine ihA _ _ _ _ _ _ _ _ _ _ (fun m hm => ?_) hg hrun
    rcases List.mem_append.mp hm with hm | hm
    · exact (flatten_mem (Q := Q) hQ ha (part (by simp [hd]) (.altL hd)) hm).1
    · exact (flatten_mem (Q := Q) hQ hb (part (by simp [hd]) (.altR hd)) hm).1
  · rename_i l r hd
    simp only [Option.bind_eq_some_iff, Option.map_eq_some_iff, Prod.mk.injEq] at hg
    obtain ⟨⟨a, k1⟩, h1, ⟨b, k2⟩, h2, rfl, rfl⟩ := hg
    obtain ⟨f, rfl, ⟨st1, h3, h4⟩ | ⟨h0, h3⟩⟩ := ends_seq hrun
    · obtain ⟨h5, -⟩ := ih f (by omega) _ _ _ _ _ _ _ _ _ _ (part (by simp [hd]) (.consL hd)) h1 h3
      obtain ⟨h6, h7⟩ := ih f (by omega) _ _ _ _ _ _ _ _ _ _ (part (by simp [hd]) (.consR hd)) h2 h4
      exact ⟨h5.trans h6, h7⟩
    · exact ih f (by omega) _ _ _ _ _ _ _ _ _ _ (part (by simp [hd]) (.consL hd)) h1 h3
  · rename_i i y hd
    simp only [Option.map_eq_some_iff, Prod.mk.injEq] at hg
    obtain ⟨⟨t, a, k1⟩, ha, rfl, rfl⟩ := hg
    cases g with
    | zero => simp [genRule] at ha
    | succ g =>
    unfold genRule at ha
    simp only [Option.bind_eq_some_iff, Option.map_eq_some_iff, Prod.mk.injEq] at ha
    obtain ⟨t', -, ⟨b', k3⟩, hb', -, rfl, rfl⟩ := ha
    have hi := fit_item hw hd hh
    obtain ⟨f, rfl, j, h | h⟩ := ends_ite hrun
    · obtain ⟨f, rfl, ⟨st1, h1, h2⟩ | ⟨h0, h1⟩⟩ := ends_seq h
      · obtain ⟨-, e1⟩ := ends_code h1
        have : Calm K.W st1 st' ∧ Mild c o := by
          split at h2
          · rename_i hs
            obtain ⟨f, rfl, ⟨st2, h3, h4⟩ | ⟨h0, h3⟩⟩ := ends_seq h2
            · rw [ends_eof h4]
              exact ⟨(ih f (by omega) _ _ _ _ _ _ _ _ _ _ hi hb' h3).1, fun hc => absurd hs ((hh hc).2 _ _ hd).1⟩
            · exact ih f (by omega) _ _ _ _ _ _ _ _ _ _ hi hb' h3
          · exact ih f (by omega) _ _ _ _ _ _ _ _ _ _ hi hb' h2
        exact ⟨this.1.cong (by rw [e1]) (by rw [e1]) (by rw [e1]) rfl rfl rfl, this.2⟩
      · exact absurd (ends_code h1).1 h0
    · obtain ⟨e1, e2⟩ := ends_skip h
      rw [e1, e2]
      exact ⟨Calm.refl.cong rfl rfl rfl rfl rfl rfl, okc⟩
  · rename_i l hd
    simp only [Option.map_eq_some_iff, Prod.mk.injEq] at hg
    obtain ⟨⟨b, k1⟩, h1, rfl, rfl⟩ := hg
    obtain ⟨f1, hf, o1, st1, h2, h⟩ := recover_runs (not_sets_self h1) (gen_exits h1) hrun
    obtain ⟨h3, h4⟩ := ih f1 hf _ _ _ _ _ _ _ _ _ _ (part (by simp [hd]) (.tryL hd)) h1 h2
    have h3 : Calm K.W st st1 := h3.cong rfl rfl rfl rfl rfl rfl
    rcases h with ⟨-, e1, e2⟩ | ⟨e, -, -⟩ | ⟨-, e1, e2, e3, -⟩
    · rw [e1, e2]; exact ⟨h3, okc⟩
    · exact absurd e (h4 (by omega))
    · rw [e1]
      refine ⟨h3.trans ⟨e3, by rw [e2], fun _ _ => by rw [e2]⟩, okc⟩
  · rename_i l r hd
    simp only [Option.bind_eq_some_iff, Option.map_eq_some_iff, Prod.mk.injEq] at hg
    obtain ⟨⟨b, k1⟩, h1, ⟨d, k2⟩, h2, rfl, rfl⟩ := hg
    obtain ⟨f1, hf, o1, st1, h3, h⟩ := rollback_runs (not_sets_self h1) (gen_exits h1) hrun
    obtain ⟨h4, h5⟩ := ih f1 hf _ _ _ _ _ _ _ _ _ _ (part (by simp [hd]) (.tryL hd)) h1 h3
    rcases h with ⟨-, e1, e2⟩ | ⟨e, -, -⟩ | ⟨-, f2, hf2, h6⟩
    · rw [e1, e2]
      exact ⟨⟨h4.pos, rfl, fun hn _ => h4.errors hn rfl⟩, okc⟩
    · exact absurd e (h5 (by omega))
    · obtain ⟨h7, h8⟩ := ih f2 hf2 _ _ _ _ _ _ _ _ _ _ (part (by simp [hd]) (.tryR hd)) h2 h6
      refine ⟨⟨h7.pos, h7.blocked, fun hn hb => ?_⟩, h8⟩
      have a := h7.errors hn hb
      have b := h4.errors hn rfl
      dsimp only at a b
      rw [a, b]
  · rename_i o' hd
    simp only [Option.map_eq_some_iff, Prod.mk.injEq] at hg
    obtain ⟨d, h1, rfl, rfl⟩ := hg
    exact ⟨ihO _ _ _ _ _ _ hrun fun h => h _ _ hd, fun h => absurd hd ((hh h).1 _)⟩
  · simp only [Option.some.injEq, Prod.mk.injEq] at hg
    rw [← hg.1] at hrun
    obtain ⟨e1, e2⟩ := ends_skip hrun
    rw [e1, e2]; exact ⟨.refl, okc⟩
  · rename_i y hd
    split at hg
    · simp only [Option.some.injEq, Prod.mk.injEq] at hg
      rw [← hg.1] at hrun
      obtain ⟨e1, e2⟩ := ends_skip hrun
      rw [e1, e2]; exact ⟨.refl, okc⟩
    · rename_i r hr
      have hm := List.mem_of_find?_eq_some hr
      have hs := List.find?_some hr
      obtain ⟨-, i, y', hr'⟩ := hw.rules r hm
      rw [hr'] at hs
      have hs : y' = y := by simpa using hs
      subst hs
      refine ihg _ _ _ _ _ _ _ _ _ (fun _ => ⟨by simp [hr'], fun j z h => ?_⟩) hg hrun
      rw [hr', Option.some.injEq, Item.evolve.injEq] at h
      obtain ⟨rfl, rfl⟩ := h
      exact hp.inlined _ _ _ _ hd hm hr'

theorem all_calm (hw : Wf K.W) (hp : Tame K.W) : ∀ f, NodeB K E G f ∧ AltB K E G f ∧ RulesB K E G f ∧ CallB K E G f ∧ OpB K E G f := by
  intro f
  induction f using Nat.strongRecOn with
  | ind f ih =>
    have hA : AltB K E G f := altB fun f' h => ⟨(ih f' h).1, (ih f' h).2.1⟩
    have hR : RulesB K E G f := rulesB hw hp fun f' h => ⟨(ih f' h).1, (ih f' h).2.2.1⟩
    have hC : CallB K E G f := by
      cases f with
      | zero => intro s c st o st' h; exact absurd h exec_zero
      | succ f => exact callB (ih f (by omega)).2.2.1
    have hO : OpB K E G f := opB fun f' h => ⟨(ih f' h).2.2.2.2, (ih f' h).2.2.2.1⟩
    exact ⟨nodeB hw hp (fun f' h => (ih f' h).1) hA hC hO, hA, hR, hC, hO⟩

end

end Verif.Gen
