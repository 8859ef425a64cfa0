import Verif.Gen.Code

/-! # What a generated parser accepts is derivable (lemmas for C47) -/

namespace Verif.Gen

open Verif.Grammar

theorem consumed_self (inp p) : consumed inp p p = [] := by simp [consumed]

theorem consumed_succ (inp p) : consumed inp p (p + 1) = [inp p] := by
  simp [consumed, List.range'_succ]

theorem consumed_append (inp : Nat → Nat) {p q r : Nat} (h1 : p ≤ q) (h2 : q ≤ r) :
    consumed inp p q ++ consumed inp q r = consumed inp p r := by
  unfold consumed
  rw [← List.map_append]
  obtain ⟨a, rfl⟩ := Nat.exists_eq_add_of_le h1
  obtain ⟨b, rfl⟩ := Nat.exists_eq_add_of_le h2
  have e1 : p + a - p = a := by omega
  have e2 : p + a + b - (p + a) = b := by omega
  have e3 : p + a + b - p = a + b := by omega
  rw [e1, e2, e3]
  congr 1
  have := List.range'_append (s := p) (m := a) (n := b) (step := 1)
  rw [Nat.one_mul] at this
  exact this

theorem flatten_mem {W : World} {Q : Nat → Prop} (hQ : ∀ n l r, Q n → W.node n = some (.alt l r) → Q l ∧ Q r) :
    ∀ {f n l m}, flatten W f n = some l → Q n → m ∈ l → Q m ∧ ∀ α, Der W m α → Der W n α
  | 0, _, _, _, h, _, _ => nomatch h
  | f + 1, n, l, m, h, hn, hm => by
    unfold flatten at h
    split at h
    · rename_i a b hd
      simp only [Option.bind_eq_some_iff, Option.map_eq_some_iff] at h
      obtain ⟨x, hx, y, hy, rfl⟩ := h
      rcases List.mem_append.mp hm with hm | hm
      · obtain ⟨h1, h2⟩ := flatten_mem hQ hx (hQ _ _ _ hn hd).1 hm
        exact ⟨h1, fun α hα => .altL hd (h2 α hα)⟩
      · obtain ⟨h1, h2⟩ := flatten_mem hQ hy (hQ _ _ _ hn hd).2 hm
        exact ⟨h1, fun α hα => .altR hd (h2 α hα)⟩
    · simp only [Option.some.injEq] at h
      subst h
      simp only [List.mem_singleton] at hm
      subst hm
      exact ⟨hn, fun _ h => h⟩

theorem pick_some {E t} : ∀ {rs k r}, (pick E t rs k).1 = some r → r ∈ rs ∧ r.tok = t
  | [], _, _, h => nomatch h
  | x :: rs, k, r, h => by
    unfold pick at h
    split at h
    · rename_i ht
      split at h
      · split at h
        · simp only [Option.some.injEq] at h; subst h; exact ⟨List.mem_cons_self, ht⟩
        · exact ⟨List.mem_cons_of_mem _ (pick_some h).1, (pick_some h).2⟩
      · simp only [Option.some.injEq] at h; subst h; exact ⟨List.mem_cons_self, ht⟩
    · exact ⟨List.mem_cons_of_mem _ (pick_some h).1, (pick_some h).2⟩

theorem mem_rows1 {K n k ts r} (h : r ∈ rows1 K n k ts) : r.kind = k ∧ r.tok ∈ ts := by
  unfold rows1 at h
  rw [List.mem_mapIdx] at h
  obtain ⟨i, hi, rfl⟩ := h
  exact ⟨rfl, List.getElem_mem _⟩

theorem mem_rows2 {K n k ts r} (h : r ∈ rows2 K n k ts) : r.kind = k ∧ (r.tok, r.tok2) ∈ ts := by
  unfold rows2 at h
  rw [List.mem_mapIdx] at h
  obtain ⟨i, hi, rfl⟩ := h
  exact ⟨rfl, List.getElem_mem _⟩

theorem closes_true {E r st} (h : (closes E r st).1 = true) : E.inp st.pos = r.tok2 ∧ (closes E r st).2.pos = st.pos := by
  unfold closes at h ⊢
  split at h
  · rename_i ht
    rw [if_pos ht]
    refine ⟨ht, ?_⟩
    split <;> rfl
  · cases h

theorem closes_recovered {E r st} : (closes E r st).2.recovered = st.recovered := by
  unfold closes
  split
  · split <;> rfl
  · rfl

theorem mem_rulesOf {W s r} : r ∈ rulesOf W s ↔ r ∈ W.rules ∧ ∃ i, W.node r = some (.evolve i s) := by
  unfold rulesOf
  rw [List.mem_reverse, List.mem_filter]
  refine and_congr_right fun _ => ?_
  split
  · rename_i i s' hd
    simp only [decide_eq_true_eq, hd, Option.some.injEq, Item.evolve.injEq]
    constructor
    · rintro rfl; exact ⟨i, rfl, rfl⟩
    · rintro ⟨_, _, h⟩; exact h
  · rename_i hd
    constructor
    · intro h; cases h
    · rintro ⟨i, h⟩; exact absurd h (hd i s)

section
variable {P : Nat → Option Stmt} {eofTok : Nat} {E : Env}

theorem exec_zero {s : Stmt} {st : State} {x} : exec P eofTok E 0 s st ≠ some x := by
  simp [exec]

theorem runs_tryc {f i a b h st st'} (hr : exec P eofTok E f (.tryc i a b h) st = some (.ok, st')) :
    ∃ f', f = f' + 1 ∧ ((∃ st1, exec P eofTok E f' a st = some (.ok, st1) ∧
      exec P eofTok E f' b st1 = some (.ok, st')) ∨
    (∃ st1, exec P eofTok E f' a st = some (.goto i, st1) ∧ exec P eofTok E f' h st1 = some (.ok, st'))) := by
  cases f with
  | zero => exact absurd hr exec_zero
  | succ f =>
    refine ⟨f, rfl, ?_⟩
    simp only [exec, step, Option.bind_eq_some_iff] at hr
    obtain ⟨⟨o1, st1⟩, h1, h2⟩ := hr
    cases o1 with
    | ok => exact .inl ⟨st1, h1, h2⟩
    | failed => simp at h2
    | goto k =>
      dsimp only at h2
      split at h2
      · rename_i e; subst e; exact .inr ⟨st1, h1, h2⟩
      · simp at h2

theorem exec_seq {f a b st st'} (hr : exec P eofTok E f (.seq a b) st = some (.ok, st')) :
    ∃ f', f = f' + 1 ∧ ∃ st1, exec P eofTok E f' a st = some (.ok, st1) ∧
      exec P eofTok E f' b st1 = some (.ok, st') := by
  cases f with
  | zero => exact absurd hr exec_zero
  | succ f => exact ⟨f, rfl, andThen_ok hr⟩

/-- Running the recovery part counts as a recovery. -/
theorem step_counts {f i st st'} (hr : exec P eofTok E f (.step i) st = some (.ok, st')) :
    st'.recovered = st.recovered + 1 := by
  cases f with
  | zero => exact absurd hr exec_zero
  | succ f =>
    simp only [exec, step, Option.map_eq_some_iff, Prod.mk.injEq, true_and] at hr
    obtain ⟨v, -, rfl⟩ := hr
    split <;> rfl

theorem restore_effect {f i st o st'} (hr : exec P eofTok E f (.restore i) st = some (o, st')) :
    ∃ v, lookup i st.saved = some v ∧ o = .ok ∧ st' = { st with user := v.user } := by
  cases f with
  | zero => exact absurd hr exec_zero
  | succ f =>
    simp only [exec, step, Option.map_eq_some_iff, Prod.mk.injEq] at hr
    obtain ⟨v, h, e1, e2⟩ := hr
    exact ⟨v, h, e1.symm, e2.symm⟩

theorem rewind_effect {f i st o st'} (hr : exec P eofTok E f (.rewind i) st = some (o, st')) :
    ∃ v, lookup i st.saved = some v ∧ o = .ok ∧ st' = { st with pos := v.pos } := by
  cases f with
  | zero => exact absurd hr exec_zero
  | succ f =>
    simp only [exec, step, Option.map_eq_some_iff, Prod.mk.injEq] at hr
    obtain ⟨v, h, e1, e2⟩ := hr
    exact ⟨v, h, e1.symm, e2.symm⟩

theorem unblock_effect {f i st o st'} (hr : exec P eofTok E f (.unblock i) st = some (o, st')) :
    ∃ b, lookup i st.blocks = some b ∧ o = .ok ∧ st' = { st with blocked := b } := by
  cases f with
  | zero => exact absurd hr exec_zero
  | succ f =>
    simp only [exec, step, Option.map_eq_some_iff, Prod.mk.injEq] at hr
    obtain ⟨v, h, e1, e2⟩ := hr
    exact ⟨v, h, e1.symm, e2.symm⟩

theorem save_effect {f i st o st'} (hr : exec P eofTok E f (.save i) st = some (o, st')) :
    o = .ok ∧ st' = { st with saved := (i, ⟨st.pos, st.user⟩) :: st.saved } := by
  cases f with
  | zero => exact absurd hr exec_zero
  | succ f =>
    simp only [exec, step, Option.some.injEq, Prod.mk.injEq] at hr
    exact ⟨hr.1.symm, hr.2.symm⟩

theorem block_effect {f i st o st'} (hr : exec P eofTok E f (.block i) st = some (o, st')) :
    o = .ok ∧ st' = { st with blocks := (i, st.blocked) :: st.blocks, blocked := true } := by
  cases f with
  | zero => exact absurd hr exec_zero
  | succ f =>
    simp only [exec, step, Option.some.injEq, Prod.mk.injEq] at hr
    exact ⟨hr.1.symm, hr.2.symm⟩

end

section
variable {K : Ctx} {E : Env} {G : Nat}

/-- The items for which statements are emitted, apart from rules. -/
structure Here (K : Ctx) (top n : Nat) : Prop where
  sym : K.W.node n ≠ some .sym
  rule : ∀ i s, K.W.node n ≠ some (.evolve i s)
  op : ∀ o, K.W.node n = some (.op o) → ∃ r ∈ K.W.rules, K.W.node r = some (.evolve n top)
  occ : Occurs K.W n

theorem Here.part (hw : Wf K.W) (hp : Plain K.W) {self n m} (h : Here K self n) (hm : Part K.W n m) : Here K self m :=
  ⟨hp.noSym _ _ hm, fun i s => hw.parts _ _ i s hm, fun o ho => by
    obtain ⟨s, hs⟩ := hp.opRule _ _ _ hm ho
    exact absurd hs (h.rule _ _), .part h.occ hm⟩

/-- A run from `st` to `st'` consumed something derivable from `n`. -/
def Got (K : Ctx) (E : Env) (n : Nat) (st st' : State) : Prop := st.pos ≤ st'.pos ∧ Der K.W n (consumed E.inp st.pos st'.pos)

abbrev Runs (K : Ctx) (E : Env) (G f : Nat) (s : Stmt) (st st' : State) : Prop :=
  exec (parseFun K G) K.eofTok E f s st = some (.ok, st') ∧ st'.recovered = st.recovered

def NodeC (K : Ctx) (E : Env) (G f : Nat) : Prop := ∀ g self n c k s k' st st', Here K self n → gen K self g n c k = some (s, k') →
  Runs K E G f s st st' → Got K E n st st'

def AltC (K : Ctx) (E : Env) (G f : Nat) : Prop := ∀ g self ns c k s k' st st', (∀ n ∈ ns, Here K self n) →
  genAlts K self g ns c k = some (s, k') → Runs K E G f s st st' → ∃ n ∈ ns, Got K E n st st'

def RulesC (K : Ctx) (E : Env) (G f : Nat) : Prop := ∀ g self rs k s k' st st', (∀ r ∈ rs, r ∈ rulesOf K.W self) →
  genRules K self g rs k = some (s, k') → Runs K E G f s st st' → Got K E self st st'

def CallC (K : Ctx) (E : Env) (G f : Nat) : Prop := ∀ s c st st', Runs K E G f (.call s c) st st' → Got K E s st st'

def OpC (K : Ctx) (E : Env) (G f : Nat) : Prop := ∀ self n o d e l st st' u, Here K self n → K.W.node n = some (.op o) →
  opDesc K self n o = some d → Runs K E G f (.opLoop d e l) st st' →
  (if e then Der K.W n u else ∀ v, Der K.W n v → Der K.W n (u ++ v)) →
  st.pos ≤ st'.pos ∧ Der K.W n (u ++ consumed E.inp st.pos st'.pos)

/-- Split a run of two statements. -/
theorem runs_andThen {f f' a st st'} {k : State → Option (Out × State)} {b : Stmt}
    (h : andThen (exec (parseFun K G) K.eofTok E f a st) k = some (.ok, st')) (hr : st'.recovered = st.recovered)
    (hk : ∀ st1, k st1 = some (.ok, st') → exec (parseFun K G) K.eofTok E f' b st1 = some (.ok, st')) :
    ∃ st1, Runs K E G f a st st1 ∧ Runs K E G f' b st1 st' := by
  obtain ⟨st1, h1, h2⟩ := andThen_ok h
  have l1 := exec_recovered h1
  have l2 := exec_recovered (hk _ h2)
  exact ⟨st1, ⟨h1, by omega⟩, hk _ h2, by omega⟩

theorem runs_seq {f a b st st'} (h : Runs K E G (f + 1) (.seq a b) st st') :
    ∃ st1, Runs K E G f a st st1 ∧ Runs K E G f b st1 st' := runs_andThen h.1 h.2 fun _ h => h

/-- One of the branches was run. -/
theorem runs_ite {f t a b st st'} (h : Runs K E G (f + 1) (.ite t a b) st st') :
    ∃ j, Runs K E G f a { st with asked := j } st' ∨ Runs K E G f b { st with asked := j } st' := by
  obtain ⟨h, hr⟩ := h
  simp only [exec, step] at h
  split at h
  · exact ⟨_, .inl ⟨h, hr⟩⟩
  · exact ⟨_, .inr ⟨h, hr⟩⟩

theorem runs_skip {f st st'} (h : Runs K E G f .skip st st') : st' = st := by
  cases f with
  | zero => exact absurd h.1 (by simp [exec])
  | succ f => have := h.1; simp only [exec, step, Option.some.injEq, Prod.mk.injEq] at this; exact this.2.symm

theorem runs_code {f n st st'} (h : Runs K E G f (.code n) st st') : st'.pos = st.pos := by
  cases f with
  | zero => exact absurd h.1 (by simp [exec])
  | succ f => have := h.1; simp only [exec, step, Option.some.injEq, Prod.mk.injEq] at this; rw [← this.2]

theorem runs_eof {f st st'} (h : Runs K E G f .eof st st') : st' = st := by
  cases f with
  | zero => exact absurd h.1 (by simp [exec])
  | succ f =>
    have := h.1; simp only [exec, step] at this
    split at this
    · simp only [Option.some.injEq, Prod.mk.injEq] at this; exact this.2.symm
    · simp at this

theorem runs_fail {f c st st'} (h : Runs K E G f (.fail c) st st') : False := by
  cases f with
  | zero => exact absurd h.1 (by simp [exec])
  | succ f =>
    have := h.1; simp only [exec, step, Option.some.injEq, Prod.mk.injEq, leave] at this
    split at this <;> cases this.1

theorem runs_test {f t c st st'} (h : Runs K E G f (.test t c) st st') : st' = st ∧ E.inp st.pos = t := by
  cases f with
  | zero => exact absurd h.1 (by simp [exec])
  | succ f =>
    have := h.1; simp only [exec, step] at this
    split at this
    · rename_i ht
      simp only [Option.some.injEq, Prod.mk.injEq] at this; exact ⟨this.2.symm, ht⟩
    · simp only [complain, leave, Option.some.injEq, Prod.mk.injEq] at this
      split at this <;> cases this.1

theorem runs_lex {f st st'} (h : Runs K E G f .lex st st') : st' = st.lex := by
  cases f with
  | zero => exact absurd h.1 (by simp [exec])
  | succ f => have := h.1; simp only [exec, step, Option.some.injEq, Prod.mk.injEq] at this; exact this.2.symm

theorem runs_pos {f s st st'} (h : Runs K E G f s st st') : 0 < f := by
  cases f with
  | zero => exact absurd h.1 (by simp [exec])
  | succ f => omega

theorem Got.empty {n} {st st' : State} (h : Der K.W n []) (e : st'.pos = st.pos) : Got K E n st st' := by
  refine ⟨by omega, ?_⟩
  rw [e, consumed_self]; exact h

theorem Got.map {n m} {st st' : State} (h : Got K E n st st') (hd : ∀ α, Der K.W n α → Der K.W m α) : Got K E m st st' := ⟨h.1, hd _ h.2⟩

theorem Got.seq {n l r} {a b c : State} (h1 : Got K E l a b) (h2 : Got K E r b c)
    (hd : ∀ α β, Der K.W l α → Der K.W r β → Der K.W n (α ++ β)) : Got K E n a c := by
  refine ⟨Nat.le_trans h1.1 h2.1, ?_⟩
  rw [← consumed_append _ h1.1 h2.1]
  exact hd _ _ h1.2 h2.2

theorem Got.cong {n} {a b a' b' : State} (h : Got K E n a b) (e1 : a'.pos = a.pos) (e2 : b'.pos = b.pos) : Got K E n a' b' := by
  unfold Got; rw [e1, e2]; exact h



theorem callC {f} (ih : RulesC K E G f) : CallC K E G (f + 1) := by
  intro s c st st' ⟨h, hr⟩
  simp only [exec, step, Option.bind_eq_some_iff, Option.map_eq_some_iff] at h
  obtain ⟨b, h1, ⟨o, st1⟩, h2, h3⟩ := h
  unfold parseFun at h1
  simp only [Option.map_eq_some_iff] at h1
  obtain ⟨⟨s', k'⟩, h1, rfl⟩ := h1
  cases o with
  | ok =>
    simp only [returned, Prod.mk.injEq] at h3
    obtain ⟨-, rfl⟩ := h3
    exact Got.cong (ih _ _ _ _ _ _ _ _ (fun _ h => h) h1 ⟨h2, hr⟩) rfl rfl
  | failed =>
    have := congrArg Prod.fst h3
    simp only [returned, complain, leave] at this
    split at this <;> cases this
  | goto i =>
    have := congrArg Prod.fst h3
    simp only [returned, complain, leave] at this
    split at this <;> cases this

theorem here_of_rule (hw : Wf K.W) (hp : Plain K.W) {r i s} (hr : r ∈ K.W.rules) (hd : K.W.node r = some (.evolve i s)) : Here K s i :=
  ⟨hp.noSym _ _ (.evolve hd), fun j t => hw.parts _ _ j t (.evolve hd), fun _ _ => ⟨r, hr, hd⟩, .part (.rule hr) (.evolve hd)⟩

theorem rulesC (hw : Wf K.W) (hp : Plain K.W) {f} (ih : ∀ f' < f, NodeC K E G f' ∧ RulesC K E G f') : RulesC K E G f := by
  intro g self rs k s k' st st' hrs hg hrun
  cases rs with
  | nil =>
    simp only [genRules, Option.some.injEq, Prod.mk.injEq] at hg
    rw [← hg.1] at hrun
    exact (runs_fail hrun).elim
  | cons r rs =>
    unfold genRules at hg
    obtain ⟨hr, i, hd⟩ := mem_rulesOf.mp (hrs r List.mem_cons_self)
    rw [hd] at hg
    simp only [Option.bind_eq_some_iff, Option.map_eq_some_iff, Prod.mk.injEq] at hg
    obtain ⟨⟨t, a, k1⟩, ha, ⟨b, k2⟩, hb, rfl, rfl⟩ := hg
    obtain ⟨f, rfl⟩ := Nat.exists_eq_succ_of_ne_zero (Nat.pos_iff_ne_zero.mp (runs_pos hrun))
    obtain ⟨j, h | h⟩ := runs_ite hrun
    · cases g with
      | zero => simp [genRule] at ha
      | succ g =>
        unfold genRule at ha
        simp only [Option.bind_eq_some_iff, Option.map_eq_some_iff, Prod.mk.injEq] at ha
        obtain ⟨t', -, ⟨b', k3⟩, hb', -, rfl, rfl⟩ := ha
        obtain ⟨f, rfl⟩ := Nat.exists_eq_succ_of_ne_zero (Nat.pos_iff_ne_zero.mp (runs_pos h))
        obtain ⟨st1, h1, h2⟩ := runs_seq h
        have e1 := runs_code h1
        have hx : Der K.W i (consumed E.inp st1.pos st'.pos) → Der K.W self (consumed E.inp st1.pos st'.pos) := fun h =>
          .expand (hw.symbols r self (.inr (.inr ⟨i, hd⟩))) hr hd h
        have hh := here_of_rule hw hp hr hd
        split at h2
        · obtain ⟨f, rfl⟩ := Nat.exists_eq_succ_of_ne_zero (Nat.pos_iff_ne_zero.mp (runs_pos h2))
          obtain ⟨st2, h3, h4⟩ := runs_seq h2
          have e2 := runs_eof h4
          subst e2
          have := (ih f (by omega)).1 _ _ _ _ _ _ _ _ _ hh hb' h3
          exact Got.cong (K := K) (E := E) (a := st1) (b := st') ⟨this.1, hx this.2⟩ e1.symm rfl
        · have := (ih f (by omega)).1 _ _ _ _ _ _ _ _ _ hh hb' h2
          exact Got.cong (K := K) (E := E) (a := st1) (b := st') ⟨this.1, hx this.2⟩ e1.symm rfl
    · exact Got.cong ((ih f (by omega)).2 _ _ _ _ _ _ _ _ (fun r h => hrs r (List.mem_cons_of_mem _ h)) hb h) rfl rfl

theorem altC {f} (ih : ∀ f' < f, NodeC K E G f' ∧ AltC K E G f') : AltC K E G f := by
  intro g self ns c k s k' st st' hns hg hrun
  cases g with
  | zero => simp [genAlts] at hg
  | succ g =>
  cases ns with
  | nil =>
    simp only [genAlts, Option.some.injEq, Prod.mk.injEq] at hg
    rw [← hg.1] at hrun
    exact (runs_fail hrun).elim
  | cons n ns =>
    unfold genAlts at hg
    simp only [Option.bind_eq_some_iff, Option.map_eq_some_iff, Prod.mk.injEq] at hg
    obtain ⟨⟨a, k1⟩, ha, ⟨b, k2⟩, hb, rfl, rfl⟩ := hg
    obtain ⟨f, rfl⟩ := Nat.exists_eq_succ_of_ne_zero (Nat.pos_iff_ne_zero.mp (runs_pos hrun))
    obtain ⟨j, h | h⟩ := runs_ite hrun
    · exact ⟨n, List.mem_cons_self, Got.cong ((ih f (by omega)).1 _ _ _ _ _ _ _ _ _ (hns n List.mem_cons_self) ha h) rfl rfl⟩
    · obtain ⟨m, hm, h⟩ := (ih f (by omega)).2 _ _ _ _ _ _ _ _ _ (fun x hx => hns x (List.mem_cons_of_mem _ hx)) hb h
      exact ⟨m, List.mem_cons_of_mem _ hm, Got.cong h rfl rfl⟩

theorem mem_consumed {inp : Nat → Nat} {p q x} (h : x ∈ consumed inp p q) : ∃ i, x = inp i := by
  unfold consumed at h
  obtain ⟨i, -, rfl⟩ := List.mem_map.mp h
  exact ⟨i, rfl⟩

/-- What the symbol of an operator rule derives, the operator item derives. -/
theorem der_self (hw : Wf K.W) (hp : Plain K.W) (hi : ∀ p, K.W.node (E.inp p) ≠ some .sym) {self n o} (hh : Here K self n)
    (hn : K.W.node n = some (.op o)) {p q} (h : Der K.W self (consumed E.inp p q)) : Der K.W n (consumed E.inp p q) := by
  obtain ⟨r, hr, hd⟩ := hh.op o hn
  have hs := hw.symbols r self (.inr (.inr ⟨n, hd⟩))
  generalize hα : consumed E.inp p q = α at h
  cases h with
  | expand h1 hr' hd' h2 => rw [← hp.opOnly _ _ _ _ _ _ hr hr' hd hn hd']; exact h2
  | sym h1 =>
    have : self ∈ consumed E.inp p q := by rw [hα]; exact List.mem_cons_self
    obtain ⟨i, e⟩ := mem_consumed this
    exact absurd (e ▸ hs) (hi i)
  | _ => simp_all

theorem opC (hw : Wf K.W) (hp : Plain K.W) (hi : ∀ p, K.W.node (E.inp p) ≠ some .sym) {f}
    (ih : ∀ f' < f, OpC K E G f' ∧ CallC K E G f') : OpC K E G f := by
  intro self n o d e l st st' u hh hn hd ⟨h, hr⟩ hu
  cases f with
  | zero => simp [exec] at h
  | succ f =>
  have ih1 := (ih f (by omega)).1
  have ih2 := (ih f (by omega)).2
  have hd' := hd
  unfold opDesc at hd'
  split at hd'
  · cases hd'
  simp only [Option.map_eq_some_iff] at hd'
  obtain ⟨b, hb, hde⟩ := hd'
  have hbase : K.W.node o.base = some (.nonterm b) := by
    unfold symOf at hb
    split at hb
    · rename_i x hx; rw [hx]; simp_all
    · cases hb
  have htern := hp.noTern n o hn
  have hafter : d.after = rows1 K n .post o.post ++ rows1 K n .bin o.bin := by
    rw [← hde, htern]; simp [rows2]
  have hbefore : d.before = rows1 K n .pre o.pre ++ rows2 K n .paren o.paren := by rw [← hde]
  have hself : d.self = self := by rw [← hde]
  have hbs : d.base = b := by rw [← hde]
  -- after a token has been read
  have hlex : ∀ {st1 : State} {e l} {w : List Nat},
      exec (parseFun K G) K.eofTok E f (.opLoop d e l) st1.lex = some (.ok, st') → st1.pos = st.pos → st1.recovered = st.recovered →
      (if e then Der K.W n w else ∀ v, Der K.W n v → Der K.W n (w ++ v)) → w = u ++ [E.inp st.pos] →
      st.pos ≤ st'.pos ∧ Der K.W n (u ++ consumed E.inp st.pos st'.pos) := by
    intro st1 e l w h e1 e2 hw' ew
    obtain ⟨h1, h2⟩ := ih1 _ _ _ _ _ _ _ _ w hh hn hd ⟨h, by simpa [State.lex, e2] using hr⟩ hw'
    simp only [State.lex, e1] at h1 h2
    refine ⟨by omega, ?_⟩
    rw [ew, List.append_assoc, ← consumed_succ, consumed_append _ (by omega) h1] at h2
    exact h2
  cases e
  · simp only [exec, step] at h
    simp only [Bool.false_eq_true, if_false] at hu
    split at h
    · rename_i r hpick
      obtain ⟨hm, ht⟩ := pick_some hpick
      rw [hbefore] at hm
      rcases List.mem_append.mp hm with hm | hm
      · obtain ⟨hk, hm⟩ := mem_rows1 hm
        rw [hk] at h
        dsimp only at h
        refine hlex h rfl rfl (w := u ++ [E.inp st.pos]) ?_ rfl
        simp only [Bool.false_eq_true, if_false]
        intro v hv
        rw [List.append_assoc]
        exact hu _ (.opPre hn (ht ▸ hm) hv)
      · obtain ⟨hk, hm⟩ := mem_rows2 hm
        rw [hk] at h
        dsimp only at h
        split at h
        · obtain ⟨st1, h1, h2⟩ := andThen_ok h
          split at h2
          · rename_i hcl
            have l1 := exec_recovered h1
            have l2 := exec_recovered h2
            simp only [State.lex, closes_recovered] at l1 l2
            have hcall := ih2 _ _ _ _ ⟨h1, by simp only [State.lex]; omega⟩
            obtain ⟨ht2, hps⟩ := closes_true hcl
            obtain ⟨hle, hder⟩ := hcall
            rw [hself] at hder
            have hder := der_self hw hp hi hh hn hder
            simp only [State.lex] at hle hder
            obtain ⟨h3, h4⟩ := ih1 _ _ _ _ _ _ _ _ (u ++ (E.inp st.pos :: (consumed E.inp (st.pos + 1) st1.pos ++ [E.inp st1.pos])))
              hh hn hd ⟨h2, by simp only [State.lex, closes_recovered]; omega⟩
              (by simp only [if_true]; exact hu _ (.opParen hn (by rw [← ht, ht2]; exact hm) hder))
            simp only [State.lex, hps] at h3 h4
            refine ⟨by omega, ?_⟩
            have e1 : E.inp st.pos :: (consumed E.inp (st.pos + 1) st1.pos ++ [E.inp st1.pos]) = consumed E.inp st.pos (st1.pos + 1) := by
              rw [← consumed_append E.inp (p := st.pos) (q := st1.pos) (by omega) (by omega),
                ← consumed_append E.inp (p := st.pos) (q := st.pos + 1) (by omega) hle, consumed_succ, consumed_succ]
              rfl
            rw [e1, List.append_assoc, consumed_append _ (by omega) h3] at h4
            exact h4
          · simp at h2
        · simp at h
    · split at h
      · obtain ⟨st1, h1, h2⟩ := andThen_ok h
        have l1 := exec_recovered h1
        have l2 := exec_recovered h2
        dsimp only at l1
        obtain ⟨hle, hder⟩ := ih2 _ _ _ _ ⟨h1, by dsimp only; omega⟩
        rw [hbs] at hder
        dsimp only at hle hder
        obtain ⟨h3, h4⟩ := ih1 _ _ _ _ _ _ _ _ (u ++ consumed E.inp st.pos st1.pos) hh hn hd ⟨h2, by omega⟩
          (by simp only [if_true]; exact hu _ (.opBase hn (.nonterm hbase hder)))
        rw [List.append_assoc, consumed_append _ hle h3] at h4
        exact ⟨by omega, h4⟩
      · simp at h
  · simp only [exec, step] at h
    simp only [if_true] at hu
    split at h
    · simp only [Option.some.injEq, Prod.mk.injEq, true_and] at h
      rw [← h]
      refine ⟨Nat.le_refl _, ?_⟩
      dsimp only
      rw [consumed_self, List.append_nil]; exact hu
    · rename_i r hpick
      obtain ⟨hm, ht⟩ := pick_some hpick
      rw [hafter] at hm
      rcases List.mem_append.mp hm with hm | hm
      · obtain ⟨hk, hm⟩ := mem_rows1 hm
        rw [hk] at h
        dsimp only at h
        refine hlex h rfl rfl (w := u ++ [E.inp st.pos]) ?_ rfl
        simp only [if_true]
        exact .opPost hn (ht ▸ hm) hu
      · obtain ⟨hk, hm⟩ := mem_rows1 hm
        rw [hk] at h
        dsimp only at h
        refine hlex h rfl rfl (w := u ++ [E.inp st.pos]) ?_ rfl
        simp only [Bool.false_eq_true, if_false]
        intro v hv
        rw [List.append_assoc]
        exact .opBin hn (ht ▸ hm) hu hv

theorem not_sets_self {K : Ctx} {self g n c k s k'} (h : gen K self g n c k = some (s, k')) : ¬ s.sets k := fun hs => by
  have := gen_within h k hs; omega

theorem nodeC (hw : Wf K.W) (hp : Plain K.W) {f} (ih : ∀ f' < f, NodeC K E G f') (ihA : AltC K E G f)
    (ihC : CallC K E G f) (ihO : OpC K E G f) : NodeC K E G f := by
  intro g
  induction g with
  | zero => intro self n c k s k' st st' hh hg hrun; simp [gen] at hg
  | succ g ihg =>
  intro self n c k s k' st st' hh hg hrun
  have hpos := runs_pos hrun
  have part : ∀ {m : Nat}, Part K.W n m → Here K self m := fun hm => hh.part hw hp hm
  unfold gen at hg
  split at hg
  · cases hg
  · rename_i hd
    simp only [Option.some.injEq, Prod.mk.injEq] at hg
    rw [← hg.1] at hrun
    rw [runs_skip hrun]
    exact .empty (.zero hd) rfl
  · rename_i hd; exact absurd hd hh.sym
  · rename_i y hd
    simp only [Option.some.injEq, Prod.mk.injEq] at hg
    rw [← hg.1] at hrun
    exact (ihC _ _ _ _ hrun).map fun _ h => .nonterm hd h
  · rename_i hd
    simp only [Option.some.injEq, Prod.mk.injEq] at hg
    rw [← hg.1] at hrun
    obtain ⟨f, rfl⟩ := Nat.exists_eq_succ_of_ne_zero (Nat.pos_iff_ne_zero.mp hpos)
    obtain ⟨st1, h1, h2⟩ := runs_seq hrun
    obtain ⟨rfl, ht⟩ := runs_test h1
    rw [runs_lex h2]
    refine ⟨by simp [State.lex], ?_⟩
    simp only [State.lex, consumed_succ, ht]
    exact .term hd
  · rename_i i hd
    simp only [Option.map_eq_some_iff, Prod.mk.injEq] at hg
    obtain ⟨⟨b, k1⟩, h1, rfl, rfl⟩ := hg
    have hg' : gen K self (g + 1) n c k = some (.doWhile b (testOf K n), k1) := by
      rw [gen, hd]; dsimp only; rw [h1]; rfl
    obtain ⟨f, rfl⟩ := Nat.exists_eq_succ_of_ne_zero (Nat.pos_iff_ne_zero.mp hpos)
    obtain ⟨h, hr⟩ := hrun
    obtain ⟨st1, h2, h3⟩ := andThen_ok h
    dsimp only at h3
    have l1 := exec_recovered h2
    split at h3
    · have l2 := exec_recovered h3
      dsimp only at l2
      have a := ih f (by omega) _ _ _ _ _ _ _ _ _ (part (.plus hd)) h1 ⟨h2, by omega⟩
      have b := ih f (by omega) _ _ _ _ _ _ _ _ _ hh hg' ⟨h3, by dsimp only; omega⟩
      exact Got.seq a (Got.cong b rfl rfl) fun _ _ => .plusS hd
    · simp only [Option.some.injEq, Prod.mk.injEq, true_and] at h3
      rw [← h3] at hr ⊢
      have a := ih f (by omega) _ _ _ _ _ _ _ _ _ (part (.plus hd)) h1 ⟨h2, hr⟩
      exact Got.cong (a.map fun _ => .plus1 hd) rfl rfl
  · rename_i i hd
    simp only [Option.map_eq_some_iff, Prod.mk.injEq] at hg
    obtain ⟨⟨b, k1⟩, h1, rfl, rfl⟩ := hg
    have hg' : gen K self (g + 1) n c k = some (.while (testOf K n) b, k1) := by
      rw [gen, hd]; dsimp only; rw [h1]; rfl
    obtain ⟨f, rfl⟩ := Nat.exists_eq_succ_of_ne_zero (Nat.pos_iff_ne_zero.mp hpos)
    obtain ⟨h, hr⟩ := hrun
    simp only [exec, step] at h
    split at h
    · obtain ⟨st1, h2, h3⟩ := andThen_ok h
      have l1 := exec_recovered h2
      have l2 := exec_recovered h3
      dsimp only at l1
      have a := ih f (by omega) _ _ _ _ _ _ _ _ _ (part (.star hd)) h1 ⟨h2, by dsimp only; omega⟩
      have b := ih f (by omega) _ _ _ _ _ _ _ _ _ hh hg' ⟨h3, by omega⟩
      exact Got.seq (Got.cong a rfl rfl) b fun _ _ => .starS hd
    · simp only [Option.some.injEq, Prod.mk.injEq, true_and] at h
      rw [← h]
      exact .empty (.star0 hd) rfl
  · rename_i hd
    simp only [Option.some.injEq, Prod.mk.injEq] at hg
    rw [← hg.1] at hrun
    exact .empty (.action0 hd) (runs_code hrun)
  · rename_i i hd
    simp only [Option.map_eq_some_iff, Prod.mk.injEq] at hg
    obtain ⟨⟨b, k1⟩, h1, rfl, rfl⟩ := hg
    obtain ⟨f, rfl⟩ := Nat.exists_eq_succ_of_ne_zero (Nat.pos_iff_ne_zero.mp hpos)
    obtain ⟨st1, h2, h3⟩ := runs_seq hrun
    have a := ih f (by omega) _ _ _ _ _ _ _ _ _ (part (.action hd)) h1 h2
    exact Got.cong (a.map fun _ => .action hd) rfl (runs_code h3)
  · rename_i i hd
    exact (ihg _ _ _ _ _ _ _ _ (part (.cond hd)) hg hrun).map fun _ => .cond hd
  · rename_i i hd
    exact (ihg _ _ _ _ _ _ _ _ (part (.annot hd)) hg hrun).map fun _ => .annot hd
  · rename_i l r hd
    simp only [Option.bind_eq_some_iff] at hg
    obtain ⟨a, ha, b, hb, hg⟩ := hg
    have hQ : ∀ n l r, Here K self n → K.W.node n = some (.alt l r) → Here K self l ∧ Here K self r := fun n l r h hd =>
      ⟨h.part hw hp (.altL hd), h.part hw hp (.altR hd)⟩
    have hm : ∀ m ∈ a ++ b, Here K self m ∧ ∀ α, Der K.W m α → Der K.W n α := by
      intro m hm
      rcases List.mem_append.mp hm with hm | hm
      · obtain ⟨h1, h2⟩ := flatten_mem hQ ha (part (.altL hd)) hm
        exact ⟨h1, fun α h => .altL hd (h2 α h)⟩
      · obtain ⟨h1, h2⟩ := flatten_mem hQ hb (part (.altR hd)) hm
        exact ⟨h1, fun α h => .altR hd (h2 α h)⟩
    obtain ⟨m, hmem, h⟩ := ihA _ _ _ _ _ _ _ _ _ (fun m h => (hm m h).1) hg hrun
    exact h.map (hm m hmem).2
  · rename_i l r hd
    simp only [Option.bind_eq_some_iff, Option.map_eq_some_iff, Prod.mk.injEq] at hg
    obtain ⟨⟨a, k1⟩, h1, ⟨b, k2⟩, h2, rfl, rfl⟩ := hg
    obtain ⟨f, rfl⟩ := Nat.exists_eq_succ_of_ne_zero (Nat.pos_iff_ne_zero.mp hpos)
    obtain ⟨st1, h3, h4⟩ := runs_seq hrun
    exact Got.seq (ih f (by omega) _ _ _ _ _ _ _ _ _ (part (.consL hd)) h1 h3)
      (ih f (by omega) _ _ _ _ _ _ _ _ _ (part (.consR hd)) h2 h4) fun _ _ => .cons hd
  · rename_i i y hd; exact absurd hd (hh.rule _ _)
  · rename_i l hd
    simp only [Option.map_eq_some_iff, Prod.mk.injEq] at hg
    obtain ⟨⟨b, k1⟩, h1, rfl, rfl⟩ := hg
    obtain ⟨hrun, hr⟩ := hrun
    obtain ⟨f1, rfl, st1, hs, hrun⟩ := exec_seq hrun
    obtain ⟨-, e1⟩ := save_effect hs
    obtain ⟨f2, rfl, h | h⟩ := runs_tryc hrun
    · obtain ⟨st2, h2, h3⟩ := h
      have := runs_skip (K := K) (E := E) (G := G) ⟨h3, by
        have := exec_recovered h2; have l3 := exec_recovered h3; rw [e1] at this; dsimp only at this; omega⟩
      subst this
      have a := ih f2 (by omega) _ _ _ _ _ _ _ _ _ (part (.tryL hd)) h1 ⟨h2, by rw [e1]; exact hr⟩
      exact Got.cong (a.map fun _ => .tryL hd) (by rw [e1]) rfl
    · obtain ⟨st2, h2, h3⟩ := h
      obtain ⟨f3, rfl, st3, h4, h5⟩ := exec_seq h3
      obtain ⟨f4, rfl, st4, h6, h7⟩ := exec_seq h5
      have := step_counts h6
      have a := exec_recovered h2
      have b := exec_recovered h4
      have c := exec_recovered h7
      rw [e1] at a; dsimp only at a
      omega
  · rename_i l r hd
    simp only [Option.bind_eq_some_iff, Option.map_eq_some_iff, Prod.mk.injEq] at hg
    obtain ⟨⟨b, k1⟩, h1, ⟨d, k2⟩, h2, rfl, rfl⟩ := hg
    obtain ⟨hrun, hr⟩ := hrun
    obtain ⟨f1, rfl, st1, hs, hrun⟩ := exec_seq hrun
    obtain ⟨-, e1⟩ := block_effect hs
    obtain ⟨f2, rfl, st2, hs, hrun⟩ := exec_seq hrun
    obtain ⟨-, e2⟩ := save_effect hs
    have e3 : st2.pos = st.pos := by rw [e2, e1]
    have e4 : st2.recovered = st.recovered := by rw [e2, e1]
    obtain ⟨f3, rfl, h | h⟩ := runs_tryc hrun
    · obtain ⟨st3, h3, h4⟩ := h
      obtain ⟨v, -, -, e5⟩ := unblock_effect h4
      rw [e5] at hr
      have a := ih f3 (by omega) _ _ _ _ _ _ _ _ _ (part (.tryL hd)) h1 ⟨h3, by rw [e4]; exact hr⟩
      exact Got.cong (a.map fun _ => .tryL hd) e3.symm (by rw [e5])
    · obtain ⟨st3, h3, h4⟩ := h
      obtain ⟨f4, rfl, st4, h5, h6⟩ := exec_seq h4
      obtain ⟨f5, rfl, st5, h7, h8⟩ := exec_seq h6
      obtain ⟨f6, rfl, st6, h9, h10⟩ := exec_seq h8
      have hk := (exec_keeps (not_sets_self h1) h3).1
      obtain ⟨v1, hv1, -, e5⟩ := restore_effect h5
      obtain ⟨v2, hv2, -, e6⟩ := unblock_effect h7
      obtain ⟨v3, hv3, -, e7⟩ := rewind_effect h9
      have hv : v3.pos = st.pos := by
        rw [e6, e5] at hv3
        dsimp only at hv3
        rw [hk, e2] at hv3
        dsimp only at hv3
        rw [lookup_cons_eq, Option.some.injEq] at hv3
        rw [← hv3, e1]
      have l1 := exec_recovered h3
      have l2 := exec_recovered h10
      have e8 : st6.recovered = st3.recovered := by rw [e7, e6, e5]
      have a := ih f6 (by omega) _ _ _ _ _ _ _ _ _ (part (.tryR hd)) h2 ⟨h10, by omega⟩
      exact Got.cong (a.map fun _ => .tryR hd) (by rw [e7]; exact hv.symm) rfl
  · rename_i o hd
    simp only [Option.map_eq_some_iff, Prod.mk.injEq] at hg
    obtain ⟨d, h1, rfl, rfl⟩ := hg
    have := ihO _ _ _ _ _ _ _ _ [] hh hd h1 hrun (by simp only [Bool.false_eq_true, if_false]; exact fun _ h => h)
    exact this
  · rename_i hd; exact absurd hd (hp.noInline _ _)
  · rename_i hd; exact absurd hd (hp.noInline _ _)

theorem all_claims (hw : Wf K.W) (hp : Plain K.W) (hi : ∀ p, K.W.node (E.inp p) ≠ some .sym) : ∀ f,
    NodeC K E G f ∧ AltC K E G f ∧ RulesC K E G f ∧ CallC K E G f ∧ OpC K E G f := by
  intro f
  induction f using Nat.strongRecOn with
  | ind f ih =>
    have hA : AltC K E G f := altC fun f' h => ⟨(ih f' h).1, (ih f' h).2.1⟩
    have hR : RulesC K E G f := rulesC hw hp fun f' h => ⟨(ih f' h).1, (ih f' h).2.2.1⟩
    have hC : CallC K E G f := by
      cases f with
      | zero => intro s c st st' h; exact absurd h.1 exec_zero
      | succ f => exact callC (ih f (by omega)).2.2.1
    have hO : OpC K E G f := opC hw hp hi fun f' h => ⟨(ih f' h).2.2.2.2, (ih f' h).2.2.2.1⟩
    exact ⟨nodeC hw hp (fun f' h => (ih f' h).1) hA hC hO, hA, hR, hC, hO⟩

end

end Verif.Gen
