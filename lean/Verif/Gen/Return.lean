import Verif.Gen.ReturnSpec
import Verif.Gen.Sound
import Verif.Gen.Total
import Verif.Gen.Forward
import Mathlib.Order.RelClasses
import Mathlib.Data.Fintype.EquivFin
import Mathlib.Order.WellFounded
import Mathlib.Order.Fin.Basic

/-! # The generated parser returns on every input -/

namespace Verif.Gen

open Verif.Grammar

section
variable {K : Ctx} {E : Env} {G N : Nat}

/-- The statement comes to an end, between here and the end of the input, and if it ends well without having read a token, `I` holds. -/
def Ret (K : Ctx) (E : Env) (G N : Nat) (I : Prop) (s : Stmt) (st : State) : Prop :=
  ∃ f o st', exec (parseFun K G) K.eofTok E f s st = some (o, st') ∧ st.pos ≤ st'.pos ∧ st'.pos ≤ N ∧ (o = .ok → st'.pos = st.pos → I)

theorem Ret.mono {I J : Prop} {s st} (h : Ret K E G N I s st) (hi : I → J) : Ret K E G N J s st := by
  obtain ⟨f, o, st', h1, h2, h3, h4⟩ := h
  exact ⟨f, o, st', h1, h2, h3, fun a b => hi (h4 a b)⟩

theorem Ret.seqAt {I1 I2 I : Prop} {a b st} (h1 : Ret K E G N I1 a st)
    (h2 : ∀ f st1, exec (parseFun K G) K.eofTok E f a st = some (.ok, st1) → st.pos ≤ st1.pos → st1.pos ≤ N → (st1.pos = st.pos → I1) → Ret K E G N (st1.pos = st.pos → I2) b st1)
    (hI : I1 → I2 → I) : Ret K E G N I (.seq a b) st := by
  obtain ⟨f1, o, st1, e1, l1, u1, i1⟩ := h1
  cases o with
  | ok =>
    obtain ⟨f2, o2, st2, e2, l2, u2, i2⟩ := h2 _ _ e1 l1 u1 (i1 rfl)
    refine ⟨max f1 f2 + 1, o2, st2, ?_, by omega, u2, fun ho hp => hI (i1 rfl (by omega)) (i2 ho (by omega) (by omega))⟩
    show step _ _ _ _ _ _ = _
    simp only [step]
    rw [exec_mono (Nat.le_max_left f1 f2) e1]
    exact exec_mono (Nat.le_max_right f1 f2) e2
  | failed => exact ⟨f1 + 1, .failed, st1, by simp [exec, step, e1, andThen], l1, u1, fun h => nomatch h⟩
  | goto j => exact ⟨f1 + 1, .goto j, st1, by simp [exec, step, e1, andThen], l1, u1, fun h => nomatch h⟩

theorem Ret.seq {I1 I2 I : Prop} {a b st} (h1 : Ret K E G N I1 a st)
    (h2 : ∀ f st1, exec (parseFun K G) K.eofTok E f a st = some (.ok, st1) → st.pos ≤ st1.pos → st1.pos ≤ N → (st1.pos = st.pos → I1) → Ret K E G N I2 b st1)
    (hI : I1 → I2 → I) : Ret K E G N I (.seq a b) st :=
  h1.seqAt (fun f st1 a b c d => (h2 f st1 a b c d).mono fun h _ => h) hI

theorem Ret.iteAt {I : Prop} {t a b st} (h1 : ∀ j, Ret K E G N I a { st with asked := j }) (h2 : ∀ j, (∃ j, (t.eval E st.pos j).1 = false) → Ret K E G N I b { st with asked := j }) :
    Ret K E G N I (.ite t a b) st := by
  cases hv : (t.eval E st.pos st.asked).1 with
  | true =>
    obtain ⟨f, o, st', e, l, u, i⟩ := h1 (t.eval E st.pos st.asked).2
    exact ⟨f + 1, o, st', by simp [exec, step, hv, e], l, u, i⟩
  | false =>
    obtain ⟨f, o, st', e, l, u, i⟩ := h2 (t.eval E st.pos st.asked).2 ⟨_, hv⟩
    exact ⟨f + 1, o, st', by simp [exec, step, hv, e], l, u, i⟩

theorem Ret.ite {I : Prop} {t a b st} (h1 : ∀ j, Ret K E G N I a { st with asked := j }) (h2 : ∀ j, Ret K E G N I b { st with asked := j }) : Ret K E G N I (.ite t a b) st :=
  .iteAt h1 fun j _ => h2 j

theorem complain_pos {c st} : (complain c st).2.pos = st.pos := by
  unfold complain; dsimp only; split <;> rfl

theorem leave_ne {c} : leave c ≠ .ok := by unfold leave; split <;> simp

theorem Ret.skip {st} (hp : st.pos ≤ N) {I : Prop} (hi : I) : Ret K E G N I .skip st := ⟨1, .ok, st, rfl, Nat.le_refl _, hp, fun _ _ => hi⟩
theorem Ret.code {n st} (hp : st.pos ≤ N) {I : Prop} (hi : I) : Ret K E G N I (.code n) st := ⟨1, .ok, _, rfl, Nat.le_refl _, hp, fun _ _ => hi⟩
theorem Ret.fail {c st} (hp : st.pos ≤ N) {I : Prop} : Ret K E G N I (.fail c) st := ⟨1, _, st, rfl, Nat.le_refl _, hp, fun h => absurd h leave_ne⟩
theorem Ret.eof {st} (hp : st.pos ≤ N) : Ret K E G N True .eof st := by
  by_cases h : E.inp st.pos = K.eofTok
  · exact ⟨1, .ok, st, by simp [exec, step, h], Nat.le_refl _, hp, fun _ _ => trivial⟩
  · exact ⟨1, .failed, st, by simp [exec, step, h], Nat.le_refl _, hp, fun _ _ => trivial⟩

/-- Before the end. -/
theorem before (hN : ∀ p, N ≤ p → E.inp p = K.eofTok) {p : Nat} (h : E.inp p ≠ K.eofTok) : p < N := by
  rcases Nat.lt_or_ge p N with h' | h'
  · exact h'
  · exact absurd (hN p h') h

theorem Ret.tok (hN : ∀ p, N ≤ p → E.inp p = K.eofTok) {t c st} (ht : t ≠ K.eofTok) (hp : st.pos ≤ N) {I : Prop} : Ret K E G N I (.seq (.test t c) .lex) st := by
  by_cases h : E.inp st.pos = t
  · have hlt := before hN (K := K) (p := st.pos) (h ▸ ht)
    exact ⟨2, .ok, st.lex, by simp [exec, step, h, andThen], Nat.le_succ _, hlt, fun _ h => absurd h (Nat.succ_ne_self _)⟩
  · refine ⟨2, (complain c st).1, (complain c st).2, ?_, by rw [complain_pos], by rw [complain_pos]; exact hp, fun h => absurd h leave_ne⟩
    simp only [exec, step, if_neg h]
    have : (complain c st).1 ≠ .ok := leave_ne
    generalize complain c st = x at this
    obtain ⟨o, x⟩ := x
    cases o with
    | ok => exact absurd rfl this
    | failed => rfl
    | goto j => rfl

/-- What can be passed at some token is `Idle`. -/
theorem Stays.idle {t n : Nat} (h : Stays K t n) : Idle K.W n := by
  induction h with
  | zero e => exact .zero e
  | sym e => exact .sym e
  | call e hr e' _ _ ih => exact .call e (by rw [hr]; simp) e' ih
  | cons e _ _ ih ih' => exact .cons e ih ih'
  | altL e _ ih => exact .altL e ih
  | altR e _ _ ih => exact .altR e ih
  | action0 e => exact .action0 e
  | action e _ ih => exact .action e ih
  | cond e _ ih => exact .cond e ih
  | annot e _ ih => exact .annot e ih
  | @tryL n l r e _ ih =>
    cases r with
    | none => exact .recover e
    | some r => exact .tryL e ih
  | tryR e _ ih => exact .tryR e ih
  | recover e => exact .recover e
  | plus e _ ih => exact .plus e ih
  | star e => exact .star e
  | op e _ ih => exact .op e ih
  | inlined0 e => exact .inlined e
  | inlined1 e => exact .inlined e
  | inlined e => exact .inlined e
  | rule e => exact .rule e
  | without e => exact .rule e

/-- Where the test of a loop holds, its body reads a token. -/
theorem loop_reads {n i q j : Nat} (h : ¬ Idle K.W i ∨ Guarded K n i) (hv : ((testOf K n).eval E q j).1 = true) : ¬ Stays K (E.inp q) i := fun hp => by
  rcases h with h | ⟨h1, h2⟩
  · exact h hp.idle
  · refine h2 _ (by_contra fun h3 => ?_) hp
    rw [testOf_false h3 h1] at hv
    cases hv

/-- The alternative is not behind a user condition, and its test holds at `t`. -/
def Sure0 (K : Ctx) (t m : Nat) : Prop := (∀ i, K.W.node m ≠ some (.cond i)) ∧ First K m t

/-- One of the alternatives that may be taken at `t` can be passed. -/
def Falls (K : Ctx) (t : Nat) : List Nat → Prop
  | [] => False
  | m :: ms => Stays K t m ∨ ¬ Sure0 K t m ∧ Falls K t ms

theorem falls_append {t : Nat} : ∀ {a b : List Nat}, Falls K t (a ++ b) → Falls K t a ∨ (∀ m ∈ a, ¬ Sure0 K t m) ∧ Falls K t b
  | [], _, h => .inr ⟨fun _ h => (nomatch h), h⟩
  | m :: a, b, h => by
    rcases h with h | ⟨h1, h2⟩
    · exact .inl (.inl h)
    · rcases falls_append h2 with h | ⟨h3, h4⟩
      · exact .inl (.inr ⟨h1, h⟩)
      · exact .inr ⟨fun x hx => by rcases List.mem_cons.1 hx with rfl | hx; exact h1; exact h3 x hx, h4⟩

theorem flatten_falls {t : Nat} : ∀ {f x : Nat} {a : List Nat}, flatten K.W f x = some a → (Falls K t a → Stays K t x) ∧ ((∀ m ∈ a, ¬ Sure0 K t m) → ¬ Sure K t x)
  | 0, _, _, h => by simp [flatten] at h
  | f + 1, x, a, h => by
    unfold flatten at h
    split at h
    · next l r e =>
      simp only [Option.bind_eq_some_iff, Option.map_eq_some_iff] at h
      obtain ⟨a1, h1, a2, h2, rfl⟩ := h
      obtain ⟨l1, l2⟩ := flatten_falls (t := t) h1
      obtain ⟨r1, r2⟩ := flatten_falls (t := t) h2
      refine ⟨fun h => ?_, fun h hs => ?_⟩
      · rcases falls_append h with h | ⟨h3, h4⟩
        · exact .altL e (l1 h)
        · exact .altR e (l2 h3) (r1 h4)
      · cases hs with
        | here h3 => exact h3 _ _ e
        | altL e' hs => rw [e] at e'; cases e'; exact l2 (fun m hm => h m (List.mem_append_left _ hm)) hs
        | altR e' hs => rw [e] at e'; cases e'; exact r2 (fun m hm => h m (List.mem_append_right _ hm)) hs
    · next hna =>
      cases h
      refine ⟨fun h => ?_, fun h hs => ?_⟩
      · rcases h with h | ⟨-, h⟩
        · exact h
        · exact h.elim
      · cases hs with
        | here _ h3 h4 => exact h x (by simp) ⟨h3, h4⟩
        | altL e' _ => exact hna _ _ e'
        | altR e' _ => exact hna _ _ e'

/-- An alternative that is sure is taken. -/
theorem altTest_sure {m q j : Nat} (h : ((altTest K m).eval E q j).1 = false) : ¬ Sure0 K (E.inp q) m := fun ⟨h1, h2⟩ => by
  have : isCond K.W m = false := by
    unfold isCond
    split
    · next e => exact absurd e (h1 _)
    · rfl
  simp only [altTest, this, Bool.false_eq_true, if_false] at h
  rw [testOf_true (.inl h2)] at h
  cases h

/-- A rule of symbol `s` that may be taken at `t` can be passed. -/
def CallStays (K : Ctx) (t s : Nat) : Prop :=
  ∃ pre r post i, K.W.rules = pre ++ r :: post ∧ K.W.node r = some (.evolve i s) ∧ (∀ r' ∈ post, ¬ SureRule K t s r') ∧ Stays K t i

/-- A rule that is sure is taken. -/
theorem ruleTest_sure {r i s q j : Nat} {t : Test} (hr : K.W.node r = some (.evolve i s)) (ht : ruleTest K r i s = some t) (h : (t.eval E q j).1 = false) : ¬ SureRule K (E.inp q) s r := fun ⟨i', e, h1, h2⟩ => by
  rw [hr] at e
  cases e
  have hc : isCond K.W i = false := by
    unfold isCond
    split
    · next e => exact absurd e (h1 _)
    · rfl
  simp only [ruleTest, Option.map_eq_some_iff, hc, Bool.false_eq_true, if_false] at ht
  obtain ⟨e, -, rfl⟩ := ht
  have ht : ((testOf K r).eval E q j).1 = true := testOf_true (.inl h2)
  cases e with
  | false => simp [ht] at h
  | true =>
    simp only [if_true, Test.eval] at h
    generalize (testOf K r).eval E q j = v at h ht
    obtain ⟨a, b⟩ := v
    cases ht
    simp at h

theorem genRule_test {self g r i s c k : Nat} {t : Test} {b : Stmt} {k' : Nat} (h : genRule K self g r i s c k = some (t, b, k')) : ruleTest K r i s = some t := by
  cases g with
  | zero => simp [genRule] at h
  | succ g =>
    simp only [genRule, Option.bind_eq_some_iff, Option.map_eq_some_iff] at h
    obtain ⟨t', h3, _, _, h4⟩ := h
    cases h4
    exact h3

theorem rulesOf_split {s r : Nat} {done rs : List Nat} (h : rulesOf K.W s = done ++ r :: rs) :
    ∃ pre post, K.W.rules = pre ++ r :: post ∧ ∀ r' ∈ post, (∃ i, K.W.node r' = some (.evolve i s)) → r' ∈ done := by
  unfold rulesOf at h
  have h := congrArg List.reverse h
  simp only [List.reverse_reverse, List.reverse_append, List.reverse_cons, List.append_assoc, List.singleton_append] at h
  obtain ⟨l1, l2, h1, -, h2⟩ := List.filter_eq_append_iff.1 h
  obtain ⟨l3, l4, h3, -, -, h4⟩ := List.filter_eq_cons_iff.1 h2
  refine ⟨l1 ++ l3, l4, by rw [h1, h3, List.append_assoc], fun r' hr' ⟨i, hi⟩ => ?_⟩
  have : r' ∈ done.reverse := by rw [← h4]; exact List.mem_filter.2 ⟨hr', by simp [hi]⟩
  simpa using this

/-- Calls at a position come to an end. -/
def T (K : Ctx) (E : Env) (G N s q : Nat) : Prop := ∀ c st, st.pos = q → q ≤ N → Ret K E G N (CallStays K (E.inp q) s) (.call s c) st

theorem ret_while {t b st} (hb : ∀ st1, st.pos ≤ st1.pos → st1.pos ≤ N → (∃ j, (t.eval E st1.pos j).1 = true) → Ret K E G N False b st1) (hp : st.pos ≤ N) : Ret K E G N (∃ j, (t.eval E st.pos j).1 = false) (.while t b) st := by
  have : ∀ m, ∀ st1 : State, st.pos ≤ st1.pos → st1.pos ≤ N → N - st1.pos = m → Ret K E G N (∃ j, (t.eval E st1.pos j).1 = false) (.while t b) st1 := by
    intro m
    induction m using Nat.strongRecOn with
    | ind m ih =>
      intro st1 l1 u1 hm
      cases hv : (t.eval E st1.pos st1.asked).1 with
      | false => exact ⟨1, .ok, { st1 with asked := (t.eval E st1.pos st1.asked).2 }, by simp [exec, step, hv], Nat.le_refl _, u1, fun _ _ => ⟨_, hv⟩⟩
      | true =>
        obtain ⟨f1, o, st2, e1, l2, u2, i1⟩ := hb { st1 with asked := (t.eval E st1.pos st1.asked).2 } l1 u1 ⟨_, hv⟩
        have l2' : st1.pos ≤ st2.pos := l2
        cases o with
        | ok =>
          have hne : st2.pos ≠ st1.pos := i1 rfl
          obtain ⟨f2, o2, st3, e2, l3, u3, -⟩ := ih (N - st2.pos) (by omega) st2 (by omega) u2 rfl
          refine ⟨max f1 f2 + 1, o2, st3, ?_, by omega, u3, fun _ h => absurd h (by omega)⟩
          show step _ _ _ _ _ _ = _
          simp only [step, hv, if_true]
          rw [exec_mono (Nat.le_max_left f1 f2) e1]
          exact exec_mono (Nat.le_max_right f1 f2) e2
        | failed => exact ⟨f1 + 1, .failed, st2, by simp [exec, step, hv, e1, andThen], l2, u2, fun h => nomatch h⟩
        | goto j => exact ⟨f1 + 1, .goto j, st2, by simp [exec, step, hv, e1, andThen], l2, u2, fun h => nomatch h⟩
  exact this _ st (Nat.le_refl _) hp rfl

theorem ret_do {t b st} {I : Nat → Prop} (hb : ∀ st1, st.pos ≤ st1.pos → st1.pos ≤ N → Ret K E G N (I st1.pos) b st1) (ht : ∀ q j, I q → (t.eval E q j).1 = false) (hp : st.pos ≤ N) :
    Ret K E G N (I st.pos) (.doWhile b t) st := by
  have : ∀ m, ∀ st1 : State, st.pos ≤ st1.pos → st1.pos ≤ N → N - st1.pos = m → Ret K E G N (I st1.pos) (.doWhile b t) st1 := by
    intro m
    induction m using Nat.strongRecOn with
    | ind m ih =>
      intro st1 l1 u1 hm
      obtain ⟨f1, o, st2, e1, l2, u2, i1⟩ := hb st1 l1 u1
      cases o with
      | ok =>
        cases hv : (t.eval E st2.pos st2.asked).1 with
        | false => exact ⟨f1 + 1, .ok, { st2 with asked := (t.eval E st2.pos st2.asked).2 }, by simp [exec, step, e1, andThen, hv], l2, u2, fun _ h => i1 rfl h⟩
        | true =>
          have hne : st2.pos ≠ st1.pos := fun h => by have := ht _ st2.asked (i1 rfl h); rw [← h, hv] at this; cases this
          obtain ⟨f2, o2, st3, e2, l3, u3, -⟩ := ih (N - st2.pos) (by omega) { st2 with asked := (t.eval E st2.pos st2.asked).2 } (Nat.le_trans l1 l2) u2 rfl
          have l3' : st2.pos ≤ st3.pos := l3
          refine ⟨max f1 f2 + 1, o2, st3, ?_, by omega, u3, fun _ h => absurd h (by omega)⟩
          show step _ _ _ _ _ _ = _
          simp only [step]
          rw [exec_mono (Nat.le_max_left f1 f2) e1]
          simp only [andThen, hv, if_true]
          exact exec_mono (Nat.le_max_right f1 f2) e2
      | failed => exact ⟨f1 + 1, .failed, st2, by simp [exec, step, e1, andThen], l2, u2, fun h => nomatch h⟩
      | goto j => exact ⟨f1 + 1, .goto j, st2, by simp [exec, step, e1, andThen], l2, u2, fun h => nomatch h⟩
  exact this _ st (Nat.le_refl _) hp rfl

theorem ret_skipTo (hN : ∀ p, N ≤ p → E.inp p = K.eofTok) {ts st} (hp : st.pos ≤ N) : Ret K E G N True (.skipTo ts) st := by
  have : ∀ m, ∀ st1 : State, st1.pos ≤ N → N - st1.pos = m → Ret K E G N True (.skipTo ts) st1 := by
    intro m
    induction m using Nat.strongRecOn with
    | ind m ih =>
      intro st1 u1 hm
      by_cases h : E.inp st1.pos = K.eofTok ∨ E.inp st1.pos ∈ ts
      · exact ⟨1, .ok, st1, by simp [exec, step, h], Nat.le_refl _, u1, fun _ _ => trivial⟩
      · have hlt := before hN (K := K) (p := st1.pos) fun h' => h (.inl h')
        obtain ⟨f, o, st2, e, l, u, -⟩ := ih (N - st1.lex.pos) (by simp only [State.lex]; omega) st1.lex hlt rfl
        exact ⟨f + 1, o, st2, by rw [exec]; simp only [step, if_neg h]; exact e, by simp only [State.lex] at l; omega, u, fun _ _ => trivial⟩
  exact this _ st hp rfl

/-- try/recover. -/
theorem ret_recover (hN : ∀ p, N ≤ p → E.inp p = K.eofTok) {id b ts st} (hs : ¬ Stmt.sets id b) {I : Prop}
    (hb : Ret K E G N I b { st with saved := (id, ⟨st.pos, st.user⟩) :: st.saved }) (hp : st.pos ≤ N) :
    Ret K E G N (E.inp st.pos ≠ K.eofTok → I) (.seq (.save id) (.tryc id b .skip (.seq (.restore id) (.seq (.step id) (.skipTo ts))))) st := by
  refine Ret.seq (I1 := True) (I2 := E.inp st.pos ≠ K.eofTok → I) ⟨1, .ok, _, rfl, Nat.le_refl _, hp, fun _ _ => trivial⟩ (fun f st1 e1 _ _ _ => ?_) fun _ h => h
  have : st1 = { st with saved := (id, ⟨st.pos, st.user⟩) :: st.saved } := by
    cases f with
    | zero => simp [exec] at e1
    | succ f => simp [exec, step] at e1; exact e1.symm
  subst this
  obtain ⟨f1, o, st2, e2, l2, u2, i2⟩ := hb
  have l2' : st.pos ≤ st2.pos := l2
  have hk : lookup id st2.saved = some ⟨st.pos, st.user⟩ := (exec_keeps hs e2).1.trans lookup_cons_eq
  cases o with
  | ok => exact ⟨f1 + 1, .ok, st2, by cases f1 <;> simp_all [exec, step], l2, u2, fun _ h _ => i2 rfl h⟩
  | failed => exact ⟨f1 + 1, .failed, st2, by simp [exec, step, e2], l2, u2, fun h => nomatch h⟩
  | goto j =>
    by_cases hj : j = id
    · have h1 : Ret K E G N (st2.pos = st.pos → E.inp st.pos = K.eofTok) (.seq (.restore id) (.seq (.step id) (.skipTo ts))) st2 := by
        refine Ret.seq (I1 := True) (I2 := st2.pos = st.pos → E.inp st.pos = K.eofTok) ⟨1, .ok, { st2 with user := st.user }, by simp [exec, step, hk], Nat.le_refl _, u2, fun _ _ => trivial⟩ (fun f st3 e3 _ _ _ => ?_) fun _ h => h
        have : st3 = { st2 with user := st.user } := by
          cases f with
          | zero => simp [exec] at e3
          | succ f => simp [exec, step, hk] at e3; exact e3.symm
        subst this
        refine Ret.seq (I1 := st2.pos = st.pos → E.inp st.pos = K.eofTok) (I2 := True) ?_ (fun f st4 e4 _ u4 _ => ret_skipTo hN u4) fun h _ => h
        by_cases hc : st.pos = st2.pos ∧ E.inp st2.pos ≠ K.eofTok
        · exact ⟨1, .ok, { st2 with user := st.user, recovered := st2.recovered + 1, pos := st2.pos + 1 }, by simp only [exec, step, hk, Option.map_some]; rw [if_pos hc]; rfl, Nat.le_succ _, before hN hc.2, fun _ h => absurd h (by show st2.pos + 1 ≠ st2.pos; omega)⟩
        · exact ⟨1, .ok, { st2 with user := st.user, recovered := st2.recovered + 1 }, by simp only [exec, step, hk, Option.map_some]; rw [if_neg hc], Nat.le_refl _, u2, fun _ _ h => by_contra fun h' => hc ⟨h.symm, h ▸ h'⟩⟩
      obtain ⟨f2, o2, st3, e3, l3, u3, i3⟩ := h1
      refine ⟨max f1 f2 + 1, o2, st3, ?_, Nat.le_trans l2 l3, u3, fun ho (h : st3.pos = st.pos) h' => absurd (i3 ho (by omega) (by omega)) h'⟩
      show step _ _ _ _ _ _ = _
      simp only [step]
      rw [exec_mono (Nat.le_max_left f1 f2) e2]
      simp only [Option.bind_some, hj, if_true]
      exact exec_mono (Nat.le_max_right f1 f2) e3
    · exact ⟨f1 + 1, .goto j, st2, by simp [exec, step, e2, hj], l2, u2, fun h => nomatch h⟩

/-- try/rollback. -/
theorem ret_rollback {id b h st} (hs : ¬ Stmt.sets id b) {I1 I2 I : Prop}
    (hb : ∀ st1, st1.pos = st.pos → Ret K E G N I1 b st1) (hh : ∀ st1, st1.pos = st.pos → Ret K E G N I2 h st1) (hp : st.pos ≤ N) (h1 : I1 → I) (h2 : I2 → I) :
    Ret K E G N I (.seq (.block id) (.seq (.save id) (.tryc id b (.unblock id) (.seq (.restore id) (.seq (.unblock id) (.seq (.rewind id) h)))))) st := by
  refine Ret.seq (I1 := True) (I2 := I) ⟨1, .ok, _, rfl, Nat.le_refl _, hp, fun _ _ => trivial⟩ (fun f st1 e1 _ _ _ => ?_) fun _ h => h
  have : st1 = { st with blocks := (id, st.blocked) :: st.blocks, blocked := true } := by
    cases f with
    | zero => simp [exec] at e1
    | succ f => simp [exec, step] at e1; exact e1.symm
  have p1 : st1.pos = st.pos := by rw [this]
  have b1 : lookup id st1.blocks = some st.blocked := by rw [this]; exact lookup_cons_eq
  clear e1 this
  refine Ret.seq (I1 := True) (I2 := I) ⟨1, .ok, _, rfl, Nat.le_refl _, by rw [← p1] at hp; exact hp, fun _ _ => trivial⟩ (fun f st2 e1 _ _ _ => ?_) fun _ h => h
  have : st2 = { st1 with saved := (id, ⟨st1.pos, st1.user⟩) :: st1.saved } := by
    cases f with
    | zero => simp [exec] at e1
    | succ f => simp [exec, step] at e1; exact e1.symm
  have p2 : st2.pos = st.pos := by rw [this]; exact p1
  have b2 : lookup id st2.blocks = some st.blocked := by rw [this]; exact b1
  have s2 : lookup id st2.saved = some ⟨st.pos, st1.user⟩ := by rw [this, ← p1]; exact lookup_cons_eq
  clear e1 this
  obtain ⟨f1, o, st3, e3, l3, u3, i3⟩ := hb st2 p2
  have k := exec_keeps hs e3
  have s3 := k.1.trans s2
  have b3 := k.2.trans b2
  cases o with
  | ok =>
    refine ⟨f1 + 1, .ok, { st3 with blocked := st.blocked }, ?_, l3, u3, fun _ h => h1 (i3 rfl h)⟩
    cases f1 with
    | zero => simp [exec] at e3
    | succ f1 =>
      show step _ _ _ _ _ _ = _
      simp only [step]
      rw [e3]
      simp [exec, step, b3]
  | failed => exact ⟨f1 + 1, .failed, st3, by simp [exec, step, e3], l3, u3, fun h => nomatch h⟩
  | goto j =>
    by_cases hj : j = id
    · obtain ⟨f2, o2, st4, e4, l4, u4, i4⟩ := hh { st3 with user := st1.user, blocked := st.blocked, pos := st.pos } rfl
      have l4' : st.pos ≤ st4.pos := l4
      refine ⟨max f1 (f2 + 3) + 1, o2, st4, ?_, by omega, u4, fun ho he => h2 (i4 ho (by rw [he, p2]))⟩
      show step _ _ _ _ _ _ = _
      simp only [step]
      rw [exec_mono (Nat.le_max_left f1 (f2 + 3)) e3]
      simp only [Option.bind_some, hj, if_true]
      refine exec_mono (Nat.le_max_right f1 (f2 + 3)) ?_
      cases f2 with
      | zero => simp [exec] at e4
      | succ f2 =>
        rw [exec]
        simp only [step]
        rw [show exec (parseFun K G) K.eofTok E (f2 + 1 + 2) (.restore id) st3 = some (.ok, { st3 with user := st1.user }) by simp [exec, step, s3]]
        simp only [andThen]
        rw [exec]
        simp only [step]
        rw [show exec (parseFun K G) K.eofTok E (f2 + 1 + 1) (.unblock id) { st3 with user := st1.user } = some (.ok, { st3 with user := st1.user, blocked := st.blocked }) by simp [exec, step, b3]]
        simp only [andThen]
        rw [exec]
        simp only [step]
        rw [show exec (parseFun K G) K.eofTok E (f2 + 1) (.rewind id) { st3 with user := st1.user, blocked := st.blocked } =
          some (.ok, { st3 with user := st1.user, blocked := st.blocked, pos := st.pos }) by simp [exec, step, s3]]
        exact e4
    · exact ⟨f1 + 1, .goto j, st3, by simp [exec, step, e3, hj], l3, u3, fun h => nomatch h⟩


/-! ### Operators -/

theorem closes_pos {r st} : (closes E r st).2.pos = st.pos := by
  unfold closes
  split
  · split <;> rfl
  · rfl

/-- The rows have the right kinds and no `EOF`. -/
structure RowsOk (K : Ctx) (d : OpDesc) : Prop where
  after : ∀ r ∈ d.after, (r.kind = .post ∨ r.kind = .bin ∨ r.kind = .tern ∧ r.tok2 ≠ K.eofTok) ∧ r.tok ≠ K.eofTok
  before : ∀ r ∈ d.before, (r.kind = .pre ∨ r.kind = .paren ∧ r.tok2 ≠ K.eofTok) ∧ r.tok ≠ K.eofTok

theorem ret_call_close (hN : ∀ p, N ≤ p → E.inp p = K.eofTok) {p s r st} {e : Bool} {l : List Nat} {d : OpDesc} (hT : ∀ q s, p < q → T K E G N s q) (h2 : r.tok2 ≠ K.eofTok) (hp : p < st.pos) (hu : st.pos ≤ N)
    (hl : ∀ st1 : State, st.pos < st1.pos → st1.pos ≤ N → Ret K E G N True (.opLoop d e l) st1) :
    ∃ f o st', andThen (exec (parseFun K G) K.eofTok E f (.call s 0) st) (fun st => if (closes E r st).1 = true then exec (parseFun K G) K.eofTok E f (.opLoop d e l) (closes E r st).2.lex
      else some (.failed, (closes E r st).2)) = some (o, st') ∧ st.pos ≤ st'.pos ∧ st'.pos ≤ N := by
  obtain ⟨f1, o, st1, e1, l1, u1, -⟩ := hT st.pos s hp 0 st rfl hu
  cases o with
  | ok =>
    by_cases hc : (closes E r st1).1 = true
    · obtain ⟨c1, c2⟩ := closes_true hc
      have hlt := before hN (K := K) (p := st1.pos) (c1 ▸ h2)
      obtain ⟨f2, o2, st2, e2, l2, u2, -⟩ := hl (closes E r st1).2.lex (by simp only [State.lex, c2]; omega) (by simp only [State.lex, c2]; omega)
      refine ⟨max f1 f2, o2, st2, ?_, by simp only [State.lex, c2] at l2; omega, u2⟩
      rw [exec_mono (Nat.le_max_left f1 f2) e1]
      simp only [andThen, hc, if_true]
      exact exec_mono (Nat.le_max_right f1 f2) e2
    · refine ⟨f1, .failed, (closes E r st1).2, ?_, by rw [closes_pos]; exact l1, by rw [closes_pos]; exact u1⟩
      rw [e1]
      simp only [andThen, if_neg hc]
  | failed => exact ⟨f1, .failed, st1, by rw [e1]; rfl, l1, u1⟩
  | goto j => exact ⟨f1, .goto j, st1, by rw [e1]; rfl, l1, u1⟩

theorem ret_op (hN : ∀ p, N ≤ p → E.inp p = K.eofTok) {p : Nat} {d : OpDesc} (hd : RowsOk K d) (hT : ∀ q s, p < q → T K E G N s q) (hb : T K E G N d.base p) :
    ∀ m (e : Bool) (l : List Nat) (st : State), p ≤ st.pos → st.pos ≤ N → 2 * (N - st.pos) + (if e then 0 else 1) = m →
      Ret K E G N (e = true ∨ CallStays K (E.inp st.pos) d.base) (.opLoop d e l) st := by
  intro m
  induction m using Nat.strongRecOn with
  | ind m ih =>
  intro e l st hp hu hm
  cases e with
  | true =>
    simp only [if_true] at hm
    cases hv : (pick E (E.inp st.pos) d.after st.asked).1 with
    | none => exact ⟨1, .ok, { st with asked := (pick E (E.inp st.pos) d.after st.asked).2 }, by simp [exec, step, hv], Nat.le_refl _, hu, fun _ _ => .inl rfl⟩
    | some r =>
      obtain ⟨hr, ht⟩ := pick_some hv
      obtain ⟨hk, hn⟩ := hd.after r hr
      have hlt := before hN (K := K) (p := st.pos) (ht ▸ hn)
      rcases hk with hk | hk | ⟨hk, h2⟩
      · obtain ⟨f, o, st', e1, l1, u1, -⟩ := ih (2 * (N - (st.pos + 1)) + 0) (by omega) true (settled r.prio r.left operand l)
          ({ st with asked := (pick E (E.inp st.pos) d.after st.asked).2 } : State).lex (by simp only [State.lex]; omega) (by simp only [State.lex]; omega) (by simp [State.lex])
        exact ⟨f + 1, o, st', by simp only [exec, step, hv, hk]; exact e1, by simp only [State.lex] at l1; omega, u1, fun _ _ => .inl rfl⟩
      · obtain ⟨f, o, st', e1, l1, u1, -⟩ := ih (2 * (N - (st.pos + 1)) + 1) (by omega) false (settled r.prio r.left r.prio l)
          ({ st with asked := (pick E (E.inp st.pos) d.after st.asked).2 } : State).lex (by simp only [State.lex]; omega) (by simp only [State.lex]; omega) (by simp [State.lex])
        exact ⟨f + 1, o, st', by simp only [exec, step, hv, hk]; exact e1, by simp only [State.lex] at l1; omega, u1, fun _ _ => .inl rfl⟩
      · cases hs : settle r.prio r.left l with
        | some ps =>
          obtain ⟨f, o, st', e1, l1, u1, -⟩ := ih (2 * (N - (st.pos + 1)) + 1) (by omega) false (r.prio :: ps)
            ({ st with asked := (pick E (E.inp st.pos) d.after st.asked).2 } : State).lex (by simp only [State.lex]; omega) (by simp only [State.lex]; omega) (by simp [State.lex])
          exact ⟨f + 1, o, st', by simp only [exec, step, hv, hk, hs]; exact e1, by simp only [State.lex] at l1; omega, u1, fun _ _ => .inl rfl⟩
        | none =>
          obtain ⟨f, o, st', e1, l1, u1⟩ := ret_call_close hN (s := d.self) (r := r) (e := false) (l := [r.prio]) (d := d) hT h2
            (st := ({ st with asked := (pick E (E.inp st.pos) d.after st.asked).2 } : State).lex) (by simp only [State.lex]; omega) (by simp only [State.lex]; omega)
            fun st1 a b => (ih (2 * (N - st1.pos) + 1) (by simp only [State.lex] at a; omega) false [r.prio] st1 (by simp only [State.lex] at a; omega) b (by simp)).mono fun _ => trivial
          exact ⟨f + 1, o, st', by simp only [exec, step, hv, hk, hs]; exact e1, by simp only [State.lex] at l1; omega, u1, fun _ _ => .inl rfl⟩
  | false =>
    simp only [Bool.false_eq_true, if_false] at hm
    cases hv : (pick E (E.inp st.pos) d.before st.asked).1 with
    | some r =>
      obtain ⟨hr, ht⟩ := pick_some hv
      obtain ⟨hk, hn⟩ := hd.before r hr
      have hlt := before hN (K := K) (p := st.pos) (ht ▸ hn)
      rcases hk with hk | ⟨hk, h2⟩
      · obtain ⟨f, o, st', e1, l1, u1, -⟩ := ih (2 * (N - (st.pos + 1)) + 1) (by omega) false (r.prio :: l)
          ({ st with asked := (pick E (E.inp st.pos) d.before st.asked).2 } : State).lex (by simp only [State.lex]; omega) (by simp only [State.lex]; omega) (by simp [State.lex])
        exact ⟨f + 1, o, st', by simp only [exec, step, hv, hk]; exact e1, by simp only [State.lex] at l1; omega, u1, fun _ h => by simp only [State.lex] at l1; omega⟩
      · cases hw : (d.selfTest.eval E (st.pos + 1) (pick E (E.inp st.pos) d.before st.asked).2).1 with
        | false =>
          exact ⟨1, .failed, { st with pos := st.pos + 1, asked := (d.selfTest.eval E (st.pos + 1) (pick E (E.inp st.pos) d.before st.asked).2).2 },
            by simp [exec, step, hv, hk, State.lex, hw], Nat.le_succ _, hlt, fun h => nomatch h⟩
        | true =>
          obtain ⟨f, o, st', e1, l1, u1⟩ := ret_call_close hN (s := d.self) (r := r) (e := true) (l := operand :: l) (d := d) hT h2
            (st := { st with pos := st.pos + 1, asked := (d.selfTest.eval E (st.pos + 1) (pick E (E.inp st.pos) d.before st.asked).2).2 }) (by show p < st.pos + 1; omega) hlt
            fun st1 a b => (ih (2 * (N - st1.pos) + 0) (by have : st.pos + 1 < st1.pos := a; omega) true (operand :: l) st1 (by have : st.pos + 1 < st1.pos := a; omega) b (by simp)).mono fun _ => trivial
          have l1' : st.pos + 1 ≤ st'.pos := l1
          exact ⟨f + 1, o, st', by simp only [exec, step, hv, hk, State.lex, hw, if_true]; exact e1, by omega, u1, fun _ h => by omega⟩
    | none =>
      cases hw : (d.baseTest.eval E st.pos (pick E (E.inp st.pos) d.before st.asked).2).1 with
      | false => exact ⟨1, .failed, { st with asked := (d.baseTest.eval E st.pos (pick E (E.inp st.pos) d.before st.asked).2).2, errors := st.errors + 1 },
          by simp [exec, step, hv, hw], Nat.le_refl _, hu, fun h => nomatch h⟩
      | true =>
        have hbt : T K E G N d.base st.pos := by
          rcases Nat.lt_or_ge p st.pos with h | h
          · exact hT _ _ h
          · rw [show st.pos = p by omega]; exact hb
        obtain ⟨f1, o, st1, e1, l1, u1, i1⟩ := hbt 0 { st with asked := (d.baseTest.eval E st.pos (pick E (E.inp st.pos) d.before st.asked).2).2 } rfl hu
        have l1' : st.pos ≤ st1.pos := l1
        cases o with
        | ok =>
          obtain ⟨f2, o2, st2, e2, l2, u2, -⟩ := ih (2 * (N - st1.pos) + 0) (by omega) true (operand :: l) st1 (by omega) u1 (by simp)
          refine ⟨max f1 f2 + 1, o2, st2, ?_, by omega, u2, fun _ h => .inr (i1 rfl (by show st1.pos = st.pos; omega))⟩
          show step _ _ _ _ _ _ = _
          simp only [step, hv, hw, if_true]
          rw [exec_mono (Nat.le_max_left f1 f2) e1]
          exact exec_mono (Nat.le_max_right f1 f2) e2
        | failed => exact ⟨f1 + 1, .failed, st1, by simp only [exec, step, hv, hw, if_true]; rw [e1]; rfl, l1, u1, fun h => nomatch h⟩
        | goto j => exact ⟨f1 + 1, .goto j, st1, by simp only [exec, step, hv, hw, if_true]; rw [e1]; rfl, l1, u1, fun h => nomatch h⟩


/-! ### Items -/

theorem rows_ok (hg : Returns K) {self n o d} (hn : Occurs K.W n) (ho : K.W.node n = some (.op o)) (h : opDesc K self n o = some d) : RowsOk K d ∧ ∃ b, K.W.node o.base = some (.nonterm b) ∧ d.base = b := by
  have he := hg.opEof n o hn ho
  simp only [List.mem_append, List.mem_map, not_or, not_exists, not_and] at he
  obtain ⟨⟨⟨⟨⟨⟨e1, e2⟩, e3⟩, e4⟩, e5⟩, e6⟩, e7⟩ := he
  unfold opDesc at h
  split at h
  · cases h
  · simp only [Option.map_eq_some_iff] at h
    obtain ⟨b, hb, rfl⟩ := h
    refine ⟨⟨?_, ?_⟩, b, ?_, rfl⟩
    · intro r hr
      simp only [List.mem_append] at hr
      rcases hr with (hr | hr) | hr
      · obtain ⟨a, b⟩ := mem_rows1 hr
        exact ⟨.inl a, fun h => e2 (h ▸ b)⟩
      · obtain ⟨a, b⟩ := mem_rows1 hr
        exact ⟨.inr (.inl a), fun h => e3 (h ▸ b)⟩
      · obtain ⟨a, b⟩ := mem_rows2 hr
        exact ⟨.inr (.inr ⟨a, fun h => e5 _ b h⟩), fun h => e4 _ b h⟩
    · intro r hr
      simp only [List.mem_append] at hr
      rcases hr with hr | hr
      · obtain ⟨a, b⟩ := mem_rows1 hr
        exact ⟨.inl a, fun h => e1 (h ▸ b)⟩
      · obtain ⟨a, b⟩ := mem_rows2 hr
        exact ⟨.inr ⟨a, fun h => e7 _ b h⟩, fun h => e6 _ b h⟩
    · unfold symOf at hb
      split at hb
      · next h => cases hb; exact h
      · cases hb

theorem T_at {p q s : Nat} (hT : ∀ q s, p < q → T K E G N s q) (hp : p ≤ q) (h : q = p → T K E G N s p) : T K E G N s q := by
  rcases Nat.lt_or_ge p q with h' | h'
  · exact hT _ _ h'
  · have : q = p := by omega
    rw [this]; exact h this

theorem ret_body {r s : Nat} {I : Prop} {b : Stmt} {st : State} (hu : st.pos ≤ N) (hb : ∀ st1 : State, st1.pos = st.pos → Ret K E G N I b st1) :
    Ret K E G N I (.seq (.code r) (if s ∈ K.W.start then .seq b .eof else b)) st := by
  refine Ret.seq (I1 := True) (I2 := I) (.code hu trivial) (fun f st1 e _ u _ => ?_) fun _ h => h
  have hp : st1.pos = st.pos := by
    cases f with
    | zero => simp [exec] at e
    | succ f => simp [exec, step] at e; rw [← e]
  split
  · exact Ret.seq (hb st1 hp) (fun _ _ _ _ u _ => Ret.eof u) fun h _ => h
  · exact hb st1 hp

theorem ret_all (hw : Wf K.W) (hN : ∀ p, N ≤ p → E.inp p = K.eofTok) (hg : Returns K) {p : Nat} (hT : ∀ q s, p < q → T K E G N s q) (self : Nat) (g : Nat) :
    (∀ n c k s k' st, Occurs K.W n → gen K self g n c k = some (s, k') → p ≤ st.pos → st.pos ≤ N → (st.pos = p → ∀ t, Lead K.W n t → T K E G N t p) → Ret K E G N (Stays K (E.inp st.pos) n) s st) ∧
    (∀ ns c k s k' st, (∀ m ∈ ns, Occurs K.W m ∧ (st.pos = p → ∀ t, Lead K.W m t → T K E G N t p)) → genAlts K self g ns c k = some (s, k') → p ≤ st.pos → st.pos ≤ N →
      Ret K E G N (Falls K (E.inp st.pos) ns) s st) ∧
    (∀ r i s' c k t b k' st, Occurs K.W i → genRule K self g r i s' c k = some (t, b, k') → p ≤ st.pos → st.pos ≤ N → (st.pos = p → ∀ t, Lead K.W i t → T K E G N t p) → Ret K E G N (Stays K (E.inp st.pos) i) b st) := by
  induction g with
  | zero => exact ⟨fun _ _ _ _ _ _ _ h => by simp [gen] at h, fun _ _ _ _ _ _ _ h => by simp [genAlts] at h, fun _ _ _ _ _ _ _ _ _ _ h => by simp [genRule] at h⟩
  | succ g ih =>
  obtain ⟨ihN, ihA, ihR⟩ := ih
  refine ⟨?_, ?_, ?_⟩
  · intro n c k s k' st hn h hp hu hl
    unfold gen at h
    split at h
    · cases h
    · next e => cases h; exact .skip hu (.zero e)
    · next e => cases h; exact .skip hu (.sym e)
    · next t e =>
      cases h
      exact (T_at hT hp (fun h => hl h _ (.call e)) c st rfl hu).mono fun ⟨_, _, _, _, h1, h2, h3, h4⟩ => .call e h1 h2 h3 h4
    · next e =>
      cases h
      exact .tok hN (fun h => hg.eof (h ▸ hn)) hu
    · next i e =>
      simp only [Option.map_eq_some_iff] at h
      obtain ⟨⟨b, k1⟩, hb, h⟩ := h
      cases h
      refine (ret_do (I := fun q => Stays K (E.inp q) i) (fun st1 a u => ?_) (fun q j hq => ?_) hu).mono (.plus e)
      · exact ihN i c k b _ st1 (.part hn (.plus e)) hb (by omega) u fun h t ht => hl (by omega) t (.plus e ht)
      · exact Bool.eq_false_iff.2 fun hv => loop_reads (hg.plus n i hn e) hv hq
    · next i e =>
      simp only [Option.map_eq_some_iff] at h
      obtain ⟨⟨b, k1⟩, hb, h⟩ := h
      cases h
      refine (ret_while (fun st1 a u ⟨j, hv⟩ => ?_) hu).mono fun ⟨j, hj⟩ => .star e fun hf => by rw [testOf_true (.inl hf)] at hj; cases hj
      exact (ihN i c k b _ st1 (.part hn (.star e)) hb (by omega) u fun h t ht => hl (by omega) t (.star e ht)).mono (loop_reads (hg.star n i hn e) hv)
    · next e => cases h; exact .code hu (.action0 e)
    · next i e =>
      simp only [Option.map_eq_some_iff] at h
      obtain ⟨⟨b, k1⟩, hb, h⟩ := h
      cases h
      exact Ret.seq (ihN i c k b _ st (.part hn (.action e)) hb hp hu fun h t ht => hl h t (.action e ht)) (fun _ _ _ _ u _ => Ret.code u trivial) fun h _ => .action e h
    · next i e => exact (ihN i c k s _ st (.part hn (.cond e)) h hp hu fun h t ht => hl h t (.cond e ht)).mono (.cond e)
    · next i e => exact (ihN i c k s _ st (.part hn (.annot e)) h hp hu fun h t ht => hl h t (.annot e ht)).mono (.annot e)
    · next l r e =>
      simp only [Option.bind_eq_some_iff] at h
      obtain ⟨a, ha, b, hb, h⟩ := h
      refine (ihA _ c k s _ st (fun m hm => ?_) h hp hu).mono fun hf => ?_
      · have hQ : ∀ x l r, (Occurs K.W x ∧ (st.pos = p → ∀ t, Lead K.W x t → T K E G N t p)) → K.W.node x = some (.alt l r) →
            (Occurs K.W l ∧ (st.pos = p → ∀ t, Lead K.W l t → T K E G N t p)) ∧ (Occurs K.W r ∧ (st.pos = p → ∀ t, Lead K.W r t → T K E G N t p)) :=
          fun x l r ⟨h1, h3⟩ hx => ⟨⟨.part h1 (.altL hx), fun h t ht => h3 h t (.altL hx ht)⟩, .part h1 (.altR hx), fun h t ht => h3 h t (.altR hx ht)⟩
        have := hQ n l r ⟨hn, hl⟩ e
        rcases List.mem_append.1 hm with hm | hm
        · exact (flatten_mem (Q := fun x => Occurs K.W x ∧ (st.pos = p → ∀ t, Lead K.W x t → T K E G N t p)) hQ ha this.1 hm).1
        · exact (flatten_mem (Q := fun x => Occurs K.W x ∧ (st.pos = p → ∀ t, Lead K.W x t → T K E G N t p)) hQ hb this.2 hm).1
      · rcases falls_append hf with hf | ⟨h1, h2⟩
        · exact .altL e ((flatten_falls ha).1 hf)
        · exact .altR e ((flatten_falls ha).2 h1) ((flatten_falls hb).1 h2)
    · next l r e =>
      simp only [Option.bind_eq_some_iff, Option.map_eq_some_iff] at h
      obtain ⟨⟨a, k1⟩, ha, ⟨b, k2⟩, hb, h⟩ := h
      cases h
      exact Ret.seqAt (ihN l c k a _ st (.part hn (.consL e)) ha hp hu fun h t ht => hl h t (.consL e ht))
        (fun _ st1 _ l1 u1 i1 => (ihN r c k1 b _ st1 (.part hn (.consR e)) hb (by omega) u1 fun h t ht => hl (by omega) t (.consR e (i1 (by omega)).idle ht)).mono fun h h' => h' ▸ h) (.cons e)
    · next i t e =>
      simp only [Option.map_eq_some_iff] at h
      obtain ⟨⟨x, b, k1⟩, hb, h⟩ := h
      cases h
      exact .iteAt (fun j => (ihR _ i _ c k x b _ { st with asked := j } (.part hn (.evolve e)) hb hp hu fun h t ht => hl h t (.rule e ht)).mono fun h => Stays.rule e h)
        fun j ⟨_, hv⟩ => Ret.skip (st := { st with asked := j }) hu (Stays.without e (ruleTest_sure e (genRule_test hb) hv))
    · next l e =>
      simp only [Option.map_eq_some_iff] at h
      obtain ⟨⟨b, k1⟩, hb, h⟩ := h
      cases h
      exact (ret_recover hN (not_sets_self hb) (ihN l _ _ b _ _ (.part hn (.tryL e)) hb hp hu fun h t ht => hl h t (.tryL e ht)) hu).mono fun h => if hq : E.inp st.pos = K.eofTok then .recover e hq else .tryL e (h hq)
    · next l r e =>
      simp only [Option.bind_eq_some_iff, Option.map_eq_some_iff] at h
      obtain ⟨⟨b, k1⟩, hb, ⟨x, k2⟩, hx, h⟩ := h
      cases h
      exact ret_rollback (not_sets_self hb) (fun st1 h1 => h1 ▸ ihN l _ _ b _ st1 (.part hn (.tryL e)) hb (by omega) (by omega) fun h t ht => hl (by omega) t (.tryL e ht))
        (fun st1 h1 => h1 ▸ ihN r _ _ x _ st1 (.part hn (.tryR e)) hx (by omega) (by omega) fun h t ht => hl (by omega) t (.tryR e ht)) hu (.tryL e) (.tryR e)
    · next o e =>
      simp only [Option.map_eq_some_iff] at h
      obtain ⟨d, hd, h⟩ := h
      cases h
      obtain ⟨h1, b, h2, rfl⟩ := rows_ok hg hn e hd
      have hb : T K E G N d.base st.pos := T_at hT hp fun h => hl h _ (.op e (.call h2))
      refine (ret_op hN (p := st.pos) h1 (fun q s hq => hT q s (by omega)) hb _ false [] st (Nat.le_refl _) hu rfl).mono fun h => ?_
      rcases h with h | ⟨_, _, _, _, g1, g2, g3, g4⟩
      · cases h
      · exact .op e (.call h2 g1 g2 g3 g4)
    · next e => cases h; exact .skip hu (.inlined0 e)
    · next t e =>
      split at h
      · next hr => cases h; exact .skip hu (.inlined1 e hr)
      · next r hr => exact (ihN r c k s _ st (.rule (List.mem_of_find?_eq_some hr)) h hp hu fun h t ht => hl h t (.inlined e hr ht)).mono fun h => .inlined e hr h
  · intro ns c k s k' st hns h hp hu
    cases ns with
    | nil => simp [genAlts] at h; rw [← h.1]; exact .fail hu
    | cons m ms =>
      simp only [genAlts, Option.bind_eq_some_iff, Option.map_eq_some_iff] at h
      obtain ⟨⟨a, k1⟩, ha, ⟨b, k2⟩, hb, h⟩ := h
      cases h
      obtain ⟨h1, h3⟩ := hns m (by simp)
      exact .iteAt (fun j => (ihN m c k a _ { st with asked := j } h1 ha hp hu h3).mono .inl)
        fun j ⟨_, hv⟩ => (ihA ms c k1 b _ { st with asked := j } (fun x hx => hns x (by simp [hx])) hb hp hu).mono fun h => .inr ⟨altTest_sure hv, h⟩
  · intro r i s' c k t b k' st hi h hp hu hl
    simp only [genRule, Option.bind_eq_some_iff, Option.map_eq_some_iff] at h
    obtain ⟨t', -, ⟨b', k1⟩, hb, h⟩ := h
    cases h
    exact ret_body hu fun st1 h1 => h1 ▸ ihN i c k b' _ st1 hi hb (by omega) (by omega) fun h t ht => hl (by omega) t ht

/-! ### Functions -/

theorem ret_rules (hw : Wf K.W) (hN : ∀ p, N ≤ p → E.inp p = K.eofTok) (hg : Returns K) {p : Nat} (hT : ∀ q s, p < q → T K E G N s q) {self : Nat} (hl : ∀ t, Left K.W self t → T K E G N t p) :
    ∀ (rs done : List Nat) (k : Nat) (b : Stmt) (k' : Nat) (st : State), rulesOf K.W self = done ++ rs → (∀ r ∈ done, ¬ SureRule K (E.inp p) self r) → genRules K self G rs k = some (b, k') → st.pos = p → p ≤ N →
      Ret K E G N (CallStays K (E.inp p) self) b st
  | [], _, k, b, k', st, _, _, h, hp, hu => by
    simp [genRules] at h; rw [← h.1]; exact .fail (by omega)
  | r :: rs, done, k, b, k', st, hr, hd, h, hp, hu => by
    obtain ⟨h1, i, h2⟩ := mem_rulesOf.mp (show r ∈ rulesOf K.W self by rw [hr]; simp)
    obtain ⟨pre, post, hs, hpost⟩ := rulesOf_split hr
    unfold genRules at h
    rw [h2] at h
    simp only [Option.bind_eq_some_iff, Option.map_eq_some_iff] at h
    obtain ⟨⟨t, a, k1⟩, ha, ⟨b, k2⟩, hb, h⟩ := h
    cases h
    have hrt := genRule_test ha
    exact .iteAt (fun j => ((ret_all hw hN hg hT self G).2.2 r i _ 0 k t a _ { st with asked := j } (.part (.rule h1) (.evolve h2)) ha (Nat.le_of_eq hp.symm) (by show st.pos ≤ N; omega) fun _ t ht => hl t ⟨r, h1, i, h2, ht⟩).mono fun h => ⟨pre, r, post, i, hs, h2, fun r' hr' hh => hd r' (hpost r' hr' ⟨_, hh.choose_spec.1⟩) hh, hp ▸ h⟩)
      fun j ⟨_, hv⟩ => ret_rules hw hN hg hT hl rs (done ++ [r]) k1 b _ { st with asked := j } (by rw [hr]; simp) (fun x hx => by
        rcases List.mem_append.1 hx with hx | hx
        · exact hd x hx
        · cases List.mem_singleton.1 hx; exact hp ▸ ruleTest_sure h2 hrt hv) hb hp hu

theorem ret_call (hw : Wf K.W) (hN : ∀ p, N ≤ p → E.inp p = K.eofTok) (hg : Returns K) (hP : ∀ s, ∃ b, parseFun K G s = some b) {p : Nat} (hT : ∀ q s, p < q → T K E G N s q) {self : Nat}
    (hl : ∀ t, Left K.W self t → T K E G N t p) : T K E G N self p := by
  intro c st hp hu
  obtain ⟨b, hb⟩ := hP self
  have hb' := hb
  simp only [parseFun, Option.map_eq_some_iff] at hb'
  obtain ⟨⟨b', k'⟩, hr, rfl⟩ := hb'
  obtain ⟨f, o, st', e, l, u, i⟩ := ret_rules hw hN hg hT hl _ [] _ _ _ st.enter rfl (fun _ h => nomatch h) hr hp hu
  refine ⟨f + 1, (returned c st (o, st')).1, (returned c st (o, st')).2, ?_, ?_, ?_, ?_⟩
  · show step _ _ _ _ _ _ = _
    simp only [step, hb, Option.bind_some, e, Option.map_some]
  · cases o <;> simp only [returned, complain_pos] <;> exact l
  · cases o <;> simp only [returned, complain_pos] <;> exact u
  · cases o with
    | ok => exact fun _ h => i rfl h
    | failed => exact fun h => absurd h leave_ne
    | goto j => exact fun h => absurd h leave_ne

theorem lead_bound {n t : Nat} (h : Lead K.W n t) (hw : Wf K.W) : t < K.W.heap.length := by
  induction h with
  | call e =>
    have := hw.symbols _ _ (.inl e)
    exact (List.getElem?_eq_some_iff.1 this).1
  | _ => assumption

theorem left_acc (hw : Wf K.W) (hg : ∀ s, ¬ Relation.TransGen (Left K.W) s s) (s : Nat) : Acc (fun t s => Left K.W s t) s := by
  have wf : WellFounded (fun (a b : Fin K.W.heap.length) => Relation.TransGen (Left K.W) b.1 a.1) := by
    have : IsTrans (Fin K.W.heap.length) (fun a b => Relation.TransGen (Left K.W) b.1 a.1) := ⟨fun a b c h1 h2 => h2.trans h1⟩
    have : Std.Irrefl (fun (a b : Fin K.W.heap.length) => Relation.TransGen (Left K.W) b.1 a.1) := ⟨fun a => hg a.1⟩
    exact Finite.wellFounded_of_trans_of_irrefl _
  have hfin : ∀ a : Fin K.W.heap.length, Acc (fun t s => Left K.W s t) a.1 := by
    intro a
    induction wf.apply a with
    | intro a _ ih =>
      refine .intro _ fun t ht => ?_
      obtain ⟨r, hr, i, h1, h2⟩ := ht
      exact ih ⟨t, lead_bound h2 hw⟩ (.single ⟨r, hr, i, h1, h2⟩)
  refine .intro _ fun t ht => ?_
  obtain ⟨r, hr, i, h1, h2⟩ := ht
  exact hfin ⟨t, lead_bound h2 hw⟩

theorem calls_end (hw : Wf K.W) (hN : ∀ p, N ≤ p → E.inp p = K.eofTok) (hg : Returns K) (hP : ∀ s, ∃ b, parseFun K G s = some b) : ∀ m q s, N + 1 - q = m → T K E G N s q := by
  intro m
  induction m using Nat.strongRecOn with
  | ind m ih =>
    intro q s hm
    have hT : ∀ q' s, q < q' → T K E G N s q' := by
      intro q' s hq
      by_cases h : q' ≤ N
      · exact ih (N + 1 - q') (by omega) q' s rfl
      · exact fun c st _ h' => absurd h' h
    induction left_acc hw hg.left s with
    | intro s _ ihs => exact ret_call hw hN hg hP hT fun t ht => ihs t ht

end

end Verif.Gen
