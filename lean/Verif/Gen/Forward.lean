import Verif.Gen.Sound
import Verif.Grammar.Follow

/-! # Building runs of the generated code (lemmas for C48) -/

namespace Verif.Gen

open Verif.Grammar

theorem reads_append {inp : Nat → Nat} {p : Nat} {α β : List Nat} : Reads inp p (α ++ β) ↔ Reads inp p α ∧ Reads inp (p + α.length) β := by
  induction α generalizing p with
  | nil => simp [Reads]
  | cons t α ih =>
    simp only [List.cons_append, Reads, ih, List.length_cons]
    rw [show p + (α.length + 1) = p + 1 + α.length by omega]
    exact and_assoc.symm

section
variable {K : Ctx} {E : Env} {G : Nat}

/-- A run that ends normally. -/
def Goes (K : Ctx) (E : Env) (G : Nat) (s : Stmt) (st st' : State) : Prop := ∃ f, exec (parseFun K G) K.eofTok E f s st = some (.ok, st')

theorem Goes.skip {st} : Goes K E G .skip st st := ⟨1, rfl⟩

theorem Goes.seq {a b st st1 st2} (h1 : Goes K E G a st st1) (h2 : Goes K E G b st1 st2) : Goes K E G (.seq a b) st st2 := by
  obtain ⟨f1, h1⟩ := h1
  obtain ⟨f2, h2⟩ := h2
  refine ⟨f1 + f2 + 1, ?_⟩
  simp only [exec, step]
  rw [exec_mono (g := f1 + f2) (by omega) h1]
  exact exec_mono (by omega) h2

theorem Goes.test {t c st} (h : E.inp st.pos = t) : Goes K E G (.test t c) st st := ⟨1, by simp [exec, step, h]⟩
theorem Goes.lex {st} : Goes K E G .lex st st.lex := ⟨1, rfl⟩
theorem Goes.code {n st} : Goes K E G (.code n) st { st with user := E.act n st.user } := ⟨1, rfl⟩
theorem Goes.eof {st} (h : E.inp st.pos = K.eofTok) : Goes K E G .eof st st := ⟨1, by simp [exec, step, h]⟩
theorem Goes.save {i st} : Goes K E G (.save i) st { st with saved := (i, ⟨st.pos, st.user⟩) :: st.saved } := ⟨1, rfl⟩
theorem Goes.block {i st} : Goes K E G (.block i) st { st with blocks := (i, st.blocked) :: st.blocks, blocked := true } := ⟨1, rfl⟩

theorem Goes.call {s c b st st'} (hb : parseFun K G s = some b) (h : Goes K E G b st.enter st') : Goes K E G (.call s c) st (st'.back st) := by
  obtain ⟨f, h⟩ := h
  exact ⟨f + 1, by simp [exec, step, hb, h, returned]⟩

theorem Goes.iteT {t a b st st'} (ht : (t.eval E st.pos st.asked).1 = true) (h : Goes K E G a { st with asked := (t.eval E st.pos st.asked).2 } st') :
    Goes K E G (.ite t a b) st st' := by
  obtain ⟨f, h⟩ := h
  exact ⟨f + 1, by simp [exec, step, ht, h]⟩

theorem Goes.iteF {t a b st st'} (ht : (t.eval E st.pos st.asked).1 = false) (h : Goes K E G b { st with asked := (t.eval E st.pos st.asked).2 } st') :
    Goes K E G (.ite t a b) st st' := by
  obtain ⟨f, h⟩ := h
  exact ⟨f + 1, by simp [exec, step, ht, h]⟩

theorem Goes.whileT {t b st st1 st'} (ht : (t.eval E st.pos st.asked).1 = true)
    (h1 : Goes K E G b { st with asked := (t.eval E st.pos st.asked).2 } st1) (h2 : Goes K E G (.while t b) st1 st') :
    Goes K E G (.while t b) st st' := by
  obtain ⟨f1, h1⟩ := h1
  obtain ⟨f2, h2⟩ := h2
  refine ⟨f1 + f2 + 1, ?_⟩
  simp only [exec, step, ht, if_true]
  rw [exec_mono (g := f1 + f2) (by omega) h1]
  exact exec_mono (by omega) h2

theorem Goes.whileF {t b st} (ht : (t.eval E st.pos st.asked).1 = false) :
    Goes K E G (.while t b) st { st with asked := (t.eval E st.pos st.asked).2 } := ⟨1, by simp [exec, step, ht]⟩

theorem Goes.doT {t b st st1 st'} (h1 : Goes K E G b st st1) (ht : (t.eval E st1.pos st1.asked).1 = true)
    (h2 : Goes K E G (.doWhile b t) { st1 with asked := (t.eval E st1.pos st1.asked).2 } st') :
    Goes K E G (.doWhile b t) st st' := by
  obtain ⟨f1, h1⟩ := h1
  obtain ⟨f2, h2⟩ := h2
  refine ⟨f1 + f2 + 1, ?_⟩
  simp only [exec, step]
  rw [exec_mono (g := f1 + f2) (by omega) h1]
  simp only [andThen, ht, if_true]
  exact exec_mono (by omega) h2

theorem Goes.doF {t b st st1} (h1 : Goes K E G b st st1) (ht : (t.eval E st1.pos st1.asked).1 = false) :
    Goes K E G (.doWhile b t) st { st1 with asked := (t.eval E st1.pos st1.asked).2 } := by
  obtain ⟨f1, h1⟩ := h1
  exact ⟨f1 + 1, by simp [exec, step, h1, andThen, ht]⟩

theorem Goes.tryc {i a b h st st1 st2} (h1 : Goes K E G a st st1) (h2 : Goes K E G b st1 st2) : Goes K E G (.tryc i a b h) st st2 := by
  obtain ⟨f1, h1⟩ := h1
  obtain ⟨f2, h2⟩ := h2
  refine ⟨f1 + f2 + 1, ?_⟩
  simp only [exec, step]
  rw [exec_mono (g := f1 + f2) (by omega) h1]
  exact exec_mono (by omega) h2

/-! ### The operator loop -/

/-- A run of the second can be made a run of the first. -/
def Leads (K : Ctx) (E : Env) (G : Nat) (s : Stmt) (st : State) (s' : Stmt) (st' : State) : Prop :=
  ∀ st'', Goes K E G s' st' st'' → Goes K E G s st st''

theorem Leads.trans {a b c : Stmt} {x y z : State} (h1 : Leads K E G a x b y) (h2 : Leads K E G b y c z) : Leads K E G a x c z :=
  fun _ h => h1 _ (h2 _ h)

/-- The operator with the token is found. -/
theorem pick_hit (ho : ∀ k, E.oracle k = true) {t : Nat} : ∀ {rs : List Row} {k r}, (rs.map (·.tok)).Nodup → r ∈ rs → r.tok = t →
    (pick E t rs k).1 = some r
  | [], _, _, _, h, _ => by simp at h
  | x :: rs, k, r, hn, h, ht => by
    simp only [List.map_cons, List.nodup_cons] at hn
    unfold pick
    rcases List.mem_cons.mp h with rfl | h
    · rw [if_pos ht]
      split
      · rw [if_pos (ho k)]
      · rfl
    · have : x.tok ≠ t := by
        rintro rfl
        exact hn.1 (ht ▸ List.mem_map_of_mem h)
      rw [if_neg this]
      exact pick_hit ho hn.2 h ht

theorem pick_miss {t : Nat} : ∀ {rs : List Row} {k}, t ∉ rs.map (·.tok) → pick E t rs k = (none, k)
  | [], _, _ => rfl
  | x :: rs, k, h => by
    simp only [List.map_cons, List.mem_cons, not_or] at h
    unfold pick
    rw [if_neg (Ne.symm h.1)]
    exact pick_miss h.2

theorem rows1_tok (n k ts) : (rows1 K n k ts).map (·.tok) = ts := by
  simp only [rows1]
  apply List.ext_getElem <;> simp

theorem rows2_tok (n k ts) : (rows2 K n k ts).map (·.tok) = ts.map (·.1) := by
  simp only [rows2]
  apply List.ext_getElem <;> simp

theorem rows1_ex (n k) {ts : List Nat} {t : Nat} (h : t ∈ ts) : ∃ r ∈ rows1 K n k ts, r.tok = t ∧ r.kind = k := by
  have : t ∈ (rows1 K n k ts).map (·.tok) := by rw [rows1_tok]; exact h
  obtain ⟨r, hr, e⟩ := List.mem_map.mp this
  exact ⟨r, hr, e, (mem_rows1 hr).1⟩

theorem rows2_ex (n k) {ts : List (Nat × Nat)} {t u : Nat} (h : (t, u) ∈ ts) : ∃ r ∈ rows2 K n k ts, r.tok = t ∧ r.tok2 = u ∧ r.kind = k := by
  obtain ⟨i, hi, e⟩ := List.getElem_of_mem h
  refine ⟨(rows2 K n k ts)[i]'(by simpa [rows2] using hi), List.getElem_mem _, ?_⟩
  simp [rows2, e]

theorem closes_hit (ho : ∀ k, E.oracle k = true) {r : Row} {st : State} (h : E.inp st.pos = r.tok2) :
    (closes E r st).1 = true ∧ (closes E r st).2.pos = st.pos := by
  unfold closes
  rw [if_pos h]
  split
  · exact ⟨ho _, rfl⟩
  · exact ⟨rfl, rfl⟩

variable {d : OpDesc} {l : List Nat} {st : State}

theorem loop_end (h : E.inp st.pos ∉ d.after.map (·.tok)) : Goes K E G (.opLoop d true l) st st :=
  ⟨1, by simp [exec, step, pick_miss h]⟩

theorem loop_post (ho : ∀ k, E.oracle k = true) (hn : (d.after.map (·.tok)).Nodup) {r : Row} (hr : r ∈ d.after) (ht : r.tok = E.inp st.pos)
    (hk : r.kind = .post) : ∃ l' st', Leads K E G (.opLoop d true l) st (.opLoop d true l') st' ∧ st'.pos = st.pos + 1 := by
  refine ⟨settled r.prio r.left operand l, { st with asked := (pick E (E.inp st.pos) d.after st.asked).2 }.lex, ?_, rfl⟩
  rintro st'' ⟨f, h⟩
  refine ⟨f + 1, ?_⟩
  simp only [exec, step, pick_hit ho hn hr ht, hk]
  exact h

theorem loop_bin (ho : ∀ k, E.oracle k = true) (hn : (d.after.map (·.tok)).Nodup) {r : Row} (hr : r ∈ d.after) (ht : r.tok = E.inp st.pos)
    (hk : r.kind = .bin) : ∃ l' st', Leads K E G (.opLoop d true l) st (.opLoop d false l') st' ∧ st'.pos = st.pos + 1 := by
  refine ⟨settled r.prio r.left r.prio l, { st with asked := (pick E (E.inp st.pos) d.after st.asked).2 }.lex, ?_, rfl⟩
  rintro st'' ⟨f, h⟩
  refine ⟨f + 1, ?_⟩
  simp only [exec, step, pick_hit ho hn hr ht, hk]
  exact h

theorem loop_pre (ho : ∀ k, E.oracle k = true) (hn : (d.before.map (·.tok)).Nodup) {r : Row} (hr : r ∈ d.before) (ht : r.tok = E.inp st.pos)
    (hk : r.kind = .pre) : ∃ l' st', Leads K E G (.opLoop d false l) st (.opLoop d false l') st' ∧ st'.pos = st.pos + 1 := by
  refine ⟨r.prio :: l, { st with asked := (pick E (E.inp st.pos) d.before st.asked).2 }.lex, ?_, rfl⟩
  rintro st'' ⟨f, h⟩
  refine ⟨f + 1, ?_⟩
  simp only [exec, step, pick_hit ho hn hr ht, hk]
  exact h

theorem loop_base {q : Nat} (hn : E.inp st.pos ∉ d.before.map (·.tok)) (ht : ∀ k, (d.baseTest.eval E st.pos k).1 = true)
    (h : ∀ st0 : State, st0.pos = st.pos → ∃ st1, Goes K E G (.call d.base 0) st0 st1 ∧ st1.pos = q) :
    ∃ l' st', Leads K E G (.opLoop d false l) st (.opLoop d true l') st' ∧ st'.pos = q := by
  obtain ⟨st1, ⟨f1, h1⟩, hq⟩ := h { st with asked := (d.baseTest.eval E st.pos st.asked).2 } rfl
  refine ⟨operand :: l, st1, ?_, hq⟩
  rintro st'' ⟨f2, h2⟩
  refine ⟨f1 + f2 + 1, ?_⟩
  simp only [exec, step, pick_miss hn, ht, if_true]
  rw [exec_mono (g := f1 + f2) (by omega) h1]
  exact exec_mono (by omega) h2

theorem loop_paren {q : Nat} (ho : ∀ k, E.oracle k = true) (hn : (d.before.map (·.tok)).Nodup) {r : Row} (hr : r ∈ d.before) (ht : r.tok = E.inp st.pos)
    (hk : r.kind = .paren) (hs : ∀ k, (d.selfTest.eval E (st.pos + 1) k).1 = true)
    (h : ∀ st0 : State, st0.pos = st.pos + 1 → ∃ st1, Goes K E G (.call d.self 0) st0 st1 ∧ st1.pos = q) (hc : E.inp q = r.tok2) :
    ∃ l' st', Leads K E G (.opLoop d false l) st (.opLoop d true l') st' ∧ st'.pos = q + 1 := by
  let st0 : State := { st with asked := (pick E (E.inp st.pos) d.before st.asked).2 }
  obtain ⟨st1, ⟨f1, h1⟩, hq⟩ := h { st0.lex with asked := (d.selfTest.eval E st0.lex.pos st0.asked).2 } rfl
  subst hq
  obtain ⟨c1, c2⟩ := closes_hit ho hc
  refine ⟨operand :: l, (closes E r st1).2.lex, ?_, by simp [State.lex, c2]⟩
  rintro st'' ⟨f2, h2⟩
  refine ⟨f1 + f2 + 1, ?_⟩
  have hs' : (d.selfTest.eval E st0.lex.pos st0.asked).1 = true := hs _
  simp only [exec, step, pick_hit ho hn hr ht, hk]
  rw [if_pos hs', exec_mono (g := f1 + f2) (by omega) h1]
  simp only [andThen, c1, if_true]
  exact exec_mono (by omega) h2

end

/-! ### Conditions -/

section
variable {K : Ctx} {E : Env}

theorem ofSet_true {s : List Nat} {p k : Nat} (h : E.inp p ∈ s) (ht : K.W.node (E.inp p) = some .term) : ((ofSet K.W s).eval E p k).1 = true := by
  unfold ofSet
  split
  · rfl
  · simp [Test.eval, List.mem_filter, h, isTerm, ht]

theorem testOf_true {n p k : Nat} (h : First K n (E.inp p) ∨ Silent K n) : ((testOf K n).eval E p k).1 = true := by
  unfold testOf
  unfold First Silent at h
  split
  · next hn =>
    rw [if_pos hn] at h
    rcases h with h | ⟨h, -⟩
    · simp [Test.eval, h]
    · exact absurd hn h
  · next hn =>
    rw [if_neg hn] at h
    rcases h with ⟨ht, h⟩ | ⟨-, h⟩
    · exact ofSet_true (mem_of.mpr h) ht
    · unfold ofSet
      rw [if_pos]
      · rfl
      · simp only [List.all_eq_true, decide_eq_true_eq]
        exact fun x hx => h x (mem_of.mp hx)

theorem testOf_false {n p k : Nat} (h1 : ¬ First K n (E.inp p)) (h2 : ∃ t, First K n t) : ((testOf K n).eval E p k).1 = false := by
  unfold testOf
  unfold First at h1 h2
  split
  · next hn =>
    rw [if_pos hn] at h1
    simp [Test.eval, h1]
  · next hn =>
    simp only [if_neg hn] at h1 h2
    obtain ⟨t, ht, h2⟩ := h2
    unfold ofSet
    rw [if_neg]
    · simp only [Test.eval, decide_eq_false_iff_not, List.mem_filter, not_and]
      intro hm ht'
      refine h1 ⟨?_, mem_of.mp hm⟩
      simpa [isTerm] using ht'
    · simp only [List.all_eq_true, decide_eq_true_eq]
      intro h
      rw [h t (mem_of.mpr h2)] at ht
      cases ht

theorem user_true {t : Test} {p k : Nat} (ho : ∀ k, E.oracle k = true) (h : (t.eval E p k).1 = true) : ((Test.user t).eval E p k).1 = true := by
  unfold Test.eval
  split
  · exact ho _
  · next e => rw [e] at h; cases h

theorem user_false {t : Test} {p k : Nat} (h : (t.eval E p k).1 = false) : ((Test.user t).eval E p k).1 = false := by
  unfold Test.eval
  split
  · next e => rw [e] at h; cases h
  · rfl

theorem or_true {t u : Test} {p k : Nat} (h : (t.eval E p k).1 = true ∨ ∀ k, (u.eval E p k).1 = true) : ((Test.or t u).eval E p k).1 = true := by
  unfold Test.eval
  split
  · rfl
  · next e =>
    rcases h with h | h
    · rw [e] at h; cases h
    · exact h _

theorem or_false {t u : Test} {p k : Nat} (h : (t.eval E p k).1 = false) (h' : ∀ k, (u.eval E p k).1 = false) : ((Test.or t u).eval E p k).1 = false := by
  unfold Test.eval
  split
  · next e => rw [e] at h; cases h
  · exact h' _

end

end Verif.Gen
