import Verif.Ops.Heap

/-! # The code does what the algorithm on trees does -/

namespace Verif.Ops

/-- The expression `t` at `v` is the last operand of the open operators; `e` is the position after it. -/
def Ready (h : List Node) (root : Option Nat) (s0 : Int) (fs : List Frame) (st : List (Nat × Nat)) (v : Nat) (t : Tree) (e : Int) (U : List Nat) : Prop :=
  ∃ s G F, Shows h t v s G ∧ Chain h root s0 fs st (some v) s F ∧ U = G ++ F ∧ e = s + t.size

theorem ready_close {h : List Node} {root : Option Nat} {s0 : Int} {f : Frame} {fs : List Frame} {st : List (Nat × Nat)} {v : Nat} {t : Tree} {e : Int} {U : List Nat}
    (hr : Ready h root s0 (f :: fs) st v t e U) (hn : U.Nodup) : ∃ n st' h' U', st = (n, f.op.prio) :: st' ∧ setEnd h n (some v) = some h' ∧ h'.length = h.length ∧
      (∀ i, i ∉ U → h'[i]? = h[i]?) ∧ Ready h' root s0 fs st' n (f.close t) e U' ∧ U'.Perm U := by
  obtain ⟨s, G, F, hs, ⟨n, st', s', G', F', rfl, rfl, rfl, hf, hc⟩, rfl, rfl⟩ := hr
  obtain ⟨m1, m2, m3⟩ := List.nodup_append.1 hn
  obtain ⟨m4, m5, m6⟩ := List.nodup_append.1 m2
  have hp : (G' ++ G).Nodup := List.nodup_append.2 ⟨m4, m1, fun a ha b hb e => m3 b hb a (List.mem_append_left _ ha) e.symm⟩
  obtain ⟨h', e1, e2, e3, e4⟩ := close_frame hf hs hp
  have hnG := frame_mem hf
  refine ⟨n, st', h', (G' ++ G) ++ F', rfl, e1, e2, fun i hi => e3 i ?_, ⟨s', G' ++ G, F', e4, ?_, rfl, ?_⟩, ?_⟩
  · rintro rfl
    exact hi (by simp [hnG])
  · refine chain_mono hc m5 fun i hi => e3 i ?_
    rintro rfl
    exact m6 i hnG i hi rfl
  · rw [size_close]; omega
  · rw [← List.append_assoc]
    exact List.Perm.append_right _ List.perm_append_comm

theorem chain_nil {h : List Node} {root : Option Nat} {s0 : Int} {fs : List Frame} {hole : Option Nat} {e : Int} {F : List Nat} (hc : Chain h root s0 fs [] hole e F) :
    fs = [] := by
  cases fs with
  | nil => rfl
  | cons f fs => obtain ⟨n, st', s, G, F', h1, _⟩ := hc; cases h1

/-- Frames with proper priorities. -/
def SmallF (fs : List Frame) : Prop := ∀ f ∈ fs, f.op.prio < 4294967294

theorem test_iff {M N : Op} (hM : M.prio < 4294967294) (hl : N.left ≤ 1) : N.prio < (M.prio + N.left) % 4294967296 ↔ First M N := by
  unfold First
  rw [Nat.mod_eq_of_lt (by omega)]
  omega

theorem popLoop_spec {N : Op} (hl : N.left ≤ 1) {root : Option Nat} {s0 : Int} {fs : List Frame} :
    ∀ {h : List Node} {st : List (Nat × Nat)} {v : Nat} {t : Tree} {e : Int} {U : List Nat}, Ready h root s0 fs st v t e U → U.Nodup → SmallF fs → st ≠ [] →
    ∃ br h' st' v' U', popLoop N.prio N.left h st (some v) = some (br, h', st', some v') ∧
      Ready h' root s0 (settle N fs t).1 st' v' (settle N fs t).2 e U' ∧ U'.Perm U ∧ h'.length = h.length ∧ (∀ i, i ∉ U → h'[i]? = h[i]?) ∧
      (br = true ↔ (settle N fs t).1 = []) := by
  induction fs with
  | nil =>
    intro h st v t e U hr _ _ hst
    obtain ⟨s, G, F, _, hc, _, _⟩ := hr
    exact absurd hc.1 hst
  | cons f fs ih =>
    intro h st v t e U hr hn hs hst
    obtain ⟨n, st', h', U', rfl, e1, e2, e3, e4, e5⟩ := ready_close hr hn
    have hf := test_iff (N := N) (hs f (by simp)) hl
    unfold popLoop settle
    by_cases hfirst : First f.op N
    · rw [if_pos (hf.2 hfirst), if_pos hfirst, e1]
      cases st' with
      | nil =>
        obtain ⟨s, G, F, g1, g2, g3, g4⟩ := e4
        have hnil := chain_nil g2
        subst hnil
        exact ⟨true, h', [], n, U', rfl, ⟨s, G, F, g1, g2, g3, g4⟩, e5, e2, e3, by simp [settle]⟩
      | cons r rs =>
        obtain ⟨br, h'', st'', v', U'', g1, g2, g3, g4, g5, g6⟩ := ih e4 (e5.nodup_iff.2 hn) (fun g hg => hs g (by simp [hg])) (by simp)
        refine ⟨br, h'', st'', v', U'', g1, g2, g3.trans e5, g4.trans e2, fun i hi => ?_, g6⟩
        rw [g5 i (fun h => hi (e5.mem_iff.1 h)), e3 i hi]
    · rw [if_neg fun h => hfirst (hf.1 h), if_neg hfirst]
      exact ⟨false, h, _, v, U, rfl, hr, .refl _, rfl, fun _ _ => rfl, by simp⟩

/-- The loop from the start: the operand on top is always taken. -/
theorem pop_all {N : Op} (hq : N.prio < 4294967294) (hl : N.left ≤ 1) {root : Option Nat} {s0 : Int} {fs : List Frame} {h : List Node} {st : List (Nat × Nat)} {v : Nat}
    {t : Tree} {e : Int} {U : List Nat} (hr : Ready h root s0 fs st v t e U) (hn : U.Nodup) (hs : SmallF fs) :
    ∃ br h' st' v' U', popLoop N.prio N.left h ((v, operand) :: st) none = some (br, h', st', some v') ∧
      Ready h' root s0 (settle N fs t).1 st' v' (settle N fs t).2 e U' ∧ U'.Perm U ∧ h'.length = h.length ∧ (∀ i, i ∉ U → h'[i]? = h[i]?) ∧
      (br = true ↔ (settle N fs t).1 = []) := by
  have hop : N.prio < (operand + N.left) % 4294967296 := by
    unfold operand
    rw [Nat.mod_eq_of_lt (by omega)]
    omega
  unfold popLoop
  rw [if_pos hop]
  cases st with
  | nil =>
    obtain ⟨s, G, F, g1, g2, g3, g4⟩ := hr
    have hnil := chain_nil g2
    subst hnil
    exact ⟨true, h, [], v, U, rfl, ⟨s, G, F, g1, g2, g3, g4⟩, .refl _, rfl, fun _ _ => rfl, by simp [settle]⟩
  | cons r rs => exact popLoop_spec hl hr hn hs (by simp)

/-- The loop at the end of the function. -/
theorem finish_spec {root : Option Nat} {s0 : Int} {fs : List Frame} : ∀ {h : List Node} {st : List (Nat × Nat)} {v : Nat} {t : Tree} {e : Int} {U : List Nat},
    Ready h root s0 fs st v t e U → U.Nodup → ∃ h' w U', finish h st (some v) = some h' ∧ root = some w ∧ Shows h' (plug fs t) w s0 U' ∧ U'.Perm U ∧
      h'.length = h.length ∧ (∀ i, i ∉ U → h'[i]? = h[i]?) ∧ e = s0 + (plug fs t).size := by
  induction fs with
  | nil =>
    intro h st v t e U hr hn
    obtain ⟨s, G, F, g1, ⟨rfl, g2, rfl, rfl⟩, rfl, rfl⟩ := hr
    exact ⟨h, v, G, rfl, g2.symm, g1, by simp, rfl, fun _ _ => rfl, rfl⟩
  | cons f fs ih =>
    intro h st v t e U hr hn
    obtain ⟨n, st', h', U', rfl, e1, e2, e3, e4, e5⟩ := ready_close hr hn
    obtain ⟨h'', w, U'', g1, g2, g3, g4, g5, g6, g7⟩ := ih e4 (e5.nodup_iff.2 hn)
    refine ⟨h'', w, U'', by simp only [finish, e1, g1], g2, g3, g4.trans e5, g5.trans e2, fun i hi => ?_, g7⟩
    rw [g6 i (fun h => hi (e5.mem_iff.1 h)), e3 i hi]

/-! ### States -/

/-- The nodes of this call: they are new, and the others are as they were. -/
structure Own (h0 h : List Node) (U : List Nat) : Prop where
  nodup : U.Nodup
  range : ∀ i ∈ U, h0.length ≤ i ∧ i < h.length
  len : h0.length ≤ h.length
  old : ∀ i, i < h0.length → h[i]? = h0[i]?

theorem Own.change {h0 h h' : List Node} {U U' : List Nat} (ho : Own h0 h U) (hp : U'.Perm U) (hl : h'.length = h.length) (ha : ∀ i, i ∉ U → h'[i]? = h[i]?) :
    Own h0 h' U' where
  nodup := hp.nodup_iff.2 ho.nodup
  range i hi := hl ▸ ho.range i (hp.mem_iff.1 hi)
  len := hl ▸ ho.len
  old i hi := by
    rw [ha i fun h => by have := ho.range i h; omega]
    exact ho.old i hi

theorem get_append {h : List Node} {x : Node} {i : Nat} (hi : i < h.length) : (h ++ [x])[i]? = h[i]? := List.getElem?_append_left hi

theorem get_last (h : List Node) (x : Node) : (h ++ [x])[h.length]? = some x := by simp

theorem Own.push {h0 h : List Node} {U : List Nat} (ho : Own h0 h U) (x : Node) : Own h0 (h ++ [x]) (h.length :: U) where
  nodup := List.nodup_cons.2 ⟨fun h => by have := ho.range _ h; omega, ho.nodup⟩
  range i hi := by
    rw [List.length_append, List.length_singleton]
    rcases List.mem_cons.1 hi with rfl | hi
    · exact ⟨ho.len, by omega⟩
    · have := ho.range i hi; omega
  len := by rw [List.length_append]; have := ho.len; omega
  old i hi := by
    have := ho.len
    rw [get_append (by omega)]
    exact ho.old i hi

/-- The state after an operator: an operand is wanted. -/
def Open (h0 : List Node) (s0 : Int) (st : St) (fs : List Frame) : Prop := ∃ F, Chain st.heap st.root s0 fs st.stack none st.pos F ∧ Own h0 st.heap F

/-- The state after an operand. -/
def Full (h0 : List Node) (s0 : Int) (st : St) (fs : List Frame) (t : Tree) : Prop :=
  ∃ v st0 U, st.stack = (v, operand) :: st0 ∧ Ready st.heap st.root s0 fs st0 v t st.pos U ∧ Own h0 st.heap U

/-- A postfix, binary or ternary operator: the open operators that get the expression before are closed, the new node has it as first operand and is
the last operand of the others. -/
theorem operator_spec {k : Kind} {o : Op} {st : St} {h0 : List Node} {s0 : Int} {fs : List Frame} {t : Tree} (hs : Full h0 s0 st fs t) (hq : o.prio < 4294967294)
    (hl : o.left ≤ 1) (hsm : SmallF fs) (hpost : k = .post → ∀ f, (settle o fs t).1.head? = some f → ∀ a l m, f ≠ .tern a l m) :
    ∃ br st' w v s G F stk, operator k o st = some (br, st') ∧ st'.stack = (w, if k = .post then operand else o.prio) :: stk ∧
      Chain st'.heap st'.root s0 (settle o fs t).1 stk (some w) s F ∧ Shows st'.heap (settle o fs t).2 v s G ∧
      (∃ x, st'.heap[w]? = some x ∧ x.kind = k ∧ x.op = o ∧ x.first = some v ∧ x.second = none ∧ x.third = none ∧ x.start = s ∧
        (k = .post → x.stop = s + (settle o fs t).2.size)) ∧
      Own h0 st'.heap (w :: (G ++ F)) ∧ st'.pos = st.pos ∧ st.pos = s + (settle o fs t).2.size ∧ (br = true ↔ (settle o fs t).1 = []) ∧
      (br = true → st'.root = some w) := by
  obtain ⟨v, st0, U, e1, e2, e3⟩ := hs
  obtain ⟨br, h', st', v', U', p1, p2, p3, p4, p5, p6⟩ := pop_all hq hl e2 e3.nodup hsm
  have own := e3.change p3 p4 p5
  revert p2 p6 hpost
  rcases hset : settle o fs t with ⟨fs', t'⟩
  dsimp only
  intro hpost p2 p6
  obtain ⟨s, G, F, hsh, hch, rfl, hpos⟩ := p2
  obtain ⟨x, hx, hx1, hx2⟩ := hsh.2
  obtain ⟨m1, m2, m3⟩ := List.nodup_append.1 own.nodup
  have hpsh := own.push (made k o v' x)
  have hG : ∀ i ∈ G, i < h'.length := fun i hi => (own.range i (by simp [hi])).2
  have hF : ∀ i ∈ F, i < h'.length := fun i hi => (own.range i (by simp [hi])).2
  cases fs' with
  | nil =>
    obtain ⟨rfl, _, rfl, rfl⟩ := hch
    have hbr : br = true := p6.2 rfl
    subst hbr
    refine ⟨true, { st with heap := h' ++ [made k o v' x], root := some h'.length, stack := [(h'.length, if k = .post then operand else o.prio)] },
      h'.length, v', s, G, [], [], by simp only [operator, e1, p1, hx], rfl, ⟨rfl, rfl, rfl, rfl⟩, ?_, ?_, by simpa using hpsh, rfl, hpos,
      by simp, fun _ => rfl⟩
    · exact shows_mono hsh m1 fun i hi => get_append (hG i hi)
    · refine ⟨_, get_last _ _, rfl, rfl, rfl, rfl, rfl, hx1, ?_⟩
      rintro rfl
      simp only [made, if_true, hx2]
      omega
  | cons f fs'' =>
    have hbr : br = false := by
      cases br with
      | false => rfl
      | true => exact absurd (p6.1 rfl) (by simp)
    subst hbr
    obtain ⟨m, rest, s', Gf, F', rfl, rfl, rfl, hf, hc⟩ := hch
    obtain ⟨y, hy⟩ := frame_node hf
    obtain ⟨n1, n2, n3⟩ := List.nodup_append.1 m2
    have hm := frame_mem hf
    obtain ⟨z, hz, hfr⟩ : ∃ z, (if k = .post then refPost else refBin) { y with stop := x.stop } h'.length = some z ∧
        FrameAt (h'.set m z) f m s' (some h'.length) Gf := by
      by_cases hk : k = .post
      · rw [if_pos hk]
        exact refPost_frame hf n1 hy (hpost hk f rfl) _ _
      · rw [if_neg hk]
        exact refBin_frame hf n1 hy _ _
    have hset' : (h'.set m z).length = h'.length := by simp
    refine ⟨false, { st with heap := h'.set m z ++ [made k o v' x], stack := (h'.length, if k = .post then operand else o.prio) :: (m, f.op.prio) :: rest },
      h'.length, v', s' + f.width, G, Gf ++ F', (m, f.op.prio) :: rest, by simp only [operator, e1, p1, hx, hy, hz], rfl,
      ⟨m, rest, s', Gf, F', rfl, rfl, rfl, ?_, ?_⟩, ?_, ?_, ?_, rfl, hpos, by simp, by simp⟩
    · exact frame_mono hfr n1 fun i hi => get_append (by rw [hset']; exact hF i (by simp [hi]))
    · refine chain_mono hc n2 fun i hi => ?_
      rw [get_append (by rw [hset']; exact hF i (by simp [hi]))]
      exact get_set_ne fun e => n3 m hm i hi e.symm
    · refine shows_mono hsh m1 fun i hi => ?_
      rw [get_append (by rw [hset']; exact hG i hi)]
      exact get_set_ne fun e => m3 i hi m (by simp [hm]) e
    · refine ⟨made k o v' x, by have := get_last (h'.set m z) (made k o v' x); rw [hset'] at this; exact this, rfl, rfl, rfl, rfl, rfl, hx1, ?_⟩
      rintro rfl
      simp only [made, if_true, hx2]
      omega
    · have own' : Own h0 (h'.set m z) (G ++ (Gf ++ F')) := own.change (.refl _) hset' fun i hi => get_set_ne fun e => hi (by subst e; simp [hm])
      have := own'.push (made k o v' x)
      rw [hset'] at this
      exact this

/-- An operand or a prefix operator is put into the open place. -/
theorem unary_spec {st : St} {s0 : Int} {fs : List Frame} (v p : Nat) {e : Int} {F : List Nat} (hc : Chain st.heap st.root s0 fs st.stack none e F)
    (hn : F.Nodup) : ∃ st', unary st v p = some st' ∧ st'.pos = st.pos ∧ st'.stack = (v, p) :: st.stack ∧ Chain st'.heap st'.root s0 fs st.stack (some v) e F ∧
      st'.heap.length = st.heap.length ∧ ∀ i, i ∉ F → st'.heap[i]? = st.heap[i]? := by
  cases fs with
  | nil =>
    obtain ⟨h1, h2, rfl, rfl⟩ := hc
    refine ⟨{ st with root := some v, stack := [(v, p)] }, by simp only [unary, h1], rfl, by simp [h1], ⟨h1, rfl, rfl, rfl⟩, rfl, fun _ _ => rfl⟩
  | cons f fs =>
    obtain ⟨m, rest, s, G, F', h1, rfl, rfl, hf, hc⟩ := hc
    obtain ⟨m1, m2, m3⟩ := List.nodup_append.1 hn
    obtain ⟨x, hx⟩ := frame_node hf
    obtain ⟨y, hy, hfr⟩ := refUnary_frame hf m1 hx v
    have hm := frame_mem hf
    refine ⟨{ st with heap := st.heap.set m y, stack := (v, p) :: (m, f.op.prio) :: rest }, by simp only [unary, h1, hx, hy], rfl, by simp [h1], ⟨m, rest, s, G, F', h1, rfl, rfl, hfr, ?_⟩, by simp, fun i hi => ?_⟩
    · exact chain_mono hc m2 fun i hi => get_set_ne fun e => m3 m hm i hi e.symm
    · exact get_set_ne fun e => hi (by subst e; simp [hm])

end Verif.Ops
