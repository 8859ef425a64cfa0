import Verif.Ops.Refine

/-! # The nodes made for an expression -/

namespace Verif.Ops

theorem small_spine {t : Tree} (hs : t.Small) : SmallF t.spine := by
  induction t with
  | base n => intro f hf; cases hf
  | paren t _ => intro f hf; cases hf
  | post o t _ => intro f hf; cases hf
  | pre o t ih =>
    intro f hf
    rcases List.mem_append.1 hf with hf | hf
    · exact ih hs.2 f hf
    · rw [List.mem_singleton] at hf; subst hf; exact hs.1
  | bin o l r _ ih =>
    intro f hf
    rcases List.mem_append.1 hf with hf | hf
    · exact ih hs.2.2.2 f hf
    · rw [List.mem_singleton] at hf; subst hf; exact hs.1
  | tern o l m r _ _ ih =>
    intro f hf
    rcases List.mem_append.1 hf with hf | hf
    · exact ih hs.2.2.2.2 f hf
    · rw [List.mem_singleton] at hf; subst hf; exact hs.1

theorem smallF_append {fs gs : List Frame} (h1 : SmallF fs) (h2 : SmallF gs) : SmallF (fs ++ gs) := by
  intro f hf
  rcases List.mem_append.1 hf with hf | hf
  · exact h1 f hf
  · exact h2 f hf

/-- The end of the function. -/
theorem full_finish {h0 : List Node} {s0 : Int} {st : St} {fs : List Frame} {t : Tree} (hf : Full h0 s0 st fs t) :
    ∃ r w U, st.finish = some r ∧ r.root = some w ∧ r.pos = st.pos ∧ Shows r.heap (plug fs t) w s0 U ∧ Own h0 r.heap U ∧ r.pos = s0 + (plug fs t).size := by
  obtain ⟨v, st0, U, e1, e2, e3⟩ := hf
  obtain ⟨h', w, U', g1, g2, g3, g4, g5, g6, g7⟩ := finish_spec e2 e3.nodup
  refine ⟨{ st with heap := h' }, w, U', ?_, g2, rfl, g3, e3.change g4 g5 g6, g7⟩
  simp [St.finish, e1, finish, setEnd, g1]

/-- An operand that is complete is put into the open place. -/
theorem operand_spec {st st1 : St} {h0 : List Node} {s0 : Int} {fs : List Frame} {F : List Nat} (hc : Chain st.heap st.root s0 fs st.stack none st.pos F)
    (ho : Own h0 st.heap F) {G : List Nat} {v : Nat} {t : Tree} (h1 : st1.root = st.root) (h2 : st1.stack = st.stack)
    (hold : ∀ i, i < st.heap.length → st1.heap[i]? = st.heap[i]?) (hlen : st.heap.length ≤ st1.heap.length) (hG : G.Nodup)
    (hr : ∀ i ∈ G, st.heap.length ≤ i ∧ i < st1.heap.length) (hs : Shows st1.heap t v st.pos G) (hp : st1.pos = st.pos + t.size) :
    ∃ st', unary st1 v operand = some st' ∧ Full h0 s0 st' fs t := by
  have hF : ∀ i ∈ F, i < st.heap.length := fun i hi => (ho.range i hi).2
  have hc1 : Chain st1.heap st1.root s0 fs st1.stack none st.pos F := by
    rw [h1, h2]; exact chain_mono hc ho.nodup fun i hi => hold i (hF i hi)
  obtain ⟨st', e1, e2, e3, e4, e5, e6⟩ := unary_spec v operand hc1 ho.nodup
  have hd : ∀ i ∈ G, i ∉ F := fun i hi hf => by have := hF i hf; have := hr i hi; omega
  refine ⟨st', e1, v, st1.stack, G ++ F, e3, ⟨st.pos, G, F, ?_, e4, rfl, by rw [e2, hp]⟩, ?_⟩
  · exact shows_mono hs hG fun i hi => e6 i (hd i hi)
  · have hl := ho.len
    refine ⟨List.nodup_append.2 ⟨hG, ho.nodup, fun a ha b hb e => hd a ha (e ▸ hb)⟩, fun i hi => ?_, by omega, fun i hi => ?_⟩
    · rcases List.mem_append.1 hi with hi | hi
      · have := hr i hi; omega
      · have := ho.range i hi; omega
    · rw [e6 i fun h => by have := ho.range i h; omega, hold i (by omega)]
      exact ho.old i hi

/-- Reading a proper expression makes its nodes. -/
theorem exec_tree (t : Tree) : ∀ {h0 : List Node} {s0 : Int} {st : St} {fs : List Frame} {k : Run}, t.Ok → Accepts fs t.leftEdge → t.Small → t.Plain →
    (fs ≠ [] → t.leftTern = false) → (∀ o l m, fs.head? = some (.tern o l m) → t.leftPost = false) → SmallF fs → Open h0 s0 st fs →
    ∃ st', exec (t.write k) false st = exec k true st' ∧ Full h0 s0 st' (t.spine ++ fs) t.tip := by
  induction t with
  | base n =>
    intro h0 s0 st fs k _ _ _ _ _ _ _ hop
    obtain ⟨F, hc, ho⟩ := hop
    obtain ⟨st', e1, e2⟩ := operand_spec (t := .base n) (v := st.heap.length) (G := [st.heap.length])
      (st1 := { st with heap := st.heap ++ [{ kind := .base, start := st.pos, stop := st.pos + n - 1 }], pos := st.pos + n })
      hc ho rfl rfl (fun i hi => get_append hi) (by simp) (by simp) (by simp)
      ⟨⟨rfl, _, get_last _ _, rfl⟩, _, get_last _ _, rfl, rfl⟩ rfl
    exact ⟨st', by simp only [Tree.write, exec, e1, Option.bind_some], e2⟩
  | paren t ih =>
    intro h0 s0 st fs k hok _ hsm hpl _ _ _ hop
    obtain ⟨F, hc, ho⟩ := hop
    obtain ⟨si, a1, a2⟩ := ih (h0 := st.heap) (s0 := st.pos + 1) (st := { heap := st.heap, pos := st.pos + 1 }) (fs := []) (k := .stop) hok
      (fun f hf => by cases hf) hsm hpl (fun h => absurd rfl h) (fun _ _ _ h => by cases h) (fun f hf => by cases hf)
      ⟨[], ⟨rfl, rfl, rfl, rfl⟩, by simp, by simp, by simp, fun _ _ => rfl⟩
    obtain ⟨r, w, U, b1, b2, _, b3, b4, b5⟩ := full_finish a2
    rw [List.append_nil, plug_spine] at b3 b5
    obtain ⟨hb, x, hx, hx1, hx2⟩ := b3
    have hw := body_mem hb
    have hwr := b4.range w hw
    have hb' : Body (r.heap.set w { x with start := x.start - 1, stop := x.stop + 1 }) t w (st.pos + 1) U :=
      body_mono hb b4.nodup (fun i _ hi => get_set_ne hi) fun y hy => ⟨{ x with start := x.start - 1, stop := x.stop + 1 }, get_set_self hx, by
        rw [hx] at hy; cases hy; exact ⟨rfl, rfl, rfl, rfl, rfl⟩⟩
    obtain ⟨st', e1, e2⟩ := operand_spec (t := .paren t) (v := w) (G := U)
      (st1 := { st with heap := r.heap.set w { x with start := x.start - 1, stop := x.stop + 1 }, pos := r.pos + 1 })
      hc ho rfl rfl (fun i hi => by
        have hne : i ≠ w := by omega
        show (r.heap.set w _)[i]? = _
        rw [get_set_ne hne]; exact b4.old i hi) (by simpa using b4.len) b4.nodup (fun i hi => by simpa using b4.range i hi)
      ⟨hb', _, get_set_self hx, by show x.start - 1 = _; omega, by
        show x.stop + 1 = _
        simp only [Tree.size]; push_cast; omega⟩ (by
        show r.pos + 1 = _
        simp only [Tree.size]; push_cast; omega)
    refine ⟨st', ?_, e2⟩
    simp only [Tree.write, exec, a1, Option.bind_some, b1, b2, hx, e1]
  | pre o t ih =>
    intro h0 s0 st fs k hok _ hsm hpl _ _ hsf hop
    obtain ⟨F, hc, ho⟩ := hop
    have hF : ∀ i ∈ F, i < st.heap.length := fun i hi => (ho.range i hi).2
    have hc1 : Chain (st.heap ++ [{ kind := .pre, op := o, start := st.pos }]) st.root s0 fs st.stack none st.pos F :=
      chain_mono hc ho.nodup fun i hi => get_append (hF i hi)
    obtain ⟨st', e1, e2, e3, e4, e5, e6⟩ := unary_spec (st := { st with heap := st.heap ++ [{ kind := .pre, op := o, start := st.pos }] }) st.heap.length o.prio
      hc1 ho.nodup
    have hnF : st.heap.length ∉ F := fun h => by have := hF _ h; omega
    have ho' := (ho.push { kind := .pre, op := o, start := st.pos })
    obtain ⟨st2, a1, a2⟩ := ih (h0 := h0) (s0 := s0) (st := st'.lex) (fs := .pre o :: fs) (k := k) hok.1
      (fun f hf N hN => by cases hf; exact hok.2 N hN) hsm.2 hpl.1 (fun _ => hpl.2) (fun _ _ _ h => by cases h)
      (fun f hf => by
        rcases List.mem_cons.1 hf with rfl | hf
        · exact hsm.1
        · exact hsf f hf)
      ⟨st.heap.length :: F, ⟨st.heap.length, st.stack, st.pos, [st.heap.length], F, e3, rfl, by
          show st'.pos + 1 = _
          rw [e2]; rfl, ⟨rfl, _, (e6 _ hnF).trans (get_last _ _), rfl, rfl, rfl, rfl⟩, e4⟩,
        ho'.nodup, fun i hi => by
          have := ho'.range i hi
          show _ ∧ i < st'.heap.length
          rw [e5]; exact this, by
          show h0.length ≤ st'.heap.length
          rw [e5]; exact ho'.len, fun i hi => by
          show st'.heap[i]? = _
          rw [e6 i fun h => by have := ho.range i h; omega]; exact ho'.old i hi⟩
    refine ⟨st2, ?_, ?_⟩
    · simp only [Tree.write, exec, e1, Option.bind_some, a1]
    · simpa [Tree.spine, Tree.tip] using a2
  | post o t ih =>
    intro h0 s0 st fs k hok hac hsm hpl hlt hlp hsf hop
    obtain ⟨st1, a1, a2⟩ := ih (k := .post o k) hok.1 (fun f hf N hN => hac f hf N (by simp [Tree.leftEdge, hN])) hsm.2.2 hpl hlt
      (fun p l m h => by have := hlp p l m h; cases this) hsf hop
    have hset := settle_all (N := o) (gs := t.spine) (fs := fs) (t := t.tip) (fun f hf => hok.2 _ (spine_ops t f hf))
      fun f hf => hac f hf o (by simp [Tree.leftEdge])
    rw [plug_spine] at hset
    obtain ⟨br, st', w, v, s, G, F, stk, b1, b2, b3, b4, ⟨x, x1, x2, x3, x4, _, _, x7, x8⟩, b5, b6, b7, _, _⟩ :=
      operator_spec (k := .post) (o := o) a2 hsm.1 hsm.2.1 (smallF_append (small_spine hsm.2.2) hsf) (by
        rw [hset]
        rintro _ f hf p l m rfl
        have := hlp p l m hf
        cases this)
    rw [hset] at b3 b4 b7 x8
    dsimp only at b3 b4 b7 x8
    have x8 := x8 rfl
    refine ⟨st'.lex, by simp only [Tree.write, a1, exec, b1, Option.bind_some], w, stk, w :: (G ++ F), ?_, ⟨s, w :: G, F, ?_, b3, rfl, ?_⟩, b5⟩
    · rw [St.lex, b2]; rfl
    · exact ⟨⟨v, G, rfl, ⟨x, x1, x2, x3, x4⟩, b4.1, b4.2⟩, x, x1, x7, by
        rw [x8]; simp only [Tree.tip, Tree.size]; push_cast; omega⟩
    · show st'.pos + 1 = _
      simp only [Tree.tip, Tree.size]; push_cast; omega
  | bin o l r ihl ihr =>
    intro h0 s0 st fs k hok hac hsm hpl hlt hlp hsf hop
    obtain ⟨st1, a1, a2⟩ := ihl (k := .bin o (r.write k)) hok.1 (fun f hf N hN => hac f hf N (by simp [Tree.leftEdge, hN])) hsm.2.2.1 hpl.1 hlt hlp hsf hop
    have hset := settle_all (N := o) (gs := l.spine) (fs := fs) (t := l.tip) (fun f hf => hok.2.2.1 _ (spine_ops l f hf))
      fun f hf => hac f hf o (by simp [Tree.leftEdge])
    rw [plug_spine] at hset
    obtain ⟨br, st', w, v, s, G, F, stk, b1, b2, b3, b4, ⟨x, x1, x2, x3, x4, x5, _, x7, _⟩, b5, b6, b7, _, _⟩ :=
      operator_spec (k := .bin) (o := o) a2 hsm.1 hsm.2.1 (smallF_append (small_spine hsm.2.2.1) hsf) (fun h => by cases h)
    rw [hset] at b3 b4 b7
    dsimp only at b3 b4 b7
    obtain ⟨st2, c1, c2⟩ := ihr (h0 := h0) (s0 := s0) (st := st'.lex) (fs := .bin o l :: fs) (k := k) hok.2.1
      (fun f hf N hN => by cases hf; exact hok.2.2.2 N hN) hsm.2.2.2 hpl.2.1 (fun _ => hpl.2.2) (fun _ _ _ h => by cases h)
      (fun f hf => by
        rcases List.mem_cons.1 hf with rfl | hf
        · exact hsm.1
        · exact hsf f hf)
      ⟨w :: (G ++ F), ⟨w, stk, s, w :: G, F, b2, rfl, by
        show st'.pos + 1 = _
        simp only [Frame.width]; push_cast; omega, ⟨v, G, rfl, ⟨x, x1, x7, x2, x3, x4, x5⟩, b4⟩, b3⟩, b5⟩
    refine ⟨st2, ?_, ?_⟩
    · simp only [Tree.write, a1, exec, b1, Option.bind_some, c1]
    · simpa [Tree.spine, Tree.tip] using c2
  | tern o l m r ihl ihm ihr =>
    intro h0 s0 st fs k hok hac hsm hpl hlt hlp hsf hop
    have hfs : fs = [] := by
      cases fs with
      | nil => rfl
      | cons f fs => have := hlt (by simp); cases this
    subst hfs
    obtain ⟨st1, a1, a2⟩ := ihl (k := .tern o (m.write .stop) (r.write k)) hok.1 (fun f hf => by cases hf) hsm.2.2.1 hpl.1 (fun h => absurd rfl h)
      (fun _ _ _ h => by cases h) hsf hop
    have hset := settle_all (N := o) (gs := l.spine) (fs := []) (t := l.tip) (fun f hf => hok.2.2.2.1 _ (spine_ops l f hf)) fun f hf => by cases hf
    rw [plug_spine] at hset
    obtain ⟨br, st', w, v, s, G, F, stk, b1, b2, b3, b4, ⟨x, x1, x2, x3, x4, x5, x6, x7, _⟩, b5, b6, b7, b8, b9⟩ :=
      operator_spec (k := .tern) (o := o) a2 hsm.1 hsm.2.1 (smallF_append (small_spine hsm.2.2.1) hsf) (fun h => by cases h)
    rw [hset] at b3 b4 b7 b8
    dsimp only at b3 b4 b7 b8
    have hbr : br = true := b8.2 rfl
    subst hbr
    obtain ⟨rfl, d2, rfl, rfl⟩ := b3
    rw [List.append_nil] at b5
    obtain ⟨si, i1, i2⟩ := ihm (h0 := st'.heap) (s0 := st'.pos + 1) (st := { heap := st'.heap, pos := st'.pos + 1 }) (fs := []) (k := .stop) hok.2.1
      (fun f hf => by cases hf) hsm.2.2.2.1 hpl.2.1 (fun h => absurd rfl h) (fun _ _ _ h => by cases h) (fun f hf => by cases hf)
      ⟨[], ⟨rfl, rfl, rfl, rfl⟩, by simp, by simp, by simp, fun _ _ => rfl⟩
    obtain ⟨q, u, U, j1, j2, _, j3, j4, j5⟩ := full_finish i2
    rw [List.append_nil, plug_spine] at j3 j5
    have hw := b5.range w (by simp)
    have hxw : q.heap[w]? = some x := (j4.old w hw.2).trans x1
    obtain ⟨n1, n2⟩ := List.nodup_cons.1 b5.nodup
    have hGr : ∀ i ∈ G, i < st'.heap.length := fun i hi => (b5.range i (by simp [hi])).2
    have hUr : ∀ i ∈ U, st'.heap.length ≤ i ∧ i < q.heap.length := j4.range
    have hG' : Shows (q.heap.set w { x with second := some u }) l v s G :=
      shows_mono b4 n2 fun i hi => by
        have hne : i ≠ w := fun e => n1 (e ▸ hi)
        rw [get_set_ne hne]
        exact j4.old i (hGr i hi)
    have hU' : Shows (q.heap.set w { x with second := some u }) m u (s + l.size + 1) U := by
      have e : st'.pos + 1 = s + l.size + 1 := by omega
      rw [e] at j3
      exact shows_mono j3 j4.nodup fun i hi => get_set_ne (by have := hUr i hi; omega)
    obtain ⟨st2, c1, c2⟩ := ihr (h0 := h0) (s0 := s) (st := { st' with heap := q.heap.set w { x with second := some u }, pos := q.pos + 1 }) (fs := [.tern o l m]) (k := k)
      hok.2.2.1 (fun f hf N hN => by cases hf; exact hok.2.2.2.2 N hN) hsm.2.2.2.2 hpl.2.2.1 (fun _ => hpl.2.2.2.1) (fun _ _ _ _ => hpl.2.2.2.2)
      (fun f hf => by
        rw [List.mem_singleton] at hf; subst hf
        exact hsm.1)
      ⟨w :: (G ++ U), ⟨w, [], s, w :: (G ++ U), [], b2, by simp, by
          show q.pos + 1 = _
          simp only [Frame.width]; push_cast; omega, ⟨v, u, G, U, rfl, ⟨_, get_set_self hxw, x7, x2, x3, x4, rfl, x6⟩, hG', hU'⟩, rfl, d2, rfl, rfl⟩, by
        have hl := j4.len
        have hl0 := b5.len
        refine ⟨List.nodup_cons.2 ⟨fun h => ?_, List.nodup_append.2 ⟨n2, j4.nodup, fun a ha b hb e => ?_⟩⟩, fun i hi => ?_, ?_, fun i hi => ?_⟩
        · rcases List.mem_append.1 h with h | h
          · exact n1 h
          · have := hUr w h; omega
        · subst e
          have := hUr a hb
          have := hGr a ha
          omega
        · show _ ∧ i < (q.heap.set w _).length
          rw [List.length_set]
          rcases List.mem_cons.1 hi with rfl | hi
          · omega
          · rcases List.mem_append.1 hi with hi | hi
            · have := b5.range i (by simp [hi]); omega
            · have := hUr i hi; omega
        · show _ ≤ (q.heap.set w _).length
          rw [List.length_set]; omega
        · show (q.heap.set w _)[i]? = _
          rw [get_set_ne (by omega), j4.old i (by omega)]
          exact b5.old i hi⟩
    refine ⟨st2, ?_, ?_⟩
    · rw [b9 rfl] at c1
      simp only [Tree.write, a1, exec, b1, Option.bind_some, if_true, i1, j1, j2, b9, hxw, c1]
    · simpa [Tree.spine, Tree.tip] using c2

/-- The whole function. -/
theorem parse_tree {t : Tree} (hok : t.Ok) (hsm : t.Small) (hpl : t.Plain) (pos : Int) : ∃ st w U, parse (t.write .stop) pos = some st ∧ st.root = some w ∧
    Shows st.heap t w pos U ∧ U.Nodup ∧ st.pos = pos + t.size := by
  obtain ⟨si, a1, a2⟩ := exec_tree t (h0 := []) (s0 := pos) (st := { pos }) (fs := []) (k := .stop) hok
    (fun f hf => by cases hf) hsm hpl (fun h => absurd rfl h) (fun _ _ _ h => by cases h) (fun f hf => by cases hf)
    ⟨[], ⟨rfl, rfl, rfl, rfl⟩, by simp, by simp, by simp, fun _ _ => rfl⟩
  obtain ⟨r, w, U, b1, b2, _, b3, b4, b5⟩ := full_finish a2
  rw [List.append_nil, plug_spine] at b3 b5
  exact ⟨r, w, U, by simp only [parse, a1, exec, Option.bind_some, b1], b2, b3, b4.nodup, b5⟩

theorem small_write (t : Tree) : ∀ {k : Run}, (t.write k).Small ↔ t.Small ∧ k.Small := by
  induction t with
  | base n => intro k; simp [Tree.write, Run.Small, Tree.Small]
  | paren t ih => intro k; simp [Tree.write, Run.Small, Tree.Small, ih]
  | pre o t ih => intro k; simp [Tree.write, Run.Small, Tree.Small, ih, and_assoc]
  | post o t ih => intro k; simp only [Tree.write, Run.Small, Tree.Small, ih]; constructor <;> (intro h; simp_all)
  | bin o l r ihl ihr => intro k; simp only [Tree.write, Run.Small, Tree.Small, ihl, ihr]; constructor <;> (intro h; simp_all)
  | tern o l m r ihl ihm ihr => intro k; simp only [Tree.write, Run.Small, Tree.Small, ihl, ihm, ihr]; constructor <;> (intro h; simp_all)

theorem leftTern_write (t : Tree) : ∀ {k : Run}, (t.write k).NoTern → k.NoTern ∧ t.leftTern = false ∧ t.Plain := by
  induction t with
  | base n => exact fun h => ⟨h, rfl, trivial⟩
  | paren t ih => exact fun h => ⟨h.2, rfl, (ih h.1).2.2⟩
  | pre o t ih => exact fun h => ⟨(ih h).1, rfl, (ih h).2.2, (ih h).2.1⟩
  | post o t ih => exact fun h => ⟨(ih h).1, (ih h).2⟩
  | bin o l r ihl ihr => exact fun h => ⟨(ihr (ihl h).1).1, (ihl h).2.1, (ihl h).2.2, (ihr (ihl h).1).2.2, (ihr (ihl h).1).2.1⟩
  | tern o l m r ihl ihm ihr => exact fun h => absurd (ihl h).1 (by simp [Run.NoTern])

end Verif.Ops
