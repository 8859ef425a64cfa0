import Verif.Auto.MaxLemmas
import Verif.Auto.RxProps

set_option linter.unusedSectionVars false

/-!
# Properties of the checks on automata

* C22 `acceptsEpsilon`, `isEmpty`; C23 `minLength`, `maxLength`.
-/

namespace Verif.Auto

variable {C : Type} [CharSetLike C]

/-- All character sets occurring are nonempty. -/
def Rx.Solid : Rx C → Prop
  | nothing | emptyWord => True
  | set s _ => CharSetLike.empty s = false
  | alt a b | cat a b | and a b | but a b | sepBy a b => a.Solid ∧ b.Solid
  | star a | plus a | opt a | compl a | named a => a.Solid
  | leaf n _ => NoEmpty n.rules

/-- What every built automaton satisfies. -/
structure Shape (solid : Prop) (n : NFA C) : Prop where
  wf : n.Wf
  tidy : Tidy n.rules
  noEmpty : solid → NoEmpty n.rules

theorem Shape.mono {P Q : Prop} {n : NFA C} (h : Shape P n) (hpq : Q → P) : Shape Q n := ⟨h.wf, h.tidy, fun q => h.noEmpty (hpq q)⟩

theorem shape_alt {P : Prop} {n o : NFA C} (hn : Shape P n) (ho : Shape P o) : ∃ r, n.alt o = some r ∧ Shape P r := by
  obtain ⟨r, h1, h2, _⟩ := alt_spec hn.wf ho.wf
  exact ⟨r, h1, h2, tidy_alt hn.wf ho.wf h1 hn.tidy ho.tidy, fun p => noEmpty_alt hn.wf ho.wf h1 (hn.noEmpty p) (ho.noEmpty p)⟩

theorem shape_concat {P : Prop} {n o : NFA C} (hn : Shape P n) (ho : Shape P o) : ∃ r, n.concat o = some r ∧ Shape P r := by
  obtain ⟨r, h1, h2, _⟩ := concat_spec hn.wf ho.wf
  exact ⟨r, h1, h2, tidy_concat hn.wf ho.wf h1 hn.tidy ho.tidy, fun p => noEmpty_concat hn.wf ho.wf h1 (hn.noEmpty p) (ho.noEmpty p)⟩

theorem shape_star {P : Prop} {n : NFA C} (hn : Shape P n) : ∃ r, n.star = some r ∧ Shape P r := by
  obtain ⟨r, h1, h2, _⟩ := star_spec hn.wf
  exact ⟨r, h1, h2, tidy_star hn.wf h1 hn.tidy, fun p => noEmpty_star hn.wf h1 (hn.noEmpty p)⟩

theorem shape_emptyWord {P : Prop} : Shape P (NFA.emptyWord : NFA C) :=
  ⟨wf_emptyWord, tidy_emptyWord, fun _ i c j h => by simp [NFA.emptyWord, hasEdge_cons, hasEdge_nil] at h⟩

theorem shape_negate (hsz : 0 < CharSetLike.size C) {P : Prop} {n : NFA C} (hn : Shape P n) (order : List Bits → List Bits) (ho : Enumerates order) :
    ∃ F r, (∀ fuel, F ≤ fuel → n.negate order fuel = some r) ∧ Shape P r := by
  obtain ⟨F, r, h1, h2, h3, h4, _⟩ := negate_shape hn.wf.toM (lt_of_wf hn.wf) order ho
  obtain ⟨F', r', g1, g2, _⟩ := C18_complement hn.wf order ho
  have e1 := h1 (max F F') (by omega)
  rw [g1 (max F F') (by omega)] at e1; cases e1
  exact ⟨F, _, h1, g2, h2, fun p => h4 (hn.noEmpty p) hsz⟩

/-- Expressions without named parts. -/
def Rx.Plain : Rx C → Prop
  | nothing | emptyWord | set _ _ => True
  | alt a b | cat a b | and a b | but a b | sepBy a b => a.Plain ∧ b.Plain
  | star a | plus a | opt a | compl a => a.Plain
  | named _ => False
  | leaf n _ => Tidy n.rules

theorem build_shape (hsz : 0 < CharSetLike.size C) (order : List Bits → List Bits) (ho : Enumerates order) (a : Rx C) (h : a.Plain) :
    ∃ F n, (∀ fuel, F ≤ fuel → a.build order fuel = some n) ∧ Shape a.Solid n := by
  induction a with
  | nothing => exact ⟨0, _, fun _ _ => rfl, wf_empty, tidy_empty, fun _ i c j h => by simp [NFA.empty, hasEdge_cons, hasEdge_nil] at h⟩
  | emptyWord => exact ⟨0, _, fun _ _ => rfl, shape_emptyWord⟩
  | set s hs => exact ⟨0, _, fun _ _ => rfl, wf_ofSet s, tidy_ofSet s, fun h => noEmpty_ofSet h⟩
  | alt a b iha ihb =>
    obtain ⟨F1, n, e1, i1⟩ := iha h.1
    obtain ⟨F2, o, e2, i2⟩ := ihb h.2
    obtain ⟨r, h1, h2⟩ := shape_alt (i1.mono And.left) (i2.mono And.right)
    exact ⟨max F1 F2, r, fun f hf => by simp [Rx.build, e1 f (by omega), e2 f (by omega), h1], h2⟩
  | cat a b iha ihb =>
    obtain ⟨F1, n, e1, i1⟩ := iha h.1
    obtain ⟨F2, o, e2, i2⟩ := ihb h.2
    obtain ⟨r, h1, h2⟩ := shape_concat (i1.mono And.left) (i2.mono And.right)
    exact ⟨max F1 F2, r, fun f hf => by simp [Rx.build, e1 f (by omega), e2 f (by omega), h1], h2⟩
  | star a iha =>
    obtain ⟨F1, n, e1, i1⟩ := iha h
    obtain ⟨r, h1, h2⟩ := shape_star i1
    exact ⟨F1, r, fun f hf => by simp [Rx.build, e1 f hf, h1], h2⟩
  | plus a iha =>
    obtain ⟨F1, n, e1, i1⟩ := iha h
    obtain ⟨r, h1, h2⟩ := shape_star i1
    obtain ⟨q, g1, g2⟩ := shape_concat h2 i1
    exact ⟨F1, q, fun f hf => by simp [Rx.build, NFA.plus, e1 f hf, h1, g1], g2⟩
  | opt a iha =>
    obtain ⟨F1, n, e1, i1⟩ := iha h
    obtain ⟨r, h1, h2⟩ := shape_alt i1 shape_emptyWord
    exact ⟨F1, r, fun f hf => by simp [Rx.build, NFA.opt, e1 f hf, h1], h2⟩
  | sepBy i s ihi ihs =>
    obtain ⟨F1, n, e1, i1⟩ := ihi h.1
    obtain ⟨F2, o, e2, i2⟩ := ihs h.2
    obtain ⟨c, c1, c2⟩ := shape_concat (P := i.Solid ∧ s.Solid) (i2.mono And.right) (i1.mono And.left)
    obtain ⟨r, h1, h2⟩ := shape_star c2
    obtain ⟨q, g1, g2⟩ := shape_concat (i1.mono And.left) h2
    exact ⟨max F1 F2, q, fun f hf => by simp [Rx.build, NFA.sepBy, e1 f (by omega), e2 f (by omega), c1, h1, g1], g2⟩
  | and a b iha ihb =>
    obtain ⟨F1, n, e1, i1⟩ := iha h.1
    obtain ⟨F2, o, e2, i2⟩ := ihb h.2
    obtain ⟨F3, n', a1, a2⟩ := shape_negate hsz (i1.mono (Q := a.Solid ∧ b.Solid) And.left) order ho
    obtain ⟨F4, o', b1, b2⟩ := shape_negate hsz (i2.mono (Q := a.Solid ∧ b.Solid) And.right) order ho
    obtain ⟨u, u1, u2⟩ := shape_alt a2 b2
    obtain ⟨F5, r, r1, r2⟩ := shape_negate hsz u2 order ho
    exact ⟨max F5 (max F4 (max F3 (max F1 F2))), r, fun f hf => by
      simp [Rx.build, NFA.and, e1 f (by omega), e2 f (by omega), a1 f (by omega), b1 f (by omega), u1, r1 f (by omega)], r2⟩
  | but a b iha ihb =>
    obtain ⟨F1, n, e1, i1⟩ := iha h.1
    obtain ⟨F2, o, e2, i2⟩ := ihb h.2
    obtain ⟨F3, n', a1, a2⟩ := shape_negate hsz (i1.mono (Q := a.Solid ∧ b.Solid) And.left) order ho
    obtain ⟨u, u1, u2⟩ := shape_alt a2 (i2.mono (Q := a.Solid ∧ b.Solid) And.right)
    obtain ⟨F5, r, r1, r2⟩ := shape_negate hsz u2 order ho
    exact ⟨max F5 (max F3 (max F1 F2)), r, fun f hf => by
      simp [Rx.build, NFA.but, e1 f (by omega), e2 f (by omega), a1 f (by omega), u1, r1 f (by omega)], r2⟩
  | compl a iha =>
    obtain ⟨F1, n, e1, i1⟩ := iha h
    obtain ⟨F3, n', a1, a2⟩ := shape_negate hsz i1 order ho
    exact ⟨max F3 F1, n', fun f hf => by simp [Rx.build, e1 f (by omega), a1 f (by omega)], a2⟩
  | named a => exact absurd h (by simp [Rx.Plain])
  | leaf n hn => exact ⟨0, n, fun _ _ => rfl, hn, h, fun h => h⟩

/-! ### C22 -/

/-- **C22.** `acceptsEpsilon()`: the empty word is matched. -/
theorem C22_acceptsEpsilon {n : NFA C} (hn : n.WfM) : ∃ b, n.acceptsEpsilon = some b ∧ (b = true ↔ n.Lang []) := by
  obtain ⟨s, b, h1, h2, h3⟩ := search_spec (p := CharSetLike.isEps) hn
  refine ⟨b, by simp [NFA.acceptsEpsilon, h1, h2], ?_⟩
  rw [h3]
  constructor
  · rintro ⟨i, hi, hp⟩
    have := path_lt hn hp hn.start
    exact ⟨i - n.accept, by rw [NFA.LangAt, show n.accept + (i - n.accept) = i by omega]; exact ⟨this, path_eps.mp hp⟩⟩
  · rintro ⟨k, hk, hr⟩; exact ⟨n.accept + k, by omega, path_eps.mpr hr⟩

/-- **C22.** `isEmpty()`: no word is matched, if no transition is labelled with an empty character set. -/
theorem C22_isEmpty {n : NFA C} (hn : n.WfM) (hne : NoEmpty n.rules) : ∃ b, n.isEmpty = some b ∧ (b = true ↔ ∀ w, ¬ n.Lang w) := by
  obtain ⟨s, b, h1, h2, h3⟩ := search_spec (p := fun _ => true) hn
  refine ⟨!b, by simp [NFA.isEmpty, h1, h2], ?_⟩
  have : b = true ↔ ∃ w, n.Lang w := by
    rw [h3]
    constructor
    · rintro ⟨i, hi, hp⟩
      have hlt := path_lt hn hp hn.start
      obtain ⟨m, hm⟩ := path_from hp 0 .start
      obtain ⟨w, hw, _⟩ := (lang_from hn hne m).mpr ⟨i, hi, hlt, hm⟩
      exact ⟨w, hw⟩
    · rintro ⟨w, hw⟩
      obtain ⟨k, h1, _, h3⟩ := (lang_from hn hne _).mp ⟨w, hw, rfl⟩
      exact ⟨k, h1, from_path h3⟩
  cases b
  · simp only [Bool.not_false, true_iff]
    intro w hw
    have := this.mpr ⟨w, hw⟩
    cases this
  · simp only [Bool.not_true, Bool.false_eq_true, false_iff]
    intro h
    obtain ⟨w, hw⟩ := this.mp rfl
    exact h w hw

/-- **C22.** For the automaton of an expression, in terms of the words of the expression. -/
theorem C22_expression_partial (hsz : 0 < CharSetLike.size C) (a : Rx C) (hs : a.Safe) (hp : a.Plain) (hsol : a.Solid)
    (order : List Bits → List Bits) (ho : Enumerates order) :
    ∃ F n e b, (∀ fuel, F ≤ fuel → a.build order fuel = some n) ∧ n.acceptsEpsilon = some e ∧ n.isEmpty = some b ∧
      (e = true ↔ a.den []) ∧ (b = true ↔ ∀ w, ¬ a.den w) := by
  obtain ⟨F, n, h1, h2, h3⟩ := C15_expression_partial a hs order ho
  obtain ⟨F', n', g1, g2⟩ := build_shape hsz order ho a hp
  have e1 := h1 (max F F') (by omega)
  rw [g1 (max F F') (by omega)] at e1; cases e1
  obtain ⟨e, e1, e2⟩ := C22_acceptsEpsilon g2.wf.toM
  obtain ⟨b, b1, b2⟩ := C22_isEmpty g2.wf.toM (g2.noEmpty hsol)
  exact ⟨F, n, e, b, h1, e1, b1, by rw [e2, h3], by rw [b2]; simp only [h3]⟩

/-- Case of the above: `a* & b`. -/
example : (Rx.and (.star (.set (ch 97) rfl)) (.set (ch 98) rfl)).Safe ∧ (Rx.and (.star (.set (ch 97) rfl)) (.set (ch 98) rfl)).Plain ∧
    (Rx.and (.star (.set (ch 97) rfl)) (.set (ch 98) rfl)).Solid := by
  refine ⟨by simp [Rx.Safe, Rx.Iter, Rx.Fresh], by simp [Rx.Plain], ?_, ?_⟩ <;> simp only [Rx.Solid] <;> decide +kernel

/-- **C22, negative.** With an empty character set (the grammar allows the range `[z-a]`), `isEmpty()` says "not empty"
though nothing is matched. -/
theorem C22_isEmpty_wrong (s : C) (hs : CharSetLike.isEps s = false) (he : CharSetLike.empty s = true) :
    (NFA.ofSet s).isEmpty = some false ∧ ∀ w, ¬ (NFA.ofSet s).Lang w := by
  constructor
  · obtain ⟨t, b, h1, h2, h3⟩ := search_spec (p := fun _ => true) (wf_ofSet s).toM
    have : b = true := h3.mpr ⟨1, Nat.le_refl _, .one (edge_ofSet.mpr ⟨rfl, rfl, rfl⟩)⟩
    subst this
    simp [NFA.isEmpty, h1, h2]
  · intro w hw
    obtain ⟨x, _, hx⟩ := (lang_ofSet s hs w).mp hw
    rw [(CharSetLike.empty_iff s).mp he x] at hx; cases hx

/-- Case: the range from `z` to `a`. -/
example : CharSetLike.empty (SeqCS.range (S := 128) 122 98 (by omega)) = true := by decide +kernel

/-! ### C23 -/

/-- The meaning of a result of `minLength()`. -/
def Shortest (L : Lang) : Option Nat → Prop
  | none => ∀ w, ¬ L w
  | some m => (∃ w, L w ∧ w.length = m) ∧ ∀ w, L w → m ≤ w.length

/-- **C23.** `minLength()` is the length of a shortest matched word, -1 (`none`) if there is none, for every automaton whose first
arrivals at each state are all by epsilon transitions or all by characters. -/
theorem C23_min_tidy {n : NFA C} (hn : n.WfM) (ht : Tidy n.rules) (hne : NoEmpty n.rules) : ∃ r, n.minLength = some r ∧ Shortest n.Lang r := by
  obtain ⟨r, h1, h2⟩ := minLength_spec hn ht
  refine ⟨r, h1, ?_⟩
  have key := lang_from hn hne
  cases r with
  | none =>
    intro w hw
    obtain ⟨k, k1, _, k3⟩ := (key _).mp ⟨w, hw, rfl⟩
    have := h2 _ _ k3; omega
  | some m =>
    obtain ⟨⟨i, i1, i2⟩, h3⟩ := h2
    refine ⟨(key m).mpr ⟨i, i1, path_lt hn (from_path i2) hn.start, i2⟩, fun w hw => ?_⟩
    obtain ⟨k, k1, _, k3⟩ := (key _).mp ⟨w, hw, rfl⟩
    exact h3 _ _ k1 k3

/-- **C23.** So for every expression (without names and empty sets), with any use of `|`, `*`, `&`, `~` and so on. -/
theorem C23_min (hsz : 0 < CharSetLike.size C) (a : Rx C) (hp : a.Plain) (hsol : a.Solid) (order : List Bits → List Bits) (ho : Enumerates order) :
    ∃ F n r, (∀ fuel, F ≤ fuel → a.build order fuel = some n) ∧ n.minLength = some r ∧ Shortest n.Lang r := by
  obtain ⟨F, n, h1, h2⟩ := build_shape hsz order ho a hp
  obtain ⟨r, h3, h4⟩ := C23_min_tidy h2.wf.toM h2.tidy (h2.noEmpty hsol)
  exact ⟨F, n, r, h1, h3, h4⟩

/-- Case. -/
example : (Rx.cat (.opt (.set (ch 97) rfl)) (.compl (.star (.set (ch 98) rfl)))).Plain ∧
    (Rx.cat (.opt (.set (ch 97) rfl)) (.compl (.star (.set (ch 98) rfl)))).Solid := by
  refine ⟨by simp [Rx.Plain], ?_, ?_⟩ <;> simp only [Rx.Solid] <;> decide +kernel

/-- Without the condition on arrivals it is false: the first transition found marks the state as visited. -/
theorem C23_min_untidy : ∃ n : NFA (SeqCS 128), n.Wf ∧ NoEmpty n.rules ∧ n.minLength = some (some 1) ∧ n.Lang [] := by
  let n : NFA (SeqCS 128) := ⟨4, [[(ch 97, 2), (CharSetLike.eps, 1)], [(CharSetLike.eps, 2)], [(CharSetLike.eps, 3)], []], 3⟩
  have he : ∀ i c j, HasEdge n.rules i c j ↔ (i = 0 ∧ c = ch 97 ∧ j = 2) ∨ (i = 0 ∧ c = CharSetLike.eps ∧ j = 1) ∨
      (i = 1 ∧ c = CharSetLike.eps ∧ j = 2) ∨ (i = 2 ∧ c = CharSetLike.eps ∧ j = 3) := by
    intro i c j
    simp only [n, hasEdge_cons, hasEdge_nil, List.mem_cons, Prod.mk.injEq, List.not_mem_nil, or_false, and_false, exists_const]
    grind
  refine ⟨n, ⟨rfl, Nat.le_refl _, ?_⟩, ?_, by decide +kernel, ?_⟩
  · intro i c j h
    rw [he] at h
    simp only [n]; omega
  · intro i c j h hc
    rw [he] at h
    rcases h with ⟨_, rfl, _⟩ | ⟨_, rfl, _⟩ | ⟨_, rfl, _⟩ | ⟨_, rfl, _⟩
    · decide +kernel
    all_goals rw [isEps_eps'] at hc; cases hc
  · refine ⟨0, by simp [n], ?_⟩
    exact .eps ((he 0 _ 1).mpr (by simp)) isEps_eps' (.eps ((he 1 _ 2).mpr (by simp)) isEps_eps' (.eps ((he 2 _ 3).mpr (by simp)) isEps_eps' .nil))

/-- The meaning of a nonnegative result of `maxLength()`. -/
def Longest (L : Lang) (m : Nat) : Prop := (∃ w, L w ∧ w.length = m) ∧ ∀ w, L w → w.length ≤ m

theorem maxLength_eq {n : NFA C} (hn : n.WfM) (hne : NoEmpty n.rules) (fuel : Nat) :
    (Cyclic n.rules 0 → n.maxLength fuel = some (-2)) ∧
    (¬ Cyclic n.rules 0 → (∀ w, ¬ n.Lang w) → n.maxLength fuel = some (-1)) ∧
    (¬ Cyclic n.rules 0 → (∃ w, n.Lang w) → n.maxLength fuel = (maxLenLoop n.nstates n.rules fuel 0 (initDist n) (initAcc n) []).bind (·[0]?)) := by
  obtain ⟨b, h1, h2, _⟩ := isUnbounded_spec hn
  obtain ⟨e, e1, e2⟩ := C22_isEmpty hn hne
  refine ⟨fun hc => ?_, fun hc hw => ?_, fun hc hw => ?_⟩
  · have := h2.mpr hc
    subst this
    simp [NFA.maxLength, h1]
  · have hb : b = false := by cases b <;> simp_all
    have := e2.mpr hw
    subst this hb
    simp [NFA.maxLength, h1, e1]
  · have hb : b = false := by cases b <;> simp_all
    have he : e = false := by
      cases e
      · rfl
      · obtain ⟨w, hw⟩ := hw; exact absurd hw (e2.mp rfl w)
    subst he hb
    simp [NFA.maxLength, h1, e1, initAcc, initDist]

theorem to_lang {n : NFA C} (hn : n.WfM) (hne : NoEmpty n.rules) (k : Nat) : To n.rules (Acpt n) k 0 ↔ ∃ w, n.Lang w ∧ w.length = k := by
  rw [to_iff_from, lang_from hn hne]
  constructor
  · rintro ⟨t, ⟨h1, h2⟩, h3⟩; exact ⟨t, h1, h2, h3⟩
  · rintro ⟨t, h1, h2, h3⟩; exact ⟨t, ⟨h1, h2⟩, h3⟩

/-- **C23 (partial).** Whenever `maxLength()` returns: a nonnegative result is the length of a longest matched word, -1 means
that nothing is matched, and the only other result is -2.  If there are arbitrarily long matched words it returns -2.
Missing: that it returns at all, and that -2 is returned only then; both are false, see `C23_max_hangs`, `C23_max_overreported`;
and true for the expressions of `C23_max`. -/
theorem C23_max_partial {n : NFA C} (hn : n.WfM) (hne : NoEmpty n.rules) (fuel : Nat) :
    (∀ m, n.maxLength fuel = some m → m = -2 ∨ (m = -1 ∧ ∀ w, ¬ n.Lang w) ∨ ∃ k : Nat, m = k ∧ Longest n.Lang k) ∧
    ((∀ K, ∃ w, n.Lang w ∧ K ≤ w.length) → n.maxLength fuel = some (-2)) := by
  obtain ⟨h1, h2, h3⟩ := maxLength_eq hn hne fuel
  obtain ⟨b, hb, hb1, hb2⟩ := isUnbounded_spec hn
  constructor
  · intro m hm
    by_cases hc : Cyclic n.rules 0
    · rw [h1 hc] at hm; cases hm; exact Or.inl rfl
    · by_cases hw : ∃ w, n.Lang w
      · rw [h3 hc hw] at hm
        cases hl : maxLenLoop n.nstates n.rules fuel 0 (initDist n) (initAcc n) [] with
        | none => rw [hl] at hm; cases hm
        | some res =>
          rw [hl, Option.bind_some] at hm
          have hr := maxLenLoop_sound (T := Acpt n) hn.size (fun i c j h => (hn.target i c j h).1) fuel 0 _ _ [] res (maxInv_init n) (by simp) hl
          right; right
          have up : ∀ w, n.Lang w → (w.length : Int) ≤ m := by
            intro w hw
            obtain ⟨d, e1, e2⟩ := hr.complete _ _ ((to_lang hn hne _).mpr ⟨w, hw, rfl⟩)
            rw [hm] at e1; cases e1; exact e2
          rcases hr.sound 0 m hm with rfl | ⟨k, rfl, hk⟩
          · obtain ⟨w, hw⟩ := hw
            have := up w hw; omega
          · exact ⟨k, rfl, (to_lang hn hne k).mp hk, fun w hw => by have := up w hw; omega⟩
      · have hno : ∀ w, ¬ n.Lang w := fun w h => hw ⟨w, h⟩
        rw [h2 hc hno] at hm; cases hm; exact Or.inr (Or.inl ⟨rfl, hno⟩)
  · intro hu
    refine h1 (Classical.byContradiction fun hc => ?_)
    have hbf : b = false := by cases b <;> simp_all
    obtain ⟨M, hM⟩ := to_bound (T := Acpt n) (hb2.mp hbf)
    obtain ⟨w, hw, hl⟩ := hu (M + 1)
    have := hM _ ((to_lang hn hne _).mpr ⟨w, hw, rfl⟩)
    omega

/-- **C23.** So when `minLength()` and `maxLength()` agree (what lookahead and barrier rules test), every matched word has that
length. -/
theorem C23_fixed_length {n : NFA C} (hn : n.WfM) (hne : NoEmpty n.rules) (ht : Tidy n.rules) (fuel m : Nat)
    (hmin : n.minLength = some (some m)) (hmax : n.maxLength fuel = some (m : Int)) : (∃ w, n.Lang w) ∧ ∀ w, n.Lang w → w.length = m := by
  obtain ⟨r, h1, h2⟩ := C23_min_tidy hn ht hne
  rw [hmin] at h1; cases h1
  rcases (C23_max_partial hn hne fuel).1 _ hmax with h | ⟨h, _⟩ | ⟨k, hk, h3⟩
  · omega
  · omega
  · have : k = m := by omega
    subst this
    obtain ⟨⟨w, hw, _⟩, h4⟩ := h2
    exact ⟨⟨w, hw⟩, fun w hw => Nat.le_antisymm (h3.2 w hw) (h4 w hw)⟩

/-- Every part of the expression matches something. -/
def Rx.Useful : Rx C → Prop
  | nothing => False
  | emptyWord => True
  | set _ _ => True
  | alt a b | cat a b | sepBy a b => a.Useful ∧ b.Useful
  | star a | plus a | opt a => a.Useful
  | and a b => ∃ w, a.den w ∧ b.den w
  | but a b => ∃ w, a.den w ∧ ¬ b.den w
  | compl a => ∃ w, (∀ x ∈ w, x < CharSetLike.size C) ∧ ¬ a.den w
  | named _ => False
  | leaf n _ => Trim n

/-- No expression matching the empty word is iterated (outside `&`, `^` and `~`). -/
def Rx.Strict : Rx C → Prop
  | nothing | emptyWord | set _ _ | and _ _ | but _ _ | compl _ => True
  | alt a b | cat a b => a.Strict ∧ b.Strict
  | star a | plus a => a.Strict ∧ ¬ a.den []
  | opt a => a.Strict
  | sepBy i s => i.Strict ∧ s.Strict ∧ ¬ (i.den [] ∧ s.den [])
  | named _ => False
  | leaf n _ => Ranked n.rules

/-- Useful states and no epsilon cycles. -/
structure Good (strict : Prop) (n : NFA C) : Prop where
  trim : Trim n
  ranked : strict → Ranked n.rules

theorem good_negate {L : Lang} {n : NFA C} (hn : n.Wf) (order : List Bits → List Bits) (ho : Enumerates order) {F : Nat} {r : NFA C}
    (h : ∀ fuel, F ≤ fuel → n.negate order fuel = some r) (hL : ∀ w, r.Lang w ↔ L w) (hw : ∃ w, L w) : Good True r := by
  obtain ⟨F', r', h1, _, h3, _, h5⟩ := negate_shape hn.toM (lt_of_wf hn) order ho
  have e1 := h1 (max F F') (by omega)
  rw [h (max F F') (by omega)] at e1; cases e1
  obtain ⟨w, hw⟩ := hw
  exact ⟨h5 ⟨w, (hL w).mpr hw⟩, fun _ => h3⟩

theorem build_good (order : List Bits → List Bits) (ho : Enumerates order) (a : Rx C) (h : a.Safe) (hu : a.Useful) :
    ∃ F n, (∀ fuel, F ≤ fuel → a.build order fuel = some n) ∧ Impl a n ∧ Good a.Strict n := by
  induction a with
  | nothing => exact absurd hu (by simp [Rx.Useful])
  | emptyWord =>
    obtain ⟨F, n, h1, h2⟩ := build_spec order ho (.emptyWord : Rx C) h
    have := h1 F (by omega)
    simp [Rx.build] at this; subst this
    exact ⟨F, _, h1, h2, trim_emptyWord, fun _ => ranked_emptyWord⟩
  | set s hs =>
    obtain ⟨F, n, h1, h2⟩ := build_spec order ho (.set s hs : Rx C) h
    have := h1 F (by omega)
    simp [Rx.build] at this; subst this
    exact ⟨F, _, h1, h2, trim_ofSet s, fun _ => ranked_ofSet s⟩
  | alt a b iha ihb =>
    obtain ⟨F1, n, e1, i1, t1⟩ := iha h.1 hu.1
    obtain ⟨F2, o, e2, i2, t2⟩ := ihb h.2 hu.2
    obtain ⟨F, r, h1, h2⟩ := build_spec order ho (.alt a b) h
    have g := h1 (max F (max F1 F2)) (by omega)
    simp [Rx.build, e1 (max F (max F1 F2)) (by omega), e2 (max F (max F1 F2)) (by omega)] at g
    exact ⟨F, r, h1, h2, trim_alt i1.wf i2.wf g t1.trim t2.trim, fun hs => ranked_alt i1.wf i2.wf g (t1.ranked hs.1) (t2.ranked hs.2)⟩
  | cat a b iha ihb =>
    obtain ⟨F1, n, e1, i1, t1⟩ := iha h.1 hu.1
    obtain ⟨F2, o, e2, i2, t2⟩ := ihb h.2 hu.2
    obtain ⟨F, r, h1, h2⟩ := build_spec order ho (.cat a b) h
    have g := h1 (max F (max F1 F2)) (by omega)
    simp [Rx.build, e1 (max F (max F1 F2)) (by omega), e2 (max F (max F1 F2)) (by omega)] at g
    exact ⟨F, r, h1, h2, trim_concat i1.wf i2.wf g t1.trim t2.trim, fun hs => ranked_concat i1.wf i2.wf g (t1.ranked hs.1) (t2.ranked hs.2)⟩
  | star a iha =>
    obtain ⟨F1, n, e1, i1, t1⟩ := iha h.1 hu
    obtain ⟨F, r, h1, h2⟩ := build_spec order ho (.star a) h
    have g := h1 (max F F1) (by omega)
    simp [Rx.build, e1 (max F F1) (by omega)] at g
    exact ⟨F, r, h1, h2, trim_star i1.wf g t1.trim, fun hs => ranked_star i1.wf g (by rw [i1.lang]; exact hs.2) (t1.ranked hs.1)⟩
  | plus a iha =>
    obtain ⟨F1, n, e1, i1, t1⟩ := iha h.1 hu
    obtain ⟨F, r, h1, h2⟩ := build_spec order ho (.plus a) h
    have g := h1 (max F F1) (by omega)
    obtain ⟨q, q1, q2, _⟩ := star_spec i1.wf
    simp [Rx.build, NFA.plus, e1 (max F F1) (by omega), q1] at g
    exact ⟨F, r, h1, h2, trim_concat q2 i1.wf g (trim_star i1.wf q1 t1.trim) t1.trim, fun hs =>
      ranked_concat q2 i1.wf g (ranked_star i1.wf q1 (by rw [i1.lang]; exact hs.2) (t1.ranked hs.1)) (t1.ranked hs.1)⟩
  | opt a iha =>
    obtain ⟨F1, n, e1, i1, t1⟩ := iha h hu
    obtain ⟨F, r, h1, h2⟩ := build_spec order ho (.opt a) h
    have g := h1 (max F F1) (by omega)
    simp [Rx.build, NFA.opt, e1 (max F F1) (by omega)] at g
    exact ⟨F, r, h1, h2, trim_alt i1.wf wf_emptyWord g t1.trim trim_emptyWord, fun hs =>
      ranked_alt i1.wf wf_emptyWord g (t1.ranked hs) ranked_emptyWord⟩
  | sepBy i s ihi ihs =>
    obtain ⟨F1, n, e1, i1, t1⟩ := ihi h.1 hu.1
    obtain ⟨F2, o, e2, i2, t2⟩ := ihs h.2.1 hu.2
    obtain ⟨F, r, h1, h2⟩ := build_spec order ho (.sepBy i s) h
    have g := h1 (max F (max F1 F2)) (by omega)
    obtain ⟨c, c1, c2, c3⟩ := concat_spec i2.wf i1.wf
    obtain ⟨q, q1, q2, _⟩ := star_spec c2
    simp [Rx.build, NFA.sepBy, e1 (max F (max F1 F2)) (by omega), e2 (max F (max F1 F2)) (by omega), c1, q1] at g
    have tc := trim_concat i2.wf i1.wf c1 t2.trim t1.trim
    refine ⟨F, r, h1, h2, trim_concat i1.wf q2 g t1.trim (trim_star c2 q1 tc), fun hs =>
      ranked_concat i1.wf q2 g (t1.ranked hs.1) (ranked_star c2 q1 ?_ (ranked_concat i2.wf i1.wf c1 (t2.ranked hs.2.1) (t1.ranked hs.1)))⟩
    rw [c3]
    rintro ⟨u, v, huv, hu', hv'⟩
    have : u = [] ∧ v = [] := by simpa using huv.symm
    obtain ⟨rfl, rfl⟩ := this
    exact hs.2.2 ⟨(i1.lang []).mp hv', (i2.lang []).mp hu'⟩
  | and a b iha ihb =>
    obtain ⟨F1, n, e1, i1⟩ := build_spec order ho a h.1
    obtain ⟨F2, o, e2, i2⟩ := build_spec order ho b h.2
    obtain ⟨F, r, h1, h2⟩ := build_spec order ho (.and a b) h
    obtain ⟨F3, n', a1, a2, _⟩ := C18_complement i1.wf order ho
    obtain ⟨F4, o', b1, b2, _⟩ := C18_complement i2.wf order ho
    obtain ⟨u, u1, u2, _⟩ := alt_spec a2 b2
    have gd : Good True r := good_negate (L := (Rx.and a b).den) (F := max F (max F1 (max F2 (max F3 F4)))) u2 order ho (fun fuel hf => by
      have := h1 fuel (by omega)
      simpa [Rx.build, NFA.and, e1 fuel (by omega), e2 fuel (by omega), a1 fuel (by omega), b1 fuel (by omega), u1] using this) h2.lang hu
    exact ⟨F, r, h1, h2, gd.trim, fun _ => gd.ranked trivial⟩
  | but a b iha ihb =>
    obtain ⟨F1, n, e1, i1⟩ := build_spec order ho a h.1
    obtain ⟨F2, o, e2, i2⟩ := build_spec order ho b h.2
    obtain ⟨F, r, h1, h2⟩ := build_spec order ho (.but a b) h
    obtain ⟨F3, n', a1, a2, _⟩ := C18_complement i1.wf order ho
    obtain ⟨u, u1, u2, _⟩ := alt_spec a2 i2.wf
    have gd : Good True r := good_negate (L := (Rx.but a b).den) (F := max F (max F1 (max F2 F3))) u2 order ho (fun fuel hf => by
      have := h1 fuel (by omega)
      simpa [Rx.build, NFA.but, e1 fuel (by omega), e2 fuel (by omega), a1 fuel (by omega), u1] using this) h2.lang hu
    exact ⟨F, r, h1, h2, gd.trim, fun _ => gd.ranked trivial⟩
  | compl a iha =>
    obtain ⟨F1, n, e1, i1⟩ := build_spec order ho a h
    obtain ⟨F, r, h1, h2⟩ := build_spec order ho (.compl a) h
    have gd : Good True r := good_negate (L := (Rx.compl a).den) (F := max F F1) i1.wf order ho (fun fuel hf => by
      have := h1 fuel (by omega)
      simpa [Rx.build, e1 fuel (by omega)] using this) h2.lang hu
    exact ⟨F, r, h1, h2, gd.trim, fun _ => gd.ranked trivial⟩
  | named a => exact absurd hu (by simp [Rx.Useful])
  | leaf n hn => exact ⟨0, n, fun _ _ => rfl, ⟨hn, fun _ => Iff.rfl, fun hf => hf, by simp⟩, hu, fun h => h⟩

/-- **C23.** For an expression whose parts all match something and that iterates nothing that matches the empty word, `maxLength()`
returns the length of a longest word, or -2 exactly when there is none. -/
theorem C23_max (hsz : 0 < CharSetLike.size C) (a : Rx C) (hs : a.Safe) (hp : a.Plain) (hsol : a.Solid) (hu : a.Useful) (hst : a.Strict)
    (order : List Bits → List Bits) (ho : Enumerates order) :
    ∃ F n m, (∀ fuel, F ≤ fuel → a.build order fuel = some n) ∧ (∀ fuel, F ≤ fuel → n.maxLength fuel = some m) ∧
      ((m = -2 ∧ ∀ K, ∃ w, a.den w ∧ K ≤ w.length) ∨ ∃ k : Nat, m = k ∧ Longest a.den k) := by
  obtain ⟨F1, n, h1, h2⟩ := build_shape hsz order ho a hp
  obtain ⟨F2, n', g1, g2, g3⟩ := build_good order ho a hs hu
  have e1 := g1 (max F1 F2) (by omega)
  rw [h1 (max F1 F2) (by omega)] at e1; cases e1
  have hn := h2.wf.toM
  have hne := h2.noEmpty hsol
  have hsg := h2.wf.single
  obtain ⟨b, b1, b2, b3⟩ := isUnbounded_spec hn
  by_cases hc : Cyclic n.rules 0
  · refine ⟨F1, n, -2, h1, fun fuel _ => (maxLength_eq hn hne fuel).1 hc, Or.inl ⟨rfl, fun K => ?_⟩⟩
    obtain ⟨m, hm, hf⟩ := cyclic_long (g3.ranked hst) g3.trim h2.wf hc K
    obtain ⟨w, hw, hl⟩ := (lang_from hn hne m).mpr ⟨n.accept, Nat.le_refl _, by omega, hf⟩
    exact ⟨w, (g2.lang w).mp hw, by omega⟩
  · have hbf : b = false := by cases b <;> simp_all
    have hacc : ∀ i, i < n.nstates → Acc (Succ n.rules) i := fun i hi => by
      rcases acc_or_cyclic hn hi with h | ⟨u, c, v, _, h2, h3⟩
      · exact h
      · exact absurd ⟨u, c, v, (g3.trim.cyc u c v h2 h3).1, h2, h3⟩ hc
    have hM : ∃ M : Nat, ∀ k z, To n.rules (Acpt n) k z → k ≤ M := by
      have : ∀ N, N ≤ n.nstates → ∃ M : Nat, ∀ k z, z < N → To n.rules (Acpt n) k z → k ≤ M := by
        intro N
        induction N with
        | zero => intro _; exact ⟨0, by intro k z h; omega⟩
        | succ N ih =>
          intro hN
          obtain ⟨M, hM⟩ := ih (by omega)
          obtain ⟨M', hM'⟩ := to_bound (T := Acpt n) (hacc N (by omega))
          refine ⟨M + M', fun k z hz hk => ?_⟩
          by_cases h : z = N
          · subst h; have := hM' k hk; omega
          · have := hM k z (by omega) hk; omega
      obtain ⟨M, hM⟩ := this n.nstates (Nat.le_refl _)
      refine ⟨M, fun k z hk => hM k z ?_ hk⟩
      cases hk with
      | stop h => exact h.2
      | eps e _ _ => exact (hn.target _ _ _ e).1
      | chr e _ _ => exact (hn.target _ _ _ e).1
    obtain ⟨M, hM⟩ := hM
    have hL := trim_lang h2.wf hne g3.trim
    -- the loop returns, and always the same
    have tot : ∀ fuel, slack M (initDist n) + (initAcc n).length ≤ fuel → ∃ k : Nat, n.maxLength fuel = some (k : Int) ∧ Longest a.den k := by
      intro fuel hf
      obtain ⟨res, hres⟩ := maxLenLoop_total (T := Acpt n) (M := M) hn.size (fun i c j h => (hn.target i c j h).1)
        (fun k z hk => by have := hM k z hk; omega) fuel 0 _ _ [] (maxInv_init n) (by simpa using hf)
      have hr := maxLenLoop_sound (T := Acpt n) hn.size (fun i c j h => (hn.target i c j h).1) fuel 0 _ _ [] res (maxInv_init n) (by simp) hres
      have heq := (maxLength_eq hn hne fuel).2.2 hc hL
      have h0 := hn.start
      rw [hres, Option.bind_some, List.getElem?_eq_getElem (by rw [hr.size]; exact h0)] at heq
      rcases (C23_max_partial hn hne fuel).1 _ heq with h | ⟨_, h⟩ | ⟨k, hk, h⟩
      · rcases hr.sound 0 _ (List.getElem?_eq_getElem (by rw [hr.size]; exact h0)) with h' | ⟨k, h', _⟩ <;> omega
      · obtain ⟨w, hw⟩ := hL; exact absurd hw (h w)
      · refine ⟨k, by rw [heq, hk], ?_⟩
        obtain ⟨⟨w, hw, hl⟩, h2⟩ := h
        exact ⟨⟨w, (g2.lang w).mp hw, hl⟩, fun w hw => h2 w ((g2.lang w).mpr hw)⟩
    obtain ⟨k, hk, hk'⟩ := tot _ (Nat.le_refl _)
    refine ⟨max F1 (slack M (initDist n) + (initAcc n).length), n, k, fun f hf => h1 f (by omega), fun fuel hf => ?_, Or.inr ⟨k, rfl, hk'⟩⟩
    obtain ⟨k2, h21, h22⟩ := tot fuel (by omega)
    obtain ⟨⟨w, hw, hl⟩, hu1⟩ := hk'
    obtain ⟨⟨w', hw', hl'⟩, hu2⟩ := h22
    have a1 := hu1 w' hw'
    have a2 := hu2 w hw
    rw [h21, show k = k2 by omega]

/-- Case: `a | b c`. -/
example : (Rx.alt (.set (ch 97) rfl) (.cat (.set (ch 98) rfl) (.set (ch 99) rfl))).Useful ∧
    (Rx.alt (.set (ch 97) rfl) (.cat (.set (ch 98) rfl) (.set (ch 99) rfl))).Strict := by simp [Rx.Useful, Rx.Strict]

/-- **C23, negative.** `maxLength()` never returns if some state, possibly unreachable, has arbitrarily long paths to an accepting
state, no cycle is reachable and something is matched. -/
theorem C23_max_hangs {n : NFA C} (hn : n.WfM) (hne : NoEmpty n.rules) (hc : ¬ Cyclic n.rules 0) (hw : ∃ w, n.Lang w) (x : Nat)
    (hx : ∀ K, ∃ k, K ≤ k ∧ To n.rules (Acpt n) k x) (fuel : Nat) : n.maxLength fuel = none := by
  rw [(maxLength_eq hn hne fuel).2.2 hc hw]
  cases hl : maxLenLoop n.nstates n.rules fuel 0 (initDist n) (initAcc n) [] with
  | none => rfl
  | some res =>
    have hr := maxLenLoop_sound (T := Acpt n) hn.size (fun i c j h => (hn.target i c j h).1) fuel 0 _ _ [] res (maxInv_init n) (by simp) hl
    obtain ⟨k0, _, hk0⟩ := hx 0
    obtain ⟨d, e1, e2⟩ := hr.complete _ _ hk0
    obtain ⟨k, h1, h2⟩ := hx (d.toNat + 1)
    obtain ⟨d', e1', e2'⟩ := hr.complete _ _ h2
    rw [e1] at e1'; cases e1'
    omega

instance {S : Nat} : DecidableEq (SeqCS S) := fun a b =>
  if h : a.s.data = b.s.data ∧ a.s.eps = b.s.eps then .isTrue (by
    obtain ⟨⟨d, e⟩, w⟩ := a; obtain ⟨⟨d', e'⟩, w'⟩ := b; obtain ⟨h1, h2⟩ := h; cases h1; cases h2; rfl)
  else .isFalse (by rintro rfl; exact h ⟨rfl, rfl⟩)

deriving instance DecidableEq for NFA

/-- `(a & b) b* | a`. -/
def hangRx : Rx (SeqCS 128) := .alt (.cat (.and (.set (ch 97) rfl) (.set (ch 98) rfl)) (.star (.set (ch 98) rfl))) (.set (ch 97) rfl)

/-- The automaton built for it. -/
def hangNfa : NFA (SeqCS 128) :=
  ⟨9, [[(CharSetLike.eps, 1), (CharSetLike.eps, 6)], [], [(CharSetLike.eps, 3)], [(ch 98, 4), (CharSetLike.eps, 5)],
    [(CharSetLike.eps, 3)], [(CharSetLike.eps, 8)], [(ch 97, 7)], [(CharSetLike.eps, 8)], [], []], 8⟩

/-- **C23, negative, concrete.** For `(a & b) b* | a`, which matches just `a`, `maxLength()` loops for ever. -/
theorem C23_max_hangs_concrete : hangRx.build List.dedup 1000 = some hangNfa ∧ hangRx.Safe ∧ hangRx.Solid ∧ (∀ fuel, hangNfa.maxLength fuel = none) ∧
    hangNfa.minLength = some (some 1) := by
  have hb : hangRx.build List.dedup 1000 = some hangNfa := by decide +kernel
  have hp : hangRx.Plain := by simp [hangRx, Rx.Plain]
  have hsol : hangRx.Solid := by
    refine ⟨⟨⟨?_, ?_⟩, ?_⟩, ?_⟩ <;> simp only [Rx.Solid] <;> decide +kernel
  have hsafe : hangRx.Safe := by simp [hangRx, Rx.Safe, Rx.Iter, Rx.Fresh]
  have he : ∀ i c j, ∀ es : List (SeqCS 128 × Nat), hangNfa.rules[i]? = some es → (c, j) ∈ es → HasEdge hangNfa.rules i c j := fun i c j es h1 h2 => ⟨es, h1, h2⟩
  have all : ∀ i c j, HasEdge hangNfa.rules i c j → i < j ∧ j < 9 ∨ (i = 4 ∧ j = 3) := by
    have key : ∀ i < 10, ∀ e ∈ (hangNfa.rules[i]?).getD [], i < e.2 ∧ e.2 < 9 ∨ (i = 4 ∧ e.2 = 3) := by decide +kernel
    rintro i c j ⟨es, h1, h2⟩
    have hi : i < 10 := (List.getElem?_eq_some_iff.mp h1).1
    have := key i hi
    rw [h1] at this
    exact this (c, j) h2
  have low : ∀ i c j, HasEdge hangNfa.rules i c j → (i = 0 ∨ i = 1 ∨ 6 ≤ i) → (j = 1 ∨ 6 ≤ j) ∧ i < j := by
    have key : ∀ i < 10, ∀ e ∈ (hangNfa.rules[i]?).getD [], (i = 0 ∨ i = 1 ∨ 6 ≤ i) → (e.2 = 1 ∨ 6 ≤ e.2) ∧ i < e.2 := by decide +kernel
    rintro i c j ⟨es, h1, h2⟩
    have hi : i < 10 := (List.getElem?_eq_some_iff.mp h1).1
    have := key i hi
    rw [h1] at this
    exact this (c, j) h2
  have wfm : hangNfa.WfM := by
    refine ⟨by decide, by decide, by decide, ?_⟩
    intro i c j h
    have hh := all i c j h
    obtain ⟨es, h1, h2⟩ := h
    have key : ∀ i < 10, (hangNfa.rules[i]?).getD [] ≠ [] → i < 8 := by decide +kernel
    have hi : i < 10 := (List.getElem?_eq_some_iff.mp h1).1
    have := key i hi (by rw [h1]; rintro rfl; simp at h2)
    simp only [hangNfa] at *
    omega
  have hne : NoEmpty hangNfa.rules := by
    have key : ∀ i < 10, ∀ e ∈ (hangNfa.rules[i]?).getD [], CharSetLike.isEps e.1 = false → CharSetLike.empty e.1 = false := by decide +kernel
    rintro i c j ⟨es, h1, h2⟩
    have hi : i < 10 := (List.getElem?_eq_some_iff.mp h1).1
    have := key i hi
    rw [h1] at this
    exact this (c, j) h2
  have hcyc : ¬ Cyclic hangNfa.rules 0 := by
    have lowp : ∀ {i j}, Path (fun _ => true) hangNfa.rules i j → (i = 0 ∨ i = 1 ∨ 6 ≤ i) → (j = 0 ∨ j = 1 ∨ 6 ≤ j) ∧ i ≤ j := by
      intro i j h
      induction h with
      | refl => intro h; exact ⟨h, Nat.le_refl _⟩
      | step e _ _ ih =>
        intro h
        have h1 := low _ _ _ e h
        have h2 := ih (by omega)
        exact ⟨h2.1, by omega⟩
    rintro ⟨u, c, v, h1, h2, h3⟩
    have a1 := lowp h1 (by simp)
    have a2 := low _ _ _ h2 a1.1
    have a3 := lowp h3 (by omega)
    omega
  have t8 : To hangNfa.rules (Acpt hangNfa) 0 8 := .stop ⟨by decide, by decide⟩
  have t3 : ∀ k, To hangNfa.rules (Acpt hangNfa) k 3 := by
    intro k
    induction k with
    | zero => exact .eps (he 3 CharSetLike.eps 5 _ rfl (by simp)) isEps_eps' (.eps (he 5 CharSetLike.eps 8 _ rfl (by simp)) isEps_eps' t8)
    | succ k ih => exact .chr (he 3 (ch 98) 4 _ rfl (by simp)) rfl (.eps (he 4 CharSetLike.eps 3 _ rfl (by simp)) isEps_eps' ih)
  have hlang : ∃ w, hangNfa.Lang w := by
    have : To hangNfa.rules (Acpt hangNfa) 1 0 :=
      .eps (he 0 CharSetLike.eps 6 _ rfl (by simp)) isEps_eps' (.chr (he 6 (ch 97) 7 _ rfl (by simp)) rfl (.eps (he 7 CharSetLike.eps 8 _ rfl (by simp)) isEps_eps' t8))
    obtain ⟨w, hw, _⟩ := (to_lang wfm hne 1).mp this
    exact ⟨w, hw⟩
  exact ⟨hb, hsafe, hsol, fun fuel => C23_max_hangs wfm hne hcyc hlang 3 (fun K => ⟨K, Nat.le_refl _, t3 K⟩) fuel, by decide +kernel⟩

/-- The automaton of `emptyWord*`. -/
def loopNfa : NFA (SeqCS 128) := ⟨2, [[(CharSetLike.eps, 0), (CharSetLike.eps, 1)], []], 1⟩

/-- **C23, negative.** -2 ("unbounded") is also returned for expressions matching a single word: `emptyWord*`. -/
theorem C23_max_overreported (order : List Bits → List Bits) (fuel : Nat) :
    (Rx.star .emptyWord).build order fuel = some loopNfa ∧ loopNfa.maxLength fuel = some (-2) ∧
    (∀ w, (Rx.star (.emptyWord : Rx (SeqCS 128))).den w ↔ w = []) := by
  refine ⟨rfl, ?_, ?_⟩
  · have he : ∀ i c j, HasEdge loopNfa.rules i c j → i = 0 ∧ c = CharSetLike.eps ∧ j < 2 := by
      rintro i c j ⟨es, h1, h2⟩
      match i, h1 with
      | 0, h1 => simp [loopNfa] at h1; subst h1; simp at h2; rcases h2 with ⟨rfl, rfl⟩ | ⟨rfl, rfl⟩ <;> simp
      | 1, h1 => simp [loopNfa] at h1; subst h1; simp at h2
      | i + 2, h1 => simp [loopNfa] at h1
    refine (maxLength_eq ⟨by decide, by decide, by decide, ?_⟩ ?_ fuel).1 ⟨0, _, 0, .refl, ⟨_, rfl, List.mem_cons_self⟩, .refl⟩
    · intro i c j h
      have := he i c j h
      simp only [loopNfa]; omega
    · intro i c j h hc
      rw [(he i c j h).2.1, isEps_eps'] at hc; cases hc
  · intro w
    constructor
    · intro hw
      simp only [Rx.den] at hw
      induction hw with
      | nil => rfl
      | app h1 _ ih => simp_all
    · rintro rfl; exact .nil

end Verif.Auto
