import Verif.Lexer.Lookahead
import Verif.Lexer.Props
import Verif.Auto.LengthProps

/-!
# Properties of lexer rules with lookahead and barrier

* C54 lookahead; C58 barriers.
-/

namespace Verif.Lexer

open Verif.Auto

variable {C : Type} [CharSetLike C]

/-- The length test accepts only languages whose words all have the same positive length, and the empty language. -/
theorem fixedLen_spec {l : NFA C} (hl : l.WfM) (ht : Tidy l.rules) (hne : NoEmpty l.rules) {fuel : Nat} {k : Int}
    (h : fixedLen fuel l = some (some k)) :
    (∃ m : Nat, 0 < m ∧ k = m ∧ (∃ v, l.Lang v) ∧ ∀ v, l.Lang v → v.length = m) ∨ (k = -1 ∧ ∀ v, ¬ l.Lang v) := by
  obtain ⟨r, h1, h2⟩ := C23_min_tidy hl ht hne
  simp only [fixedLen, h1, Option.bind_eq_bind, Option.bind_some] at h
  cases hm : l.maxLength fuel with
  | none => rw [hm] at h; cases h
  | some mx =>
    rw [hm, Option.bind_some] at h
    replace h : decideLen (minInt r) mx = some k := by simpa using h
    unfold decideLen at h
    split at h
    · cases h
    · split at h
      · cases h
      · rename_i h3 h4
        cases h
        cases r with
        | none => exact Or.inr ⟨rfl, h2⟩
        | some m =>
          simp only [minInt, ne_eq, Decidable.not_not] at h3 h4
          obtain ⟨e1, e2⟩ := C23_fixed_length hl hne ht fuel m h1 (by rw [hm, h4])
          exact Or.inl ⟨m, by omega, rfl, e1, e2⟩

/-- **C54.** If the lookahead of `r %la(l)` is not ignored, the automaton matches exactly the words of `r` followed by a word of
`l`, and all words of `l` have the length by which the action steps back (or `l` matches nothing, and so does the rule). -/
theorem C54_lookahead {r l n : NFA C} (hr : r.Wf) (hl : l.Wf) (ht : Tidy l.rules) (hne : NoEmpty l.rules) {fuel : Nat} {k : Int}
    (h : lookaheadRule fuel r l = some [⟨n, some k⟩]) :
    n.Wf ∧ (∀ w, n.Lang w ↔ ∃ u v, w = u ++ v ∧ r.Lang u ∧ l.Lang v) ∧
      ((∃ m : Nat, 0 < m ∧ k = m ∧ (∃ v, l.Lang v) ∧ ∀ v, l.Lang v → v.length = m) ∨ ∀ w, ¬ n.Lang w) := by
  simp only [lookaheadRule, Option.bind_eq_bind] at h
  cases hf : fixedLen fuel l with
  | none => rw [hf] at h; cases h
  | some o =>
    rw [hf, Option.bind_some] at h
    cases o with
    | none => simp at h
    | some k' =>
      obtain ⟨q, h1, h2, h3⟩ := concat_spec hr hl
      simp [h1] at h
      obtain ⟨rfl, rfl⟩ := h
      refine ⟨h2, h3, ?_⟩
      rcases fixedLen_spec hl.toM ht hne hf with h | ⟨_, h⟩
      · exact Or.inl h
      · right
        intro w hw
        obtain ⟨u, v, _, _, hv⟩ := (h3 w).mp hw
        exact h v hv

/-- **C54.** When the lookahead is ignored, the rule is just `r`, and the warned-about reason holds: the lookahead matches the empty
word, or `maxLength()` did not confirm the length found by `minLength()`. -/
theorem C54_ignored {r l n : NFA C} (hl : l.WfM) (ht : Tidy l.rules) (hne : NoEmpty l.rules) {fuel : Nat}
    (h : lookaheadRule fuel r l = some [⟨n, none⟩]) :
    n = r ∧ (l.Lang [] ∨ l.maxLength fuel = some (-2) ∨ ∃ v v', l.Lang v ∧ l.Lang v' ∧ v.length ≠ v'.length) := by
  simp only [lookaheadRule, Option.bind_eq_bind] at h
  cases hf : fixedLen fuel l with
  | none => rw [hf] at h; cases h
  | some o =>
    rw [hf, Option.bind_some] at h
    cases o with
    | some k' =>
      cases hc : r.concat l with
      | none => rw [hc] at h; cases h
      | some q => rw [hc] at h; simp at h
    | none =>
      simp at h
      refine ⟨h.symm, ?_⟩
      obtain ⟨q, h1, h2⟩ := C23_min_tidy hl ht hne
      simp only [fixedLen, h1, Option.bind_eq_bind, Option.bind_some] at hf
      cases hm : l.maxLength fuel with
      | none => rw [hm] at hf; cases hf
      | some mx =>
        rw [hm, Option.bind_some] at hf
        replace hf : decideLen (minInt q) mx = none := by simpa using hf
        cases q with
        | none =>
          rcases (C23_max_partial hl hne fuel).1 mx hm with rfl | ⟨rfl, _⟩ | ⟨k, _, ⟨w, hw, _⟩, _⟩
          · exact Or.inr (Or.inl rfl)
          · simp [minInt, decideLen] at hf
          · exact absurd hw (h2 w)
        | some m =>
          obtain ⟨⟨v, hv, hvl⟩, h3⟩ := h2
          by_cases h0 : m = 0
          · left
            have : v = [] := List.eq_nil_of_length_eq_zero (by omega)
            rwa [this] at hv
          · right
            rcases (C23_max_partial hl hne fuel).1 mx hm with rfl | ⟨rfl, h4⟩ | ⟨k, rfl, ⟨w, hw, hwl⟩, _⟩
            · exact Or.inl rfl
            · exact absurd hv (h4 v)
            · right
              refine ⟨v, w, hv, hw, ?_⟩
              rw [decideLen, minInt, if_neg (by omega)] at hf
              by_cases he : (m : Int) = k
              · rw [if_neg (by simp [he])] at hf; cases hf
              · omega

/-- **C54.** The decision at the level of expressions (those of `C23_max`): the lookahead is used exactly when all its words have the
same positive length. -/
theorem C54_decision_partial (hsz : 0 < CharSetLike.size C) (a : Rx C) (hs : a.Safe) (hp : a.Plain) (hsol : a.Solid) (hu : a.Useful)
    (hst : a.Strict) (order : List Bits → List Bits) (ho : Enumerates order) :
    ∃ F l o, (∀ fuel, F ≤ fuel → a.build order fuel = some l) ∧ (∀ fuel, F ≤ fuel → fixedLen fuel l = some o) ∧
      ∀ k, o = some k ↔ ∃ m : Nat, 0 < m ∧ k = m ∧ ∀ v, a.den v → v.length = m := by
  obtain ⟨F, l, mx, h1, h2, h3⟩ := C23_max hsz a hs hp hsol hu hst order ho
  obtain ⟨F', l', mn, g1, g2, g3⟩ := C23_min hsz a hp hsol order ho
  obtain ⟨F'', l'', i1, _, i3⟩ := C15_expression_partial a hs order ho
  have e1 := h1 (max F (max F' F'')) (by omega)
  have e2 := g1 (max F (max F' F'')) (by omega)
  have e3 := i1 (max F (max F' F'')) (by omega)
  rw [e1] at e2 e3; cases e2; cases e3
  have hmn : ∃ m, mn = some m ∧ (∃ w, a.den w ∧ w.length = m) ∧ ∀ w, a.den w → m ≤ w.length := by
    cases mn with
    | none =>
      exfalso
      rcases h3 with ⟨_, h⟩ | ⟨k, _, ⟨w, hw, _⟩, _⟩
      · obtain ⟨w, hw, _⟩ := h 0; exact g3 w ((i3 w).mpr hw)
      · exact g3 w ((i3 w).mpr hw)
    | some m =>
      obtain ⟨⟨w, hw, hwl⟩, h⟩ := g3
      exact ⟨m, rfl, ⟨w, (i3 w).mp hw, hwl⟩, fun w hw => h w ((i3 w).mpr hw)⟩
  obtain ⟨m, rfl, ⟨w, hw, hwl⟩, hmin⟩ := hmn
  refine ⟨F, l, decideLen m mx, h1, fun fuel hf => ?_, fun k => ?_⟩
  · simp only [fixedLen, g2, h2 fuel hf, Option.bind_eq_bind, Option.bind_some, minInt]
    rfl
  · unfold decideLen
    rcases h3 with ⟨rfl, h⟩ | ⟨M, rfl, ⟨w', hw', hwl'⟩, hmax⟩
    · constructor
      · intro h'
        split at h'
        · cases h'
        · rw [if_pos (by omega)] at h'; cases h'
      · rintro ⟨m', _, _, h'⟩
        obtain ⟨w'', hw'', hl⟩ := h (m' + 1)
        have := h' w'' hw''; omega
    · constructor
      · intro h'
        split at h'
        · cases h'
        · split at h'
          · cases h'
          · cases h'
            refine ⟨m, by omega, rfl, fun v hv => ?_⟩
            have := hmin v hv; have := hmax v hv; omega
      · rintro ⟨m', h0, rfl, h'⟩
        have a1 := h' w hw; have a2 := h' w' hw'
        rw [if_neg (by omega), if_neg (by omega), show m = m' by omega]

/-- Case: the lookahead `(a|b) c`. -/
example : (Rx.cat (.alt (.set (ch 97) rfl) (.set (ch 98) rfl)) (.set (ch 99) rfl)).Safe ∧
    (Rx.cat (.alt (.set (ch 97) rfl) (.set (ch 98) rfl)) (.set (ch 99) rfl)).Useful ∧
    (Rx.cat (.alt (.set (ch 97) rfl) (.set (ch 98) rfl)) (.set (ch 99) rfl)).Strict := by simp [Rx.Safe, Rx.Useful, Rx.Strict]

/-! ### Positions -/

theorem unit_reads {buf : List Nat} {p : Nat} {w : List Nat} {e : Nat} :
    Reads (bufIter unitNext buf) p w e ↔ p + w.length = e ∧ (w = [] ∨ e ≤ buf.length) ∧ w = (buf.drop p).take w.length := by
  have one : ∀ p (h : p < buf.length), (bufIter unitNext buf).next p = some (buf[p], p + 1) := by
    intro p h
    simp only [bufIter, List.drop_eq_getElem_cons h, unitNext, Option.map_some, List.length_drop]
    congr 2; omega
  constructor
  · intro h
    induction h with
    | nil => simp
    | @cons s c s' w e h1 h2 _ ih =>
      simp only [bufIter, decide_eq_true_eq] at h1
      rw [one s h1] at h2; cases h2
      obtain ⟨i1, i2, i3⟩ := ih
      refine ⟨by simp only [List.length_cons]; omega, Or.inr ?_, ?_⟩
      · rcases i2 with rfl | i2
        · simp at i1; omega
        · exact i2
      · rw [List.drop_eq_getElem_cons h1, List.length_cons, List.take_succ_cons, ← i3]
  · rintro ⟨rfl, h2, h3⟩
    induction w generalizing p with
    | nil => exact .nil
    | cons c w ih =>
      have h1 : p < buf.length := by
        rcases h2 with h | h
        · cases h
        · simp only [List.length_cons] at h; omega
      rw [List.drop_eq_getElem_cons h1, List.length_cons, List.take_succ_cons, List.cons.injEq] at h3
      obtain ⟨rfl, h3⟩ := h3
      refine .cons (by simpa [bufIter] using h1) (one p h1) ?_
      rw [List.length_cons, show p + (w.length + 1) = p + 1 + w.length by omega]
      exact ih (by right; rcases h2 with h | h; · cases h
                   · simp only [List.length_cons] at h; omega) h3

theorem unit_buf_stream (buf : List Nat) (p : Nat) (hp : p ≤ buf.length) : Stream (bufIter unitNext buf) p (buf.drop p) := by
  refine ⟨buf.length, unit_reads.mpr ⟨by rw [List.length_drop]; omega, Or.inr (Nat.le_refl _), by rw [List.take_length]⟩, by simp [bufIter]⟩

/-- **C54, position.** In a lexer over code units: when the rule has matched `k` code units from position `p`, the action first steps
back to a position `p'` inside the buffer; what lies between `p` and `p'` is matched by `r`, and what follows up to the end of the
match by `l`. -/
theorem C54_position {r l n : NFA C} (hr : r.Wf) (hl : l.Wf) (ht : Tidy l.rules) (hne : NoEmpty l.rules) {fuel : Nat} {j : Int}
    (h : lookaheadRule fuel r l = some [⟨n, some j⟩]) {buf : List Nat} {p k : Nat} (hk : p + k ≤ buf.length)
    (hm : n.Lang ((buf.drop p).take k)) :
    ∃ p', stepBack buf (p + k) (some j) = some p' ∧ p ≤ p' ∧ p' < p + k ∧ (p' : Int) = p + k - j ∧
      Reads (bufIter unitNext buf) p ((buf.drop p).take (p' - p)) p' ∧
      r.Lang ((buf.drop p).take (p' - p)) ∧ l.Lang ((buf.drop p').take (p + k - p')) := by
  obtain ⟨_, h2, h3⟩ := C54_lookahead hr hl ht hne h
  rcases h3 with ⟨m, hm0, rfl, _, hlen⟩ | h3
  · obtain ⟨u, v, huv, hu, hv⟩ := (h2 _).mp hm
    have hvl := hlen v hv
    have htot : u.length + v.length = k := by
      have := congrArg List.length huv
      rw [List.length_take, List.length_drop, List.length_append] at this
      omega
    have eu : (buf.drop p).take u.length = u := by
      have := congrArg (List.take u.length) huv
      rwa [List.take_take, Nat.min_eq_left (by omega), List.take_left] at this
    have ev : (buf.drop (p + u.length)).take v.length = v := by
      have := congrArg (List.drop u.length) huv
      rw [List.drop_left, List.drop_take, List.drop_drop] at this
      rw [show k - u.length = v.length by omega] at this
      exact this
    refine ⟨p + u.length, ?_, by omega, by omega, by omega, ?_, ?_, ?_⟩
    · simp only [stepBack]
      rw [if_pos (by omega)]
      congr 1; omega
    · rw [show p + u.length - p = u.length by omega, eu]
      exact unit_reads.mpr ⟨rfl, Or.inr (by omega), eu.symm⟩
    · rwa [show p + u.length - p = u.length by omega, eu]
    · rwa [show p + k - (p + u.length) = v.length by omega, ev]
  · exact absurd hm (h3 _)

/-- `b c`. -/
def bcRx : Rx (SeqCS 128) := .cat (.set (ch 98) rfl) (.set (ch 99) rfl)

theorem bc_fixed : ∃ F l, (∀ fuel, F ≤ fuel → bcRx.build List.dedup fuel = some l) ∧ l.Wf ∧ Tidy l.rules ∧ NoEmpty l.rules ∧
    ∀ fuel, F ≤ fuel → fixedLen fuel l = some (some 2) := by
  have hp : bcRx.Plain := by simp [bcRx, Rx.Plain]
  have hsol : bcRx.Solid := by refine ⟨?_, ?_⟩ <;> simp only [Rx.Solid] <;> decide +kernel
  obtain ⟨F, l, o, h1, h2, h3⟩ := C54_decision_partial (by decide) bcRx (by simp [bcRx, Rx.Safe]) hp hsol (by simp [bcRx, Rx.Useful])
    (by simp [bcRx, Rx.Strict]) List.dedup enumerates_dedup
  obtain ⟨F', l', g1, g2⟩ := build_shape (by decide) List.dedup enumerates_dedup bcRx hp
  have e := h1 (max F F') (by omega)
  rw [g1 (max F F') (by omega)] at e; cases e
  have ho : o = some 2 := (h3 2).mpr ⟨2, by omega, rfl, by
    rintro v ⟨x, y, rfl, ⟨a, rfl, _⟩, ⟨b, rfl, _⟩⟩; rfl⟩
  subst ho
  exact ⟨F, l, h1, g2.wf, g2.tidy, g2.noEmpty hsol, h2⟩

/-- Case of `C54_lookahead` and `C54_position`: the rule `a %la(bc)` on `abc`. -/
example : ∃ F l n, (NFA.ofSet (ch 97)).Wf ∧ l.Wf ∧ Tidy l.rules ∧ NoEmpty l.rules ∧ lookaheadRule F (.ofSet (ch 97)) l = some [⟨n, some 2⟩] ∧
    stepBack [97, 98, 99] 3 (some 2) = some 1 := by
  obtain ⟨F, l, _, h2, h3, h4, h5⟩ := bc_fixed
  obtain ⟨n, h6, _⟩ := concat_spec (wf_ofSet (ch 97)) h2
  exact ⟨F, l, n, wf_ofSet _, h2, h3, h4, by simp [lookaheadRule, h5 F (Nat.le_refl _), h6], by decide⟩

/-- **C54, negative.** With an iterator that decodes, characters and code units differ, and the action steps back by code units.
For `a %la(😀)` with the default iterator (UTF-16 buffer, UCS-4 characters) on `a😀` the match ends at position 3, and the action goes
to position 2, inside the surrogate pair, instead of 1. -/
theorem C54_decoding_wrong :
    let buf := [0x61, 0xd83d, 0xde00]
    let it := bufIter Utf.utf16ToUcs4Next buf
    Reads it 0 [0x61, 0x1f600] 3 ∧ stepBack buf 3 (some 1) = some 2 ∧ Reads it 0 [0x61] 1 ∧ ∀ w, ¬ Reads it 0 w 2 := by
  have n0 : (bufIter Utf.utf16ToUcs4Next [0x61, 0xd83d, 0xde00]).next 0 = some (0x61, 1) := by decide +kernel
  have n1 : (bufIter Utf.utf16ToUcs4Next [0x61, 0xd83d, 0xde00]).next 1 = some (0x1f600, 3) := by decide +kernel
  have h0 : (bufIter Utf.utf16ToUcs4Next [0x61, 0xd83d, 0xde00]).hasNext 0 = true := by decide +kernel
  have h1 : (bufIter Utf.utf16ToUcs4Next [0x61, 0xd83d, 0xde00]).hasNext 1 = true := by decide +kernel
  have h3 : (bufIter Utf.utf16ToUcs4Next [0x61, 0xd83d, 0xde00]).hasNext 3 = false := by decide +kernel
  refine ⟨.cons h0 n0 (.cons h1 n1 .nil), by decide, .cons h0 n0 .nil, ?_⟩
  intro w hw
  cases hw with
  | cons a1 a2 a3 =>
    rw [n0] at a2; cases a2
    cases a3 with
    | cons b1 b2 b3 =>
      rw [n1] at b2; cases b2
      cases b3 with
      | cons c1 _ _ => rw [h3] at c1; cases c1

/-! ### Barriers -/

/-- `w` contains a word of `B`. -/
def Contains (B : Lang) (w : List Nat) : Prop := ∃ x y z, w = x ++ y ++ z ∧ B y

/-- A word of `B` ends in `w` before the end of `w`. -/
def EndsEarly (B : Lang) (w : List Nat) : Prop := ∃ x y z, w = x ++ y ++ z ∧ B y ∧ z ≠ []

/-- **C58.** For an encoding with one code unit per character: if the barrier of `r %ba(b)` is not ignored it becomes two rules.  The
first matches the words of `r` that contain no word of `b`; the second those words `uv` with `u` in `r` and `v` in `b` in which no word
of `b` ends earlier, and steps back by the length of `v`. -/
theorem C58_barrier {r b : NFA C} (hr : r.Wf) (hb : b.Wf) (ht : Tidy b.rules) (hne : NoEmpty b.rules)
    (order : List Bits → List Bits) (ho : Enumerates order) {fuel0 : Nat} {k : Int} (hk : ∀ fuel, fuel0 ≤ fuel → fixedLen fuel b = some (some k)) :
    ∃ F n1 n2, (∀ fuel, F ≤ fuel → barrierRule order fuel (.ofSet CharSetLike.full) r b = some [⟨n1, none⟩, ⟨n2, some k⟩]) ∧ n1.Wf ∧ n2.Wf ∧
      (∀ w, n1.Lang w ↔ r.Lang w ∧ ¬ Contains b.Lang w) ∧
      (∀ w, n2.Lang w ↔ (∃ u v, w = u ++ v ∧ r.Lang u ∧ b.Lang v) ∧ ¬ EndsEarly b.Lang w) ∧
      ((∃ m : Nat, 0 < m ∧ k = m ∧ ∀ v, b.Lang v → v.length = m) ∨ ∀ w, ¬ n2.Lang w) := by
  generalize hdef : (CharSetLike.full : C) = full
  have hfull : CharSetLike.isEps full = false ∧ ∀ x, CharSetLike.accepts full x = true ↔ x < CharSetLike.size C :=
    ⟨hdef ▸ CharSetLike.full_eps, fun x => by rw [← hdef, CharSetLike.accepts_full, decide_eq_true_eq]⟩
  have hrw : ∀ w, r.Lang w → Word C w := fun w => lang_words
  have hbw : ∀ w, b.Lang w → Word C w := fun w => lang_words
  have hloop : ∀ w, (NFA.ofSet full).Loop w → Star (NFA.ofSet full).Lang w := by
    intro w hw
    cases hw with
    | nil => exact .nil
    | eps e h1 _ =>
      rw [(edge_ofSet.mp e).2.2, hfull.1] at h1; cases h1
    | chr e _ _ h =>
      rw [(edge_ofSet.mp e).2.1] at h
      cases h with
      | eps e _ _ => exact absurd (edge_ofSet.mp e).1 (by omega)
      | chr e _ _ _ => exact absurd (edge_ofSet.mp e).1 (by omega)
  obtain ⟨s, s1, s2, s3⟩ := star_of_iter (wf_ofSet full) (fun _ => Iff.rfl) hloop
  have s4 : ∀ w, s.Lang w ↔ Word C w := by
    intro w
    rw [s3]
    constructor
    · intro h
      induction h with
      | nil => intro x hx; cases hx
      | app h1 _ ih =>
        obtain ⟨x, rfl, hx⟩ := (lang_ofSet full hfull.1 _).mp h1
        intro y hy
        rcases List.mem_append.mp hy with h | h
        · rw [List.mem_singleton.mp h]; exact (hfull.2 x).mp hx
        · exact ih y h
    · intro h
      induction w with
      | nil => exact .nil
      | cons x w ih =>
        exact .app (u := [x]) ((lang_ofSet full hfull.1 _).mpr ⟨x, rfl, (hfull.2 x).mpr (h x List.mem_cons_self)⟩)
          (ih fun y hy => h y (List.mem_cons_of_mem _ hy))
  obtain ⟨e1, e11, e12, e13⟩ := concat_spec s2 hb
  obtain ⟨e2, e21, e22, e23⟩ := concat_spec e12 s2
  obtain ⟨F1, n1, a1, a2, a3⟩ := C18_difference hr e22 order ho
  obtain ⟨e3, e31, e32, e33⟩ := concat_spec e22 (wf_ofSet full)
  obtain ⟨c, c1, c2, c3⟩ := concat_spec hr hb
  obtain ⟨F2, n2, b1, b2, b3⟩ := C18_difference c2 e32 order ho
  have x2 : ∀ w, e2.Lang w ↔ Word C w ∧ Contains b.Lang w := by
    intro w
    rw [e23]
    constructor
    · rintro ⟨u, z, rfl, hu, hz⟩
      obtain ⟨x, y, rfl, hx, hy⟩ := (e13 u).mp hu
      refine ⟨?_, x, y, z, rfl, hy⟩
      intro a ha
      rcases List.mem_append.mp ha with h | h
      · rcases List.mem_append.mp h with h | h
        · exact (s4 x).mp hx a h
        · exact hbw y hy a h
      · exact (s4 z).mp hz a h
    · rintro ⟨hw, x, y, z, rfl, hy⟩
      exact ⟨x ++ y, z, rfl, (e13 _).mpr ⟨x, y, rfl, (s4 x).mpr fun a ha => hw a (by simp [ha]), hy⟩, (s4 z).mpr fun a ha => hw a (by simp [ha])⟩
  have x3 : ∀ w, e3.Lang w ↔ Word C w ∧ EndsEarly b.Lang w := by
    intro w
    rw [e33]
    constructor
    · rintro ⟨u, z, rfl, hu, hz⟩
      obtain ⟨hw, x, y, z', rfl, hy⟩ := (x2 u).mp hu
      obtain ⟨a, rfl, ha⟩ := (lang_ofSet full hfull.1 _).mp hz
      refine ⟨?_, x, y, z' ++ [a], by simp, hy, by simp⟩
      intro q hq
      rcases List.mem_append.mp hq with h | h
      · exact hw q h
      · rw [List.mem_singleton.mp h]; exact (hfull.2 a).mp ha
    · rintro ⟨hw, x, y, z, rfl, hy, hz⟩
      obtain ⟨z', a, rfl⟩ : ∃ z' a, z = z' ++ [a] := ⟨z.dropLast, z.getLast hz, (List.dropLast_append_getLast hz).symm⟩
      refine ⟨x ++ y ++ z', [a], by simp, (x2 _).mpr ⟨fun q hq => hw q ?_, x, y, z', rfl, hy⟩,
        (lang_ofSet full hfull.1 _).mpr ⟨a, rfl, (hfull.2 a).mpr (hw a (by simp))⟩⟩
      rw [← List.append_assoc]; exact List.mem_append_left _ hq
  refine ⟨max fuel0 (max F1 F2), n1, n2, fun fuel hf => ?_, a2, b2, ?_, ?_, ?_⟩
  · simp only [barrierRule, hk fuel (by omega), s1, e11, e21, a1 fuel (by omega), e31, c1, b1 fuel (by omega), Option.bind_eq_bind, Option.bind_some]
    rfl
  · intro w
    rw [a3, x2]
    constructor
    · rintro ⟨h1, h2⟩; exact ⟨h1, fun h => h2 ⟨hrw w h1, h⟩⟩
    · rintro ⟨h1, h2⟩; exact ⟨h1, fun h => h2 h.2⟩
  · intro w
    rw [b3, c3, x3]
    constructor
    · rintro ⟨h1, h2⟩
      refine ⟨h1, fun h => h2 ⟨?_, h⟩⟩
      obtain ⟨u, v, rfl, hu, hv⟩ := h1
      intro a ha
      rcases List.mem_append.mp ha with h | h
      · exact hrw u hu a h
      · exact hbw v hv a h
    · rintro ⟨h1, h2⟩; exact ⟨h1, fun h => h2 h.2⟩
  · rcases fixedLen_spec hb.toM ht hne (hk fuel0 (Nat.le_refl _)) with ⟨m, h1, h2, _, h3⟩ | ⟨_, h⟩
    · exact Or.inl ⟨m, h1, h2, h3⟩
    · right
      intro w hw
      obtain ⟨⟨u, v, rfl, hu, hv⟩, _⟩ := (b3 w).mp hw |>.imp_left (c3 w).mp
      exact h v hv

/-- Case: `a %ba(bc)`. -/
example : ∃ F l, (NFA.ofSet (ch 97)).Wf ∧ l.Wf ∧ Tidy l.rules ∧ NoEmpty l.rules ∧ (∀ fuel, F ≤ fuel → fixedLen (C := SeqCS 128) fuel l = some (some 2)) := by
  obtain ⟨F, l, _, h2, h3, h4, h5⟩ := bc_fixed
  exact ⟨F, l, wf_ofSet _, h2, h3, h4, h5⟩

end Verif.Lexer
