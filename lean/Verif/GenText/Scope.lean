import Verif.GenText.Model
import Verif.GenText.ScopeSpec

/-! # Names in the text of parse functions: lemmas -/

namespace Verif.GenText

open Verif.Grammar
open Verif.Gen (Ctx isCond flatten rulesOf)
open Spec

def Goes (st : Sc) (ts : Toks) (st' : Sc) : Prop := ∀ p, Sc.scan p st ts = some st'

theorem scan_append (st : Sc) (a b : Toks) : ∀ p, Sc.scan p st (a ++ b) = (Sc.scan p st a).bind fun st' => Sc.scan (a.getLastD p) st' b := by
  induction a generalizing st with
  | nil => intro p; rfl
  | cons t a ih =>
    intro p
    simp only [List.cons_append, Sc.scan]
    cases Sc.step p st t with
    | none => rfl
    | some st' =>
      simp only [Option.bind_some, ih]
      cases a with
      | nil => rfl
      | cons x a => rfl

theorem Goes.append {st st1 st2 a b} (h : Goes st a st1) (h' : Goes st1 b st2) : Goes st (a ++ b) st2 := by
  intro p
  rw [scan_append, h p]
  exact h' _

theorem Goes.nil {st} : Goes st [] st := fun _ => rfl

/-- A token that has nothing to do with names. -/
def neutral : Tok → Bool
  | .lb | .rb | .colon | .num _ _ => false
  | _ => true

theorem step_neutral {p st t} (h : neutral t = true) : Sc.step p st t = some st := by
  cases t <;> first | rfl | cases h

theorem goes_neutral {st : Sc} : ∀ {ts : Toks}, (∀ t ∈ ts, neutral t = true) → Goes st ts st
  | [], _ => .nil
  | t :: ts, h => fun p => by
    rw [Sc.scan, step_neutral (h t (.head _))]
    exact goes_neutral (fun x hx => h x (.tail _ hx)) t

/-- The names in use are older than the counters. -/
structure Before (k d : Nat) (st : Sc) : Prop where
  vars : ∀ v ∈ st.visible, if v.1 = .«__node_» then v.2 < d else v.2 ≤ k
  labels : ∀ i ∈ st.labels, i ≤ k
  pending : ∀ p ∈ st.pending, p.1 ≤ k
  open' : st.scopes ≠ []

structure Moves (c k d k' d' : Nat) (st st' : Sc) : Prop where
  scopes : ∃ new top rest, st.scopes = top :: rest ∧ st'.scopes = (new ++ top) :: rest ∧ ∀ v ∈ new, if v.1 = .«__node_» then d ≤ v.2 ∧ v.2 < d' else k < v.2 ∧ v.2 ≤ k'
  labels : ∃ l, st'.labels = l ++ st.labels ∧ ∀ i ∈ l, k < i ∧ i ≤ k'
  pending : ∃ q, st'.pending = q ++ st.pending ∧ ∀ x ∈ q, c ≠ 0 ∧ x.1 = c ∧ ∀ v ∈ st.visible, v ∈ x.2
  le : k ≤ k'
  le' : d ≤ d'

theorem Moves.visible {c k d k' d' st st'} (h : Moves c k d k' d' st st') {v} (hv : v ∈ st.visible) : v ∈ st'.visible := by
  obtain ⟨new, top, rest, h1, h2, -⟩ := h.scopes
  rw [Sc.visible, h1, List.flatten_cons] at hv
  rw [Sc.visible, h2, List.flatten_cons]
  rcases List.mem_append.1 hv with hv | hv
  · exact List.mem_append_left _ (List.mem_append_right _ hv)
  · exact List.mem_append_right _ hv

theorem Moves.before {c k d k' d' st st'} (h : Moves c k d k' d' st st') (B : Before k d st) (hc : c ≤ k) : Before k' d' st' where
  vars v hv := by
    obtain ⟨new, top, rest, h1, h2, h3⟩ := h.scopes
    have le := h.le
    have le' := h.le'
    have old : v ∈ st.visible → if v.1 = .«__node_» then v.2 < d' else v.2 ≤ k' := fun hv => by
      have := B.vars v hv
      split at this
      · next e => rw [if_pos e]; omega
      · next e => rw [if_neg e]; omega
    rw [Sc.visible, h2, List.flatten_cons] at hv
    rcases List.mem_append.1 hv with hv | hv
    · rcases List.mem_append.1 hv with hv | hv
      · have := h3 v hv
        split at this
        · next e => rw [if_pos e]; omega
        · next e => rw [if_neg e]; omega
      · exact old (by rw [Sc.visible, h1, List.flatten_cons]; exact List.mem_append_left _ hv)
    · exact old (by rw [Sc.visible, h1, List.flatten_cons]; exact List.mem_append_right _ hv)
  labels i hi := by
    obtain ⟨l, h1, h2⟩ := h.labels
    have le := h.le
    rw [h1] at hi
    rcases List.mem_append.1 hi with hi | hi
    · exact (h2 i hi).2
    · have := B.labels i hi; omega
  pending p hp := by
    obtain ⟨q, h1, h2⟩ := h.pending
    have le := h.le
    rw [h1] at hp
    rcases List.mem_append.1 hp with hp | hp
    · have := (h2 p hp).2.1; omega
    · have := B.pending p hp; omega
  open' := by
    obtain ⟨new, top, rest, h1, h2, -⟩ := h.scopes
    rw [h2]
    simp

theorem Moves.refl {c k d st} (h : st.scopes ≠ []) : Moves c k d k d st st where
  scopes := by
    cases e : st.scopes with
    | nil => exact absurd e h
    | cons a l => exact ⟨[], a, l, rfl, rfl, nofun⟩
  labels := ⟨[], rfl, nofun⟩
  pending := ⟨[], rfl, nofun⟩
  le := Nat.le_refl _
  le' := Nat.le_refl _

theorem Moves.trans {c k d k1 d1 k2 d2 st st1 st2} (h : Moves c k d k1 d1 st st1) (h' : Moves c k1 d1 k2 d2 st1 st2) : Moves c k d k2 d2 st st2 where
  scopes := by
    obtain ⟨new, top, rest, h1, h2, h3⟩ := h.scopes
    obtain ⟨new', top', rest', g1, g2, g3⟩ := h'.scopes
    rw [h2] at g1
    obtain ⟨rfl, rfl⟩ := List.cons.inj g1
    have a1 := h.le
    have a2 := h.le'
    have b1 := h'.le
    have b2 := h'.le'
    refine ⟨new' ++ new, top, rest, h1, by rw [g2, List.append_assoc], fun v hv => ?_⟩
    rcases List.mem_append.1 hv with hv | hv
    · have := g3 v hv
      split at this
      · next e => rw [if_pos e]; omega
      · next e => rw [if_neg e]; omega
    · have := h3 v hv
      split at this
      · next e => rw [if_pos e]; omega
      · next e => rw [if_neg e]; omega
  labels := by
    obtain ⟨l, h1, h2⟩ := h.labels
    obtain ⟨l', g1, g2⟩ := h'.labels
    have a1 := h.le
    have b1 := h'.le
    refine ⟨l' ++ l, by rw [g1, h1, List.append_assoc], fun i hi => ?_⟩
    rcases List.mem_append.1 hi with hi | hi
    · have := g2 i hi; omega
    · have := h2 i hi; omega
  pending := by
    obtain ⟨q, h1, h2⟩ := h.pending
    obtain ⟨q', g1, g2⟩ := h'.pending
    refine ⟨q' ++ q, by rw [g1, h1, List.append_assoc], fun x hx => ?_⟩
    rcases List.mem_append.1 hx with hx | hx
    · obtain ⟨e1, e2, e3⟩ := g2 x hx
      exact ⟨e1, e2, fun v hv => e3 v (h.visible hv)⟩
    · exact h2 x hx
  le := Nat.le_trans h.le h'.le
  le' := Nat.le_trans h.le' h'.le'

/-- A text with catch id `c` and counters `k`, `d` before and `k'`, `d'` behind. -/
def Fine (c k d k' d' : Nat) (ts : Toks) : Prop := ∀ st, Before k d st → ∃ st', Goes st ts st' ∧ Moves c k d k' d' st st'

theorem Fine.append {c k d k1 d1 k2 d2 a b} (hc : c ≤ k) (h : Fine c k d k1 d1 a) (h' : Fine c k1 d1 k2 d2 b) : Fine c k d k2 d2 (a ++ b) := by
  intro st B
  obtain ⟨st1, g1, m1⟩ := h st B
  obtain ⟨st2, g2, m2⟩ := h' st1 (m1.before B hc)
  exact ⟨st2, g1.append g2, m1.trans m2⟩

theorem Fine.neutral {c k d ts} (h : ∀ t ∈ ts, neutral t = true) : Fine c k d k d ts := fun st B => ⟨st, goes_neutral h, .refl B.open'⟩

theorem Fine.nil {c k d} : Fine c k d k d [] := Fine.neutral nofun

theorem before_push {k d st} (B : Before k d st) : Before k d { st with scopes := [] :: st.scopes } := { B with vars := fun v hv => B.vars v (by simpa [Sc.visible] using hv), open' := by simp }

theorem Fine.closed {c k d k' d' ts} (h : Fine c k d k' d' ts) (st : Sc) (B : Before k d st) : ∃ st', Goes st (.lb :: (ts ++ [.rb])) st' ∧ Moves c k d k' d' st st' ∧ st'.scopes = st.scopes := by
  obtain ⟨st1, g1, m1⟩ := h _ (before_push B)
  obtain ⟨new, top, rest, h1, h2, h3⟩ := m1.scopes
  simp only [List.cons.injEq] at h1
  obtain ⟨rfl, rfl⟩ := h1
  obtain ⟨a, l, e⟩ := List.exists_cons_of_ne_nil B.open'
  refine ⟨{ st1 with scopes := st.scopes }, fun p => ?_, ⟨⟨[], a, l, e, e, nofun⟩, m1.labels, ?_, m1.le, m1.le'⟩, rfl⟩
  · have : Goes st1 [.rb] { st1 with scopes := st.scopes } := fun p => by
      simp only [Sc.scan, Sc.step]
      rw [h2, e]
      rfl
    rw [Sc.scan]
    exact (g1.append this) _
  · obtain ⟨q, h4, h5⟩ := m1.pending
    exact ⟨q, h4, fun x hx => ⟨(h5 x hx).1, (h5 x hx).2.1, fun v hv => (h5 x hx).2.2 v (by simpa [Sc.visible] using hv)⟩⟩

theorem Fine.block {c k d k' d' ts} (h : Fine c k d k' d' ts) : Fine c k d k' d' (.lb :: (ts ++ [.rb])) := fun st B =>
  have ⟨st', g, m, _⟩ := h.closed st B
  ⟨st', g, m⟩

theorem fine_goto {c k d : Nat} (hc : c ≠ 0) : Fine c k d k d [.kGoto, .num .«__catch_» c, .semi] := fun st B =>
  ⟨{ st with pending := (c, st.visible) :: st.pending }, fun p => by simp [Sc.scan, Sc.step], { Moves.refl (c := c) (k := k) (d := d) B.open' with
    pending := ⟨[(c, st.visible)], rfl, fun x hx => by
      rw [List.mem_singleton] at hx
      subst hx
      exact ⟨hc, rfl, fun v hv => hv⟩⟩ }⟩

theorem fine_leave (c k d : Nat) : Fine c k d k d (leaveToks c) := by
  unfold leaveToks
  split
  · exact .neutral (by simp [neutral])
  · next hc => exact fine_goto hc

end Verif.GenText
