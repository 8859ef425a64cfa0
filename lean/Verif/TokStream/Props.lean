import Verif.TokStream.Model

/-!
# C04: token stream replay

Specification side: a client's contract `Valid` tracks only the number of tokens; the claims are stated
on the tokens returned by `run`.
-/

namespace Verif.TokStream

/-- Histories in contract: rewinds go to 0..size and writes to existing tokens.  The state is the pair
(number of tokens, cursor); reading at the end adds a token. -/
def Valid : Nat × Nat → List Op → Prop
  | _, [] => True
  | (n, c), .push _ :: os => Valid (n + 1, c) os
  | (n, c), .read :: os => Valid (if c = n then (n + 1, c + 1) else (n, c + 1)) os
  | (n, _), .rewind i :: os => 0 ≤ i ∧ i ≤ n ∧ Valid (n, i.toNat) os
  | (n, _), .reset :: os => Valid (n, 0) os
  | _, .clear :: os => Valid (0, 0) os
  | (n, c), .set i _ :: os => i < n ∧ Valid (n, c) os

/-- Operations that do not touch stored tokens. -/
def Op.keeps : Op → Bool
  | .clear | .set _ _ => false
  | _ => true

theorem read_spec {s : Stream} (h : s.idx ≤ s.size) :
    (s.idx < s.size ∧ ∃ t, s.buf[s.idx]? = some t ∧ s.read = some (⟨s.buf, s.idx + 1⟩, t)) ∨
    (s.idx = s.size ∧ s.read = some (⟨s.buf ++ [⟨1000, 0, 0⟩], s.idx + 1⟩, ⟨1000, 0, 0⟩)) := by
  unfold Stream.size at h
  by_cases he : s.idx = s.buf.length
  · right
    refine ⟨he, ?_⟩
    simp [Stream.read, Stream.size, Stream.push, he]
  · left
    have hlt : s.idx < s.buf.length := by omega
    exact ⟨hlt, s.buf[s.idx], by simp, by simp [Stream.read, Stream.size, he, hlt]⟩

/-- C04, no operation in contract misbehaves: every valid history runs, and the cursor stays within
0..size. -/
theorem C04_cursor (s : Stream) (h : s.idx ≤ s.size) (os : List Op) (hv : Valid (s.size, s.idx) os) :
    ∃ s' ts, s.run os = some (s', ts) ∧ s'.idx ≤ s'.size := by
  induction os generalizing s with
  | nil => exact ⟨s, [], rfl, h⟩
  | cons o os ih =>
    have key : ∀ (s1 : Stream) (t1 : List Tok), s.step o = some (s1, t1) → s1.idx ≤ s1.size →
        Valid (s1.size, s1.idx) os → ∃ s' ts, s.run (o :: os) = some (s', ts) ∧ s'.idx ≤ s'.size := by
      intro s1 t1 h1 h2 h3
      obtain ⟨s', ts, h4, h5⟩ := ih s1 h2 h3
      exact ⟨s', t1 ++ ts, by simp [Stream.run, h1, h4], h5⟩
    cases o with
    | push t =>
      refine key _ _ rfl ?_ ?_
      · simp [Stream.push, Stream.size] at h ⊢; omega
      · simpa [Stream.push, Stream.size, Valid] using hv
    | read =>
      rcases read_spec h with ⟨hlt, t, _, hr⟩ | ⟨he, hr⟩
      · refine key _ _ (by simp [Stream.step, hr]; exact ⟨rfl, rfl⟩) ?_ ?_
        · simp [Stream.size] at hlt ⊢; omega
        · have hne := Nat.ne_of_lt hlt
          simp only [Valid, hne, if_false] at hv
          exact hv
      · refine key _ _ (by simp [Stream.step, hr]; exact ⟨rfl, rfl⟩) ?_ ?_
        · simp [Stream.size] at he ⊢; omega
        · simpa [Valid, he, Stream.size] using hv
    | rewind i =>
      obtain ⟨h1, h2, h3⟩ := hv
      refine key _ _ (by simp [Stream.step, Stream.rewind, h1, h2]; exact ⟨rfl, rfl⟩) ?_ h3
      simp [Stream.size] at h2 ⊢; omega
    | reset => exact key _ _ rfl (by simp [Stream.reset]) hv
    | clear => exact key _ _ rfl (by simp [Stream.clear]) hv
    | set i t =>
      refine key _ _ (by simp only [Stream.step]; rw [if_pos hv.1]) ?_ ?_
      · simpa [Stream.size] using h
      · simpa [Stream.size] using hv.2

/-- Stored tokens survive every history of pushes, reads, rewinds and resets. -/
theorem C04_stored (s s' : Stream) (h : s.idx ≤ s.size) (os : List Op) (hk : ∀ o ∈ os, o.keeps = true)
    (ts : List Tok) (hr : s.run os = some (s', ts)) : s.buf <+: s'.buf ∧ s'.idx ≤ s'.size := by
  induction os generalizing s ts with
  | nil => simp [Stream.run] at hr; simp [← hr.1, h]
  | cons o os ih =>
    simp only [Stream.run, Option.bind_eq_some_iff, Option.map_eq_some_iff, Prod.mk.injEq] at hr
    obtain ⟨⟨s1, t1⟩, h1, ⟨s2, t2⟩, h2, rfl, _⟩ := hr
    have hos : ∀ o ∈ os, o.keeps = true := fun o ho => hk o (List.mem_cons_of_mem _ ho)
    have ho := hk o List.mem_cons_self
    have key : s.buf <+: s1.buf ∧ s1.idx ≤ s1.size := by
      cases o with
      | push t =>
        simp only [Stream.step, Option.some.injEq, Prod.mk.injEq] at h1
        obtain ⟨rfl, _⟩ := h1
        simp [Stream.push, Stream.size] at h ⊢; omega
      | read =>
        simp only [Stream.step, Option.map_eq_some_iff, Prod.mk.injEq] at h1
        obtain ⟨⟨a, b⟩, h1, rfl, _⟩ := h1
        rcases read_spec h with ⟨hlt, t, _, hr⟩ | ⟨he, hr⟩
        · rw [hr] at h1; simp only [Option.some.injEq, Prod.mk.injEq] at h1
          obtain ⟨rfl, _⟩ := h1
          exact ⟨List.prefix_refl _, hlt⟩
        · rw [hr] at h1; simp only [Option.some.injEq, Prod.mk.injEq] at h1
          obtain ⟨rfl, _⟩ := h1
          simp [Stream.size] at he ⊢; omega
      | rewind i =>
        simp only [Stream.step, Stream.rewind] at h1
        split at h1
        case isTrue hi =>
          simp only [Option.map_some, Option.some.injEq, Prod.mk.injEq] at h1
          obtain ⟨rfl, _⟩ := h1
          have h2 := hi.2
          simp only [Stream.size] at h2 ⊢
          exact ⟨List.prefix_refl _, by omega⟩
        case isFalse => simp at h1
      | reset =>
        simp only [Stream.step, Option.some.injEq, Prod.mk.injEq] at h1
        obtain ⟨rfl, _⟩ := h1
        simp [Stream.reset, Stream.size]
      | clear => simp [Op.keeps] at ho
      | set i t => simp [Op.keeps] at ho
    obtain ⟨h3, h4⟩ := ih s1 key.2 hos t2 h2
    exact ⟨List.IsPrefix.trans key.1 h3, h4⟩

/-- Reading `n` stored tokens returns the tokens from the cursor on and stores nothing. -/
theorem C04_reads (s : Stream) (n : Nat) (h : s.idx + n ≤ s.size) :
    s.run (List.replicate n .read) = some (⟨s.buf, s.idx + n⟩, (s.buf.drop s.idx).take n) := by
  induction n generalizing s with
  | zero => simp [Stream.run]
  | succ n ih =>
    rcases read_spec (s := s) (by omega) with ⟨hlt, t, ht, hr⟩ | ⟨he, _⟩
    · simp only [List.replicate_succ, Stream.run, Stream.step, hr, Option.map_some, Option.bind_some]
      rw [ih ⟨s.buf, s.idx + 1⟩ (by simp [Stream.size] at h ⊢; omega)]
      simp only [Option.map_some, Option.some.injEq, Prod.mk.injEq]
      refine ⟨by congr 1; omega, ?_⟩
      have hi : s.idx < s.buf.length := hlt
      rw [List.getElem?_eq_getElem hi] at ht
      simp only [Option.some.injEq] at ht
      rw [List.drop_eq_getElem_cons hi, ht]
      simp
    · simp [Stream.size] at h he; omega

/-- C04, push order: tokens pushed into a new stream are read back in order. -/
theorem C04_push_order (ts : List Tok) (n : Nat) (hn : n ≤ ts.length) :
    ∃ s, Stream.init.run (ts.map .push) = some (s, ts) ∧
      s.run (List.replicate n .read) = some (⟨ts, n⟩, ts.take n) := by
  have H : ∀ (ts : List Tok) (s : Stream), s.run (ts.map .push) = some (⟨s.buf ++ ts, s.idx⟩, ts) := by
    intro ts
    induction ts with
    | nil => intro s; simp [Stream.run]
    | cons t ts ih => intro s; simp [Stream.run, Stream.step, ih, Stream.push]
  refine ⟨⟨ts, 0⟩, by simpa [Stream.init] using H ts Stream.init, ?_⟩
  have := C04_reads ⟨ts, 0⟩ n (by simpa [Stream.size] using hn)
  simpa using this

/-- C04, replay: what `n` reads returned in some state is returned again after any history of pushes,
reads, rewinds and resets, once the client rewinds to the index where it started. -/
theorem C04_replay (s s' : Stream) (hs : s.idx ≤ s.size) (n : Nat) (hn : s.idx + n ≤ s.size) (os : List Op)
    (hk : ∀ o ∈ os, o.keeps = true) (ts : List Tok) (hr : s.run os = some (s', ts)) :
    ∃ a b out, s.run (List.replicate n .read) = some (a, out) ∧
      s'.run (.rewind s.idx :: List.replicate n .read) = some (b, out) := by
  obtain ⟨hpre, _⟩ := C04_stored s s' hs os hk ts hr
  have hle : s.size ≤ s'.size := hpre.length_le
  refine ⟨_, ⟨s'.buf, s.idx + n⟩, _, C04_reads s n hn, ?_⟩
  have hrew : s'.rewind s.idx = some ⟨s'.buf, s.idx⟩ := by
    simp only [Stream.rewind]; rw [if_pos (by omega)]; simp
  simp only [Stream.run, Stream.step, hrew, Option.map_some, Option.bind_some]
  rw [C04_reads ⟨s'.buf, s.idx⟩ n (by simp [Stream.size] at hle hn ⊢; omega)]
  simp only [Option.map_some, List.nil_append, Option.some.injEq, Prod.mk.injEq, true_and]
  obtain ⟨w, hw⟩ := hpre
  simp only [Stream.size] at hn hs
  rw [← hw, List.drop_append_of_le_length hs, List.take_append_of_le_length (by simp; omega)]

/-- C04, end of input: reading at the end gives a token of kind 1000 and keeps all stored tokens. -/
theorem C04_eof (s : Stream) (h : s.idx = s.size) :
    ∃ s' t, s.read = some (s', t) ∧ t.kind = 1000 ∧ s'.buf.take s.size = s.buf ∧ s'.idx = s'.size := by
  rcases read_spec (s := s) (by omega) with ⟨hlt, _⟩ | ⟨_, hr⟩
  · omega
  · exact ⟨_, _, hr, rfl, by simp [Stream.size], by simp [Stream.size] at h ⊢; omega⟩

/-- `reset()` is documented to clear the stream (line 73) but keeps all tokens: reading after it
returns the old ones. -/
theorem C04_reset_keeps_tokens (s : Stream) : s.reset.buf = s.buf ∧ s.reset.idx = 0 := ⟨rfl, rfl⟩

/-- Non-vacuity: a stored prefix, an end-of-input read, a later push and a replay. -/
example : Valid (0, 0) [.push ⟨1001, 0, 1⟩, .push ⟨1002, 2, 3⟩, .read, .rewind 1, .read, .read, .rewind 0, .read] := by
  simp [Valid]

example : (Stream.init.run [.push ⟨1001, 0, 1⟩, .read, .read, .rewind 0, .read]).map (·.2) =
    some [⟨1001, 0, 1⟩, ⟨1001, 0, 1⟩, ⟨1000, 0, 0⟩, ⟨1001, 0, 1⟩] := by decide

end Verif.TokStream
