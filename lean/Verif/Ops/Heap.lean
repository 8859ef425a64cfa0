import Verif.Ops.Tree

/-! # Nodes on the heap and expressions -/

namespace Verif.Ops

/-- The same node but for the span. -/
def Alike (x y : Node) : Prop := y.kind = x.kind ∧ y.op = x.op ∧ y.first = x.first ∧ y.second = x.second ∧ y.third = x.third

theorem body_head {h : List Node} {t : Tree} {p : Nat} {s : Int} {F : List Nat} (hb : Body h t p s F) : ∃ G, F = p :: G := by
  induction t generalizing s with
  | base n => exact ⟨[], hb.1⟩
  | paren t ih => exact ih hb
  | pre o t _ => obtain ⟨c, G, h1, _⟩ := hb; exact ⟨G, h1⟩
  | post o t _ => obtain ⟨c, G, h1, _⟩ := hb; exact ⟨G, h1⟩
  | bin o l r _ _ => obtain ⟨c, d, G, G', h1, _⟩ := hb; exact ⟨_, h1⟩
  | tern o l m r _ _ _ => obtain ⟨c, d, e, G, G', G'', h1, _⟩ := hb; exact ⟨_, h1⟩

theorem body_mem {h : List Node} {t : Tree} {p : Nat} {s : Int} {F : List Nat} (hb : Body h t p s F) : p ∈ F := by
  obtain ⟨G, rfl⟩ := body_head hb
  exact List.mem_cons_self

theorem span_mono {h h' : List Node} {p : Nat} {s e : Int} (ha : h'[p]? = h[p]?) (hs : Span h p s e) : Span h' p s e := by
  unfold Span at *
  rw [ha]; exact hs

/-- Expressions depend on their nodes only, and not on the span of the first one. -/
theorem body_mono {h h' : List Node} {t : Tree} : ∀ {p : Nat} {s : Int} {F : List Nat}, Body h t p s F → F.Nodup → (∀ i ∈ F, i ≠ p → h'[i]? = h[i]?) →
    (∀ x, h[p]? = some x → ∃ y, h'[p]? = some y ∧ Alike x y) → Body h' t p s F := by
  induction t with
  | base n =>
    intro p s F hb _ _ hp
    obtain ⟨h1, x, h2, h3⟩ := hb
    obtain ⟨y, h4, h5⟩ := hp x h2
    exact ⟨h1, y, h4, h5.1.trans h3⟩
  | paren t ih => intro p s F hb hn ha hp; exact ih (s := s + 1) hb hn ha hp
  | pre o t ih =>
    intro p s F hb hn ha hp
    obtain ⟨c, G, rfl, ⟨x, h2, h3, h4, h5⟩, h6, h7⟩ := hb
    obtain ⟨hn1, hn2⟩ := List.nodup_cons.1 hn
    have hG : ∀ i ∈ G, h'[i]? = h[i]? := fun i hi => ha i (by simp [hi]) fun e => hn1 (e ▸ hi)
    obtain ⟨y, g1, g2, g3, g4, _⟩ := hp x h2
    exact ⟨c, G, rfl, ⟨y, g1, g2.trans h3, g3.trans h4, g4.trans h5⟩,
      ih h6 hn2 (fun i hi _ => hG i hi) (fun x hx => ⟨x, (hG c (body_mem h6)).trans hx, rfl, rfl, rfl, rfl, rfl⟩), span_mono (hG c (body_mem h6)) h7⟩
  | post o t ih =>
    intro p s F hb hn ha hp
    obtain ⟨c, G, rfl, ⟨x, h2, h3, h4, h5⟩, h6, h7⟩ := hb
    obtain ⟨hn1, hn2⟩ := List.nodup_cons.1 hn
    have hG : ∀ i ∈ G, h'[i]? = h[i]? := fun i hi => ha i (by simp [hi]) fun e => hn1 (e ▸ hi)
    obtain ⟨y, g1, g2, g3, g4, _⟩ := hp x h2
    exact ⟨c, G, rfl, ⟨y, g1, g2.trans h3, g3.trans h4, g4.trans h5⟩,
      ih h6 hn2 (fun i hi _ => hG i hi) (fun x hx => ⟨x, (hG c (body_mem h6)).trans hx, rfl, rfl, rfl, rfl, rfl⟩), span_mono (hG c (body_mem h6)) h7⟩
  | bin o l r ihl ihr =>
    intro p s F hb hn ha hp
    obtain ⟨c, d, G, G', rfl, ⟨x, h2, h3, h4, h5, h5'⟩, ⟨h6, h7⟩, h8, h9⟩ := hb
    obtain ⟨hn1, hn2⟩ := List.nodup_cons.1 hn
    obtain ⟨m1, m2, _⟩ := List.nodup_append.1 hn2
    have hG : ∀ i ∈ G ++ G', h'[i]? = h[i]? := fun i hi => ha i (List.mem_cons_of_mem _ hi) fun e => hn1 (e ▸ hi)
    have hl : ∀ i ∈ G, h'[i]? = h[i]? := fun i hi => hG i (List.mem_append_left _ hi)
    have hr : ∀ i ∈ G', h'[i]? = h[i]? := fun i hi => hG i (List.mem_append_right _ hi)
    obtain ⟨y, g1, g2, g3, g4, g5, _⟩ := hp x h2
    exact ⟨c, d, G, G', rfl, ⟨y, g1, g2.trans h3, g3.trans h4, g4.trans h5, g5.trans h5'⟩,
      ⟨ihl h6 m1 (fun i hi _ => hl i hi) (fun x hx => ⟨x, (hl c (body_mem h6)).trans hx, rfl, rfl, rfl, rfl, rfl⟩), span_mono (hl c (body_mem h6)) h7⟩,
      ihr h8 m2 (fun i hi _ => hr i hi) (fun x hx => ⟨x, (hr d (body_mem h8)).trans hx, rfl, rfl, rfl, rfl, rfl⟩), span_mono (hr d (body_mem h8)) h9⟩
  | tern o l m r ihl ihm ihr =>
    intro p s F hb hn ha hp
    obtain ⟨c, d, e, G, G', G'', rfl, ⟨x, h2, h3, h4, h5, h5', h5''⟩, ⟨h6, h7⟩, ⟨h8, h9⟩, h10, h11⟩ := hb
    obtain ⟨hn1, hn2⟩ := List.nodup_cons.1 hn
    obtain ⟨m0, m3, _⟩ := List.nodup_append.1 hn2
    obtain ⟨m1, m2, _⟩ := List.nodup_append.1 m0
    have hG : ∀ i ∈ G ++ G' ++ G'', h'[i]? = h[i]? := fun i hi => ha i (List.mem_cons_of_mem _ hi) fun e => hn1 (e ▸ hi)
    have hl : ∀ i ∈ G, h'[i]? = h[i]? := fun i hi => hG i (by simp [hi])
    have hm : ∀ i ∈ G', h'[i]? = h[i]? := fun i hi => hG i (by simp [hi])
    have hr : ∀ i ∈ G'', h'[i]? = h[i]? := fun i hi => hG i (by simp [hi])
    obtain ⟨y, g1, g2, g3, g4, g5, g6⟩ := hp x h2
    exact ⟨c, d, e, G, G', G'', rfl, ⟨y, g1, g2.trans h3, g3.trans h4, g4.trans h5, g5.trans h5', g6.trans h5''⟩,
      ⟨ihl h6 m1 (fun i hi _ => hl i hi) (fun x hx => ⟨x, (hl c (body_mem h6)).trans hx, rfl, rfl, rfl, rfl, rfl⟩), span_mono (hl c (body_mem h6)) h7⟩,
      ⟨ihm h8 m2 (fun i hi _ => hm i hi) (fun x hx => ⟨x, (hm d (body_mem h8)).trans hx, rfl, rfl, rfl, rfl, rfl⟩), span_mono (hm d (body_mem h8)) h9⟩,
      ihr h10 m3 (fun i hi _ => hr i hi) (fun x hx => ⟨x, (hr e (body_mem h10)).trans hx, rfl, rfl, rfl, rfl, rfl⟩), span_mono (hr e (body_mem h10)) h11⟩

theorem shows_mono {h h' : List Node} {t : Tree} {p : Nat} {s : Int} {F : List Nat} (hs : Shows h t p s F) (hn : F.Nodup) (ha : ∀ i ∈ F, h'[i]? = h[i]?) :
    Shows h' t p s F :=
  ⟨body_mono hs.1 hn (fun i hi _ => ha i hi) (fun x hx => ⟨x, (ha p (body_mem hs.1)).trans hx, rfl, rfl, rfl, rfl, rfl⟩), span_mono (ha p (body_mem hs.1)) hs.2⟩

/-! ### Open operators -/

def Frame.width : Frame → Nat
  | .pre _ => 1
  | .bin _ l => l.size + 1
  | .tern _ l m => l.size + 1 + m.size + 1

/-- The node of an open operator; `hole` is what its last operand is now. -/
def FrameAt (h : List Node) : Frame → Nat → Int → Option Nat → List Nat → Prop
  | .pre o, n, s, hole, G => G = [n] ∧ ∃ x, h[n]? = some x ∧ x.start = s ∧ x.kind = .pre ∧ x.op = o ∧ x.first = hole
  | .bin o l, n, s, hole, G => ∃ c G', G = n :: G' ∧ (∃ x, h[n]? = some x ∧ x.start = s ∧ x.kind = .bin ∧ x.op = o ∧ x.first = some c ∧ x.second = hole) ∧
      Shows h l c s G'
  | .tern o l m, n, s, hole, G => ∃ c d G' G'', G = n :: (G' ++ G'') ∧
      (∃ x, h[n]? = some x ∧ x.start = s ∧ x.kind = .tern ∧ x.op = o ∧ x.first = some c ∧ x.second = some d ∧ x.third = hole) ∧
      Shows h l c s G' ∧ Shows h m d (s + l.size + 1) G''

/-- The open operators are on the stack, each the last operand of the one before; `e` is where the open operand starts. -/
def Chain (h : List Node) (root : Option Nat) (s0 : Int) : List Frame → List (Nat × Nat) → Option Nat → Int → List Nat → Prop
  | [], st, hole, e, F => st = [] ∧ hole = root ∧ e = s0 ∧ F = []
  | f :: fs, st, hole, e, F => ∃ n st' s G F', st = (n, f.op.prio) :: st' ∧ F = G ++ F' ∧ e = s + f.width ∧ FrameAt h f n s hole G ∧
      Chain h root s0 fs st' (some n) s F'

theorem frame_mem {h : List Node} {f : Frame} {n : Nat} {s : Int} {hole : Option Nat} {G : List Nat} (hf : FrameAt h f n s hole G) : n ∈ G := by
  cases f with
  | pre o => rw [hf.1]; simp
  | bin o l => obtain ⟨c, G', rfl, _⟩ := hf; simp
  | tern o l m => obtain ⟨c, d, G', G'', rfl, _⟩ := hf; simp

theorem frame_mono {h h' : List Node} {f : Frame} {n : Nat} {s : Int} {hole : Option Nat} {G : List Nat} (hf : FrameAt h f n s hole G) (hn : G.Nodup)
    (ha : ∀ i ∈ G, h'[i]? = h[i]?) : FrameAt h' f n s hole G := by
  cases f with
  | pre o =>
    obtain ⟨rfl, x, h1, h2⟩ := hf
    exact ⟨rfl, x, (ha n (by simp)).trans h1, h2⟩
  | bin o l =>
    obtain ⟨c, G', rfl, ⟨x, h1, h2⟩, h3⟩ := hf
    exact ⟨c, G', rfl, ⟨x, (ha n (by simp)).trans h1, h2⟩, shows_mono h3 (List.nodup_cons.1 hn).2 fun i hi => ha i (by simp [hi])⟩
  | tern o l m =>
    obtain ⟨c, d, G', G'', rfl, ⟨x, h1, h2⟩, h3, h4⟩ := hf
    obtain ⟨m1, m2, _⟩ := List.nodup_append.1 (List.nodup_cons.1 hn).2
    exact ⟨c, d, G', G'', rfl, ⟨x, (ha n (by simp)).trans h1, h2⟩, shows_mono h3 m1 fun i hi => ha i (by simp [hi]),
      shows_mono h4 m2 fun i hi => ha i (by simp [hi])⟩

theorem chain_mono {h h' : List Node} {root : Option Nat} {s0 : Int} {fs : List Frame} : ∀ {st : List (Nat × Nat)} {hole : Option Nat} {e : Int} {F : List Nat},
    Chain h root s0 fs st hole e F → F.Nodup → (∀ i ∈ F, h'[i]? = h[i]?) → Chain h' root s0 fs st hole e F := by
  induction fs with
  | nil => exact fun hc _ _ => hc
  | cons f fs ih =>
    intro st hole e F hc hn ha
    obtain ⟨n, st', s, G, F', rfl, rfl, rfl, h1, h2⟩ := hc
    obtain ⟨m1, m2, _⟩ := List.nodup_append.1 hn
    exact ⟨n, st', s, G, F', rfl, rfl, rfl, frame_mono h1 m1 fun i hi => ha i (by simp [hi]), ih h2 m2 fun i hi => ha i (by simp [hi])⟩

theorem size_close (f : Frame) (t : Tree) : ((f.close t).size : Int) = f.width + t.size := by
  cases f <;> simp only [Frame.close, Tree.size, Frame.width] <;> push_cast <;> omega

theorem get_set_ne {h : List Node} {n i : Nat} {x : Node} (hi : i ≠ n) : (h.set n x)[i]? = h[i]? := List.getElem?_set_ne (Ne.symm hi)

theorem get_set_self {h : List Node} {n : Nat} {x y : Node} (hn : h[n]? = some y) : (h.set n x)[n]? = some x := by
  rw [List.getElem?_set_self]
  exact (List.getElem?_eq_some_iff.1 hn).1

/-- An open operator whose last operand is complete becomes an expression when its end is set. -/
theorem close_frame {h : List Node} {f : Frame} {n v : Nat} {s : Int} {t : Tree} {G H : List Nat} (hf : FrameAt h f n s (some v) G) (ht : Shows h t v (s + f.width) H)
    (hn : (G ++ H).Nodup) : ∃ h', setEnd h n (some v) = some h' ∧ h'.length = h.length ∧ (∀ i, i ≠ n → h'[i]? = h[i]?) ∧ Shows h' (f.close t) n s (G ++ H) := by
  obtain ⟨hb, y, hy, hy1, hy2⟩ := ht
  have key : ∀ x, h[n]? = some x → ∃ h', setEnd h n (some v) = some h' ∧ h'.length = h.length ∧ (∀ i, i ≠ n → h'[i]? = h[i]?) ∧ h'[n]? = some { x with stop := y.stop } := by
    intro x hx
    refine ⟨h.set n { x with stop := y.stop }, by simp [setEnd, hx, hy], by simp, fun i hi => get_set_ne hi, get_set_self hx⟩
  have hsz := size_close f t
  cases f with
  | pre o =>
    obtain ⟨rfl, x, h1, h2, h3, h4, h5⟩ := hf
    obtain ⟨h', e1, e2, e3, e4⟩ := key x h1
    obtain ⟨hn1, hn2⟩ := List.nodup_cons.1 hn
    have hH : ∀ i ∈ H, h'[i]? = h[i]? := fun i hi => e3 i fun e => hn1 (e ▸ hi)
    have ht' : Shows h' t v (s + 1) H := shows_mono ⟨hb, y, hy, hy1, hy2⟩ hn2 hH
    refine ⟨h', e1, e2, e3, ⟨v, H, rfl, ⟨_, e4, h3, h4, h5⟩, ht'.1, ht'.2⟩, ⟨_, e4, h2, ?_⟩⟩
    rw [hsz]; simp only [Frame.width] at *; rw [hy2]; push_cast; omega
  | bin o l =>
    obtain ⟨c, G', rfl, ⟨x, h1, h2, h3, h4, h5, h6⟩, h7⟩ := hf
    obtain ⟨h', e1, e2, e3, e4⟩ := key x h1
    obtain ⟨hn1, hn2⟩ := List.nodup_cons.1 hn
    obtain ⟨m1, m2, _⟩ := List.nodup_append.1 hn2
    have ha : ∀ i ∈ G' ++ H, h'[i]? = h[i]? := fun i hi => e3 i fun e => hn1 (e ▸ hi)
    have ht' : Shows h' t v (s + l.size + 1) H := by
      refine shows_mono ⟨?_, y, hy, ?_, ?_⟩ m2 fun i hi => ha i (List.mem_append_right _ hi)
      · simpa [Frame.width, Int.add_assoc] using hb
      · rw [hy1]; simp [Frame.width, Int.add_assoc]
      · rw [hy2]; simp [Frame.width, Int.add_assoc]
    have hl' := shows_mono h7 m1 fun i hi => ha i (List.mem_append_left _ hi)
    refine ⟨h', e1, e2, e3, ⟨c, v, G', H, rfl, ⟨_, e4, h3, h4, h5, h6⟩, hl', ht'.1, ht'.2⟩, ⟨_, e4, h2, ?_⟩⟩
    rw [hsz]; simp only [Frame.width] at *; rw [hy2]; push_cast; omega
  | tern o l m =>
    obtain ⟨c, d, G', G'', rfl, ⟨x, h1, h2, h3, h4, h5, h6, h7⟩, h8, h9⟩ := hf
    obtain ⟨h', e1, e2, e3, e4⟩ := key x h1
    obtain ⟨hn1, hn2⟩ := List.nodup_cons.1 hn
    obtain ⟨m0, m3, _⟩ := List.nodup_append.1 hn2
    obtain ⟨m1, m2, _⟩ := List.nodup_append.1 m0
    have ha : ∀ i ∈ G' ++ G'' ++ H, h'[i]? = h[i]? := fun i hi => e3 i fun e => hn1 (e ▸ hi)
    have ht' : Shows h' t v (s + l.size + 1 + m.size + 1) H := by
      refine shows_mono ⟨?_, y, hy, ?_, ?_⟩ m3 fun i hi => ha i (List.mem_append_right _ hi)
      · simpa [Frame.width, Int.add_assoc] using hb
      · rw [hy1]; simp [Frame.width, Int.add_assoc]
      · rw [hy2]; simp [Frame.width, Int.add_assoc]
    have hl' := shows_mono h8 m1 fun i hi => ha i (by simp [hi])
    have hm' := shows_mono h9 m2 fun i hi => ha i (by simp [hi])
    refine ⟨h', e1, e2, e3, ⟨c, d, v, G', G'', H, rfl, ⟨_, e4, h3, h4, h5, h6, h7⟩, hl', hm', ht'.1, ht'.2⟩, ⟨_, e4, h2, ?_⟩⟩
    rw [hsz]; simp only [Frame.width] at *; rw [hy2]; push_cast; omega

/-- The last operand is `hole`, the others are as before. -/
def LastSet (f : Frame) (x y : Node) (hole : Option Nat) : Prop := match f with
  | .pre _ => y.first = hole
  | .bin _ _ => y.first = x.first ∧ y.second = hole
  | .tern _ _ _ => y.first = x.first ∧ y.second = x.second ∧ y.third = hole

/-- A frame whose node gets a new last operand. -/
theorem frame_set {h : List Node} {f : Frame} {n : Nat} {s : Int} {hole hole' : Option Nat} {G : List Nat} (hf : FrameAt h f n s hole G) (hn : G.Nodup)
    {x y : Node} (hx : h[n]? = some x) (h1 : y.start = x.start) (h2 : y.kind = x.kind) (h3 : y.op = x.op)
    (h4 : LastSet f x y hole') : FrameAt (h.set n y) f n s hole' G := by
  cases f with
  | pre o =>
    obtain ⟨rfl, x', g1, g2, g3, g4, g5⟩ := hf
    rw [hx] at g1; cases g1
    exact ⟨rfl, y, get_set_self hx, h1.trans g2, h2.trans g3, h3.trans g4, h4⟩
  | bin o l =>
    obtain ⟨c, G', rfl, ⟨x', g1, g2, g3, g4, g5, g6⟩, g7⟩ := hf
    rw [hx] at g1; cases g1
    obtain ⟨hn1, hn2⟩ := List.nodup_cons.1 hn
    exact ⟨c, G', rfl, ⟨y, get_set_self hx, h1.trans g2, h2.trans g3, h3.trans g4, h4.1.trans g5, h4.2⟩,
      shows_mono g7 hn2 fun i hi => get_set_ne fun e => hn1 (e ▸ hi)⟩
  | tern o l m =>
    obtain ⟨c, d, G', G'', rfl, ⟨x', g1, g2, g3, g4, g5, g6, g7⟩, g8, g9⟩ := hf
    rw [hx] at g1; cases g1
    obtain ⟨hn1, hn2⟩ := List.nodup_cons.1 hn
    obtain ⟨m1, m2, _⟩ := List.nodup_append.1 hn2
    exact ⟨c, d, G', G'', rfl, ⟨y, get_set_self hx, h1.trans g2, h2.trans g3, h3.trans g4, h4.1.trans g5, h4.2.1.trans g6, h4.2.2⟩,
      shows_mono g8 m1 fun i hi => get_set_ne fun e => hn1 (e ▸ List.mem_append_left _ hi),
      shows_mono g9 m2 fun i hi => get_set_ne fun e => hn1 (e ▸ List.mem_append_right _ hi)⟩

theorem frame_node {h : List Node} {f : Frame} {n : Nat} {s : Int} {hole : Option Nat} {G : List Nat} (hf : FrameAt h f n s hole G) : ∃ x, h[n]? = some x := by
  cases f with
  | pre o => obtain ⟨_, x, h1, _⟩ := hf; exact ⟨x, h1⟩
  | bin o l => obtain ⟨c, G', _, ⟨x, h1, _⟩, _⟩ := hf; exact ⟨x, h1⟩
  | tern o l m => obtain ⟨c, d, G', G'', _, ⟨x, h1, _⟩, _⟩ := hf; exact ⟨x, h1⟩

/-- The reference taken for binary and ternary operators is the last operand. -/
theorem refBin_frame {h : List Node} {f : Frame} {n : Nat} {s : Int} {w : Nat} {G : List Nat} (hf : FrameAt h f n s (some w) G) (hn : G.Nodup) {x : Node}
    (hx : h[n]? = some x) (e : Int) (v : Nat) : ∃ y, refBin { x with stop := e } v = some y ∧ FrameAt (h.set n y) f n s (some v) G := by
  cases f with
  | pre o =>
    have hf' := hf
    obtain ⟨rfl, x', g1, g2, g3, g4, g5⟩ := hf'
    rw [hx] at g1; cases g1
    exact ⟨{ x with stop := e, first := some v }, by simp [refBin, refPost, g3], frame_set hf hn hx rfl rfl rfl rfl⟩
  | bin o l =>
    have hf' := hf
    obtain ⟨c, G', rfl, ⟨x', g1, g2, g3, g4, g5, g6⟩, g7⟩ := hf'
    rw [hx] at g1; cases g1
    exact ⟨{ x with stop := e, second := some v }, by simp [refBin, refPost, g3, g6], frame_set hf hn hx rfl rfl rfl ⟨rfl, rfl⟩⟩
  | tern o l m =>
    have hf' := hf
    obtain ⟨c, d, G', G'', rfl, ⟨x', g1, g2, g3, g4, g5, g6, g7⟩, g8, g9⟩ := hf'
    rw [hx] at g1; cases g1
    exact ⟨{ x with stop := e, third := some v }, by simp [refBin, g3, g7], frame_set hf hn hx rfl rfl rfl ⟨rfl, rfl, rfl⟩⟩

/-- The reference taken for postfix operators is the last operand of a prefix or binary operator. -/
theorem refPost_frame {h : List Node} {f : Frame} {n : Nat} {s : Int} {w : Nat} {G : List Nat} (hf : FrameAt h f n s (some w) G) (hn : G.Nodup) {x : Node}
    (hx : h[n]? = some x) (ht : ∀ o l m, f ≠ .tern o l m) (e : Int) (v : Nat) : ∃ y, refPost { x with stop := e } v = some y ∧ FrameAt (h.set n y) f n s (some v) G := by
  cases f with
  | pre o =>
    have hf' := hf
    obtain ⟨rfl, x', g1, g2, g3, g4, g5⟩ := hf'
    rw [hx] at g1; cases g1
    exact ⟨{ x with stop := e, first := some v }, by simp [refPost, g3], frame_set hf hn hx rfl rfl rfl rfl⟩
  | bin o l =>
    have hf' := hf
    obtain ⟨c, G', rfl, ⟨x', g1, g2, g3, g4, g5, g6⟩, g7⟩ := hf'
    rw [hx] at g1; cases g1
    exact ⟨{ x with stop := e, second := some v }, by simp [refPost, g3, g6], frame_set hf hn hx rfl rfl rfl ⟨rfl, rfl⟩⟩
  | tern o l m => exact absurd rfl (ht o l m)

/-- The reference taken for operands is the open place. -/
theorem refUnary_frame {h : List Node} {f : Frame} {n : Nat} {s : Int} {G : List Nat} (hf : FrameAt h f n s none G) (hn : G.Nodup) {x : Node}
    (hx : h[n]? = some x) (v : Nat) : ∃ y, refUnary x v = some y ∧ FrameAt (h.set n y) f n s (some v) G := by
  cases f with
  | pre o =>
    have hf' := hf
    obtain ⟨rfl, x', g1, g2, g3, g4, g5⟩ := hf'
    rw [hx] at g1; cases g1
    exact ⟨{ x with first := some v }, by simp [refUnary, g3, g5], frame_set hf hn hx rfl rfl rfl rfl⟩
  | bin o l =>
    have hf' := hf
    obtain ⟨c, G', rfl, ⟨x', g1, g2, g3, g4, g5, g6⟩, g7⟩ := hf'
    rw [hx] at g1; cases g1
    exact ⟨{ x with second := some v }, by simp [refUnary, g3, g5, g6], frame_set hf hn hx rfl rfl rfl ⟨rfl, rfl⟩⟩
  | tern o l m =>
    have hf' := hf
    obtain ⟨c, d, G', G'', rfl, ⟨x', g1, g2, g3, g4, g5, g6, g7⟩, g8, g9⟩ := hf'
    rw [hx] at g1; cases g1
    exact ⟨{ x with third := some v }, by simp [refUnary, g3, g5, g6], frame_set hf hn hx rfl rfl rfl ⟨rfl, rfl, rfl⟩⟩

end Verif.Ops
