import Verif.Ops.Spec

/-! # The algorithm on trees: open operators and the expression read last -/

namespace Verif.Ops

/-- An operator that waits for its right operand. -/
inductive Frame
  | pre (o : Op)
  | bin (o : Op) (l : Tree)
  | tern (o : Op) (l m : Tree)

namespace Frame

def op : Frame → Op
  | pre o => o
  | bin o _ => o
  | tern o _ _ => o

def close : Frame → Tree → Tree
  | pre o, t => .pre o t
  | bin o l, t => .bin o l t
  | tern o l m, t => .tern o l m t

/-- The left edge of the whole. -/
def leftEdge : Frame → List Op
  | pre _ => []
  | bin o l => o :: l.leftEdge
  | tern o l _ => o :: l.leftEdge

def Ok : Frame → Prop
  | pre _ => True
  | bin o l => l.Ok ∧ ∀ M ∈ l.rightEdge, First M o
  | tern o l m => l.Ok ∧ m.Ok ∧ ∀ M ∈ l.rightEdge, First M o

def write : Frame → Run → Run
  | pre o, k => .pre o k
  | bin o l, k => l.write (.bin o k)
  | tern o l m, k => l.write (.tern o (m.write .stop) k)

end Frame

/-- The operators that get the expression before `N`. -/
def settle (N : Op) : List Frame → Tree → List Frame × Tree
  | [], t => ([], t)
  | f :: fs, t => if First f.op N then settle N fs (f.close t) else (f :: fs, t)

def plug : List Frame → Tree → Tree
  | [], t => t
  | f :: fs, t => plug fs (f.close t)

/-- The algorithm on trees. -/
def run : Run → List Frame → Option Tree → Option Tree
  | .stop, fs, some t => some (plug fs t)
  | .base n k, fs, none => run k fs (some (.base n))
  | .pre o k, fs, none => run k (.pre o :: fs) none
  | .paren i k, fs, none => (run i [] none).bind fun t => run k fs (some (.paren t))
  | .post o k, fs, some t => run k (settle o fs t).1 (some (.post o (settle o fs t).2))
  | .bin o k, fs, some t => run k (.bin o (settle o fs t).2 :: (settle o fs t).1) none
  | .tern o i k, fs, some t => (run i [] none).bind fun m => run k (.tern o (settle o fs t).2 m :: (settle o fs t).1) none
  | _, _, _ => none

/-- The operator around accepts what is inside. -/
def Accepts (fs : List Frame) (e : List Op) : Prop := ∀ f, fs.head? = some f → ∀ N ∈ e, ¬ First f.op N

/-- Open operators are in accordance with the priorities. -/
def FramesOk : List Frame → Prop
  | [] => True
  | f :: fs => f.Ok ∧ Accepts fs f.leftEdge ∧ FramesOk fs

theorem leftEdge_close (f : Frame) (t : Tree) : (f.close t).leftEdge = f.leftEdge := by cases f <;> rfl

theorem rightEdge_close (f : Frame) (t : Tree) : (f.close t).rightEdge = f.op :: t.rightEdge := by cases f <;> rfl

theorem ok_close {f : Frame} {fs : List Frame} {t : Tree} (hf : f.Ok) (ht : t.Ok) (ha : Accepts (f :: fs) t.leftEdge) : (f.close t).Ok := by
  have ha := ha f rfl
  cases f with
  | pre o => exact ⟨ht, ha⟩
  | bin o l => exact ⟨hf.1, ht, hf.2, ha⟩
  | tern o l m => exact ⟨hf.1, hf.2.1, ht, hf.2.2, ha⟩

theorem plug_ok {fs : List Frame} : ∀ {t : Tree}, FramesOk fs → t.Ok → Accepts fs t.leftEdge → (plug fs t).Ok := by
  induction fs with
  | nil => exact fun _ ht _ => ht
  | cons f fs ih =>
    intro t hf ht ha
    exact ih hf.2.2 (ok_close hf.1 ht ha) (by rw [leftEdge_close]; exact hf.2.1)

/-- What is left, and what the operator gets. -/
theorem settle_ok {N : Op} {fs : List Frame} : ∀ {t : Tree}, FramesOk fs → t.Ok → Accepts fs t.leftEdge → (∀ M ∈ t.rightEdge, First M N) →
    FramesOk (settle N fs t).1 ∧ (settle N fs t).2.Ok ∧ (∀ M ∈ (settle N fs t).2.rightEdge, First M N) ∧
    Accepts (settle N fs t).1 (N :: (settle N fs t).2.leftEdge) := by
  induction fs with
  | nil => exact fun hf ht _ hr => ⟨hf, ht, hr, fun f h => by simp [settle] at h⟩
  | cons f fs ih =>
    intro t hf ht ha hr
    unfold settle
    split
    · rename_i h
      refine ih hf.2.2 (ok_close hf.1 ht ha) (by rw [leftEdge_close]; exact hf.2.1) fun M hM => ?_
      rw [rightEdge_close] at hM
      rcases List.mem_cons.1 hM with rfl | hM
      · exact h
      · exact hr M hM
    · rename_i h
      refine ⟨hf, ht, hr, fun g hg M hM => ?_⟩
      cases hg
      rcases List.mem_cons.1 hM with rfl | hM
      · exact h
      · exact ha f rfl M hM

/-- What the frames are when written. -/
def writes : List Frame → Run → Run
  | [], k => k
  | f :: fs, k => writes fs (f.write k)

theorem write_close (f : Frame) (t : Tree) (k : Run) : (f.close t).write k = f.write (t.write k) := by cases f <;> rfl

theorem write_plug (fs : List Frame) : ∀ (t : Tree) (k : Run), (plug fs t).write k = writes fs (t.write k) := by
  induction fs with
  | nil => exact fun _ _ => rfl
  | cons f fs ih => intro t k; rw [plug, ih, write_close, writes]

theorem write_settle (N : Op) (fs : List Frame) : ∀ (t : Tree) (k : Run), writes (settle N fs t).1 ((settle N fs t).2.write k) = writes fs (t.write k) := by
  induction fs with
  | nil => exact fun _ _ => rfl
  | cons f fs ih =>
    intro t k
    unfold settle
    split
    · rw [ih, write_close, writes]
    · rfl

/-- The right edge of the expression read last: empty for operands and postfix expressions. -/
def Tip (t : Tree) : Prop := t.rightEdge = []

/-- The result has the operators and operands in order, and is in accordance with the priorities. -/
theorem run_sound (r : Run) : ∀ {fs : List Frame} {o : Option Tree} {t : Tree}, run r fs o = some t → FramesOk fs →
    (∀ u, o = some u → u.Ok ∧ Tip u ∧ Accepts fs u.leftEdge) →
    t.Ok ∧ t.write .stop = writes fs (match o with | none => r | some u => u.write r) := by
  induction r with
  | stop =>
    intro fs o t e hf ho
    cases o with
    | none => cases e
    | some u => cases e; obtain ⟨h1, _, h3⟩ := ho u rfl; exact ⟨plug_ok hf h1 h3, write_plug fs u .stop⟩
  | base n k ih =>
    intro fs o t e hf ho
    cases o with
    | some u => cases e
    | none => exact ih e hf fun u hu => by cases hu; exact ⟨trivial, rfl, fun f _ N hN => by cases hN⟩
  | pre p k ih =>
    intro fs o t e hf ho
    cases o with
    | some u => cases e
    | none => exact ih e ⟨trivial, (fun f _ N hN => by cases hN), hf⟩ fun u hu => by cases hu
  | paren i k ihi ihk =>
    intro fs o t e hf ho
    cases o with
    | some u => cases e
    | none =>
      simp only [run, Option.bind_eq_some_iff] at e
      obtain ⟨u, e1, e2⟩ := e
      obtain ⟨h1, h2⟩ := ihi e1 trivial (fun u hu => by cases hu)
      obtain ⟨h3, h4⟩ := ihk e2 hf fun v hv => by cases hv; exact ⟨h1, rfl, fun f _ N hN => by cases hN⟩
      refine ⟨h3, h4.trans ?_⟩
      simp only [Tree.write, h2, writes]
  | post p k ih =>
    intro fs o t e hf ho
    cases o with
    | none => cases e
    | some u =>
      obtain ⟨h1, h2, h3⟩ := ho u rfl
      obtain ⟨g1, g2, g3, g4⟩ := settle_ok (N := p) hf h1 h3 (by rw [h2]; simp)
      obtain ⟨h4, h5⟩ := ih e g1 fun v hv => by cases hv; exact ⟨⟨g2, g3⟩, rfl, g4⟩
      exact ⟨h4, h5.trans (write_settle p fs u (.post p k))⟩
  | bin p k ih =>
    intro fs o t e hf ho
    cases o with
    | none => cases e
    | some u =>
      obtain ⟨h1, h2, h3⟩ := ho u rfl
      obtain ⟨g1, g2, g3, g4⟩ := settle_ok (N := p) hf h1 h3 (by rw [h2]; simp)
      obtain ⟨h4, h5⟩ := ih e ⟨⟨g2, g3⟩, g4, g1⟩ fun v hv => by cases hv
      exact ⟨h4, h5.trans (write_settle p fs u (.bin p k))⟩
  | tern p i k ihi ihk =>
    intro fs o t e hf ho
    cases o with
    | none => cases e
    | some u =>
      simp only [run, Option.bind_eq_some_iff] at e
      obtain ⟨m, e1, e2⟩ := e
      obtain ⟨h1, h2, h3⟩ := ho u rfl
      obtain ⟨g1, g2, g3, g4⟩ := settle_ok (N := p) hf h1 h3 (by rw [h2]; simp)
      obtain ⟨m1, m2⟩ := ihi e1 trivial (fun u hu => by cases hu)
      obtain ⟨h4, h5⟩ := ihk e2 ⟨⟨g2, m1, g3⟩, g4, g1⟩ fun v hv => by cases hv
      refine ⟨h4, h5.trans ?_⟩
      simp only [writes, Frame.write, m2]
      exact write_settle p fs u (.tern p i k)

theorem run_total (r : Run) : ∀ {fs : List Frame} {o : Option Tree}, r.Fits o.isSome → ∃ t, run r fs o = some t := by
  induction r with
  | stop =>
    intro fs o h
    cases o with
    | none => cases h
    | some u => exact ⟨_, rfl⟩
  | base n k ih =>
    intro fs o h
    cases o with
    | some u => cases h.1
    | none => exact ih h.2
  | pre p k ih =>
    intro fs o h
    cases o with
    | some u => cases h.1
    | none => exact ih h.2
  | paren i k ihi ihk =>
    intro fs o h
    cases o with
    | some u => cases h.1
    | none =>
      obtain ⟨t, e⟩ := ihi (fs := []) (o := none) h.2.1
      simp only [run, e, Option.bind_some]
      exact ihk h.2.2
  | post p k ih =>
    intro fs o h
    cases o with
    | none => cases h.1
    | some u => exact ih h.2
  | bin p k ih =>
    intro fs o h
    cases o with
    | none => cases h.1
    | some u => exact ih h.2
  | tern p i k ihi ihk =>
    intro fs o h
    cases o with
    | none => cases h.1
    | some u =>
      obtain ⟨t, e⟩ := ihi (fs := []) (o := none) h.2.1
      simp only [run, e, Option.bind_some]
      exact ihk h.2.2

/-! ### Uniqueness -/

/-- The open operators at the end of an expression, and the operand there. -/
def Tree.spine : Tree → List Frame
  | .pre o t => t.spine ++ [.pre o]
  | .bin o l r => r.spine ++ [.bin o l]
  | .tern o l m r => r.spine ++ [.tern o l m]
  | _ => []

def Tree.tip : Tree → Tree
  | .pre _ t => t.tip
  | .bin _ _ r => r.tip
  | .tern _ _ _ r => r.tip
  | t => t

theorem plug_append (fs gs : List Frame) : ∀ t, plug (fs ++ gs) t = plug gs (plug fs t) := by
  induction fs with
  | nil => exact fun _ => rfl
  | cons f fs ih => exact fun t => ih (f.close t)

theorem plug_spine (t : Tree) : plug t.spine t.tip = t := by
  induction t with
  | pre o t ih => rw [Tree.spine, Tree.tip, plug_append, ih]; rfl
  | bin o l r _ ih => rw [Tree.spine, Tree.tip, plug_append, ih]; rfl
  | tern o l m r _ _ ih => rw [Tree.spine, Tree.tip, plug_append, ih]; rfl
  | base _ => rfl
  | paren _ _ => rfl
  | post _ _ _ => rfl

theorem spine_ops (t : Tree) : ∀ f ∈ t.spine, f.op ∈ t.rightEdge := by
  induction t with
  | pre o t ih =>
    intro f hf
    rcases List.mem_append.1 hf with hf | hf
    · exact List.mem_cons_of_mem _ (ih f hf)
    · rw [List.mem_singleton] at hf; subst hf; exact List.mem_cons_self
  | bin o l r _ ih =>
    intro f hf
    rcases List.mem_append.1 hf with hf | hf
    · exact List.mem_cons_of_mem _ (ih f hf)
    · rw [List.mem_singleton] at hf; subst hf; exact List.mem_cons_self
  | tern o l m r _ _ ih =>
    intro f hf
    rcases List.mem_append.1 hf with hf | hf
    · exact List.mem_cons_of_mem _ (ih f hf)
    · rw [List.mem_singleton] at hf; subst hf; exact List.mem_cons_self
  | base _ => intro f hf; cases hf
  | paren _ _ => intro f hf; cases hf
  | post _ _ _ => intro f hf; cases hf

theorem settle_all {N : Op} {gs fs : List Frame} : ∀ {t : Tree}, (∀ f ∈ gs, First f.op N) → (∀ f, fs.head? = some f → ¬ First f.op N) →
    settle N (gs ++ fs) t = (fs, plug gs t) := by
  induction gs with
  | nil =>
    intro t _ h
    cases fs with
    | nil => rfl
    | cons f fs => simp [settle, plug, h f rfl]
  | cons g gs ih =>
    intro t hg h
    simp only [List.cons_append, settle, if_pos (hg g (by simp)), plug]
    exact ih (fun f hf => hg f (by simp [hf])) h

/-- Reading a proper expression. -/
theorem run_write (t : Tree) : ∀ {fs : List Frame} {k : Run}, t.Ok → Accepts fs t.leftEdge → run (t.write k) fs none = run k (t.spine ++ fs) (some t.tip) := by
  induction t with
  | base n => exact fun _ _ => rfl
  | paren t ih =>
    intro fs k h _
    have e := ih (fs := []) (k := .stop) h fun f hf => by cases hf
    simp only [Tree.write, run, e, List.append_nil, plug_spine, Option.bind_some]
    rfl
  | pre o t ih =>
    intro fs k h _
    have e := ih (fs := .pre o :: fs) (k := k) h.1 fun f hf N hN => by cases hf; exact h.2 N hN
    simp only [Tree.write, run, e, Tree.spine, Tree.tip, List.append_assoc, List.singleton_append]
  | post o t ih =>
    intro fs k h ha
    have e := ih (fs := fs) (k := .post o k) h.1 fun f hf N hN => ha f hf N (by simp [Tree.leftEdge, hN])
    have s := settle_all (N := o) (gs := t.spine) (fs := fs) (t := t.tip) (fun f hf => h.2 _ (spine_ops t f hf)) fun f hf => ha f hf o (by simp [Tree.leftEdge])
    simp only [Tree.write, e, run, s, plug_spine]
    rfl
  | bin o l r ihl ihr =>
    intro fs k h ha
    have e := ihl (fs := fs) (k := .bin o (r.write k)) h.1 fun f hf N hN => ha f hf N (by simp [Tree.leftEdge, hN])
    have s := settle_all (N := o) (gs := l.spine) (fs := fs) (t := l.tip) (fun f hf => h.2.2.1 _ (spine_ops l f hf)) fun f hf => ha f hf o (by simp [Tree.leftEdge])
    have e' := ihr (fs := .bin o l :: fs) (k := k) h.2.1 fun f hf N hN => by cases hf; exact h.2.2.2 N hN
    simp only [Tree.write, e, run, s, plug_spine, e', Tree.spine, Tree.tip, List.append_assoc, List.singleton_append]
  | tern o l m r ihl ihm ihr =>
    intro fs k h ha
    have e := ihl (fs := fs) (k := .tern o (m.write .stop) (r.write k)) h.1 fun f hf N hN => ha f hf N (by simp [Tree.leftEdge, hN])
    have s := settle_all (N := o) (gs := l.spine) (fs := fs) (t := l.tip) (fun f hf => h.2.2.2.1 _ (spine_ops l f hf)) fun f hf => ha f hf o (by simp [Tree.leftEdge])
    have em := ihm (fs := []) (k := .stop) h.2.1 fun f hf => by cases hf
    have e' := ihr (fs := .tern o l m :: fs) (k := k) h.2.2.1 fun f hf N hN => by cases hf; exact h.2.2.2.2 N hN
    simp only [Tree.write, e, run, s, em, List.append_nil, plug_spine, Option.bind_some, e', Tree.spine, Tree.tip, List.append_assoc, List.singleton_append]

/-- Reading a proper expression gives it back. -/
theorem run_of_write {t : Tree} (h : t.Ok) : run (t.write .stop) [] none = some t := by
  rw [run_write t h fun f hf => by cases hf]
  simp [run, plug_spine]

end Verif.Ops
