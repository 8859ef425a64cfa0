import Verif.Syntax.Model

/-!
# A recursive descent parser for the productions, used in the proofs and to compute examples
-/

namespace Verif.Syntax

abbrev Res := Option (Item × List Tok)

def pAtom : List Tok → Res
  | .ident s :: .args a :: r => some (.nonterm s a, r)
  | .ident s :: r => some (.nonterm s [], r)
  | .term s :: r => some (.term s, r)
  | _ => none

def starts : List Tok → Bool
  | .zero :: _ | .lp :: _ | .recover :: _ | .rollback :: _ | .inline :: _ | .ident _ :: _ | .term _ :: _ | .hash :: _ | .opt :: _ => true
  | _ => false

def pAnn (l : Label) (r : List Tok) : Res := (pAtom r).map fun p => (.ann l p.1, p.2)

def closeParen : Res → Res
  | some (i, .rp :: r) => some (i, r)
  | _ => none

def times : Res → Res
  | some (i, .plus :: r) => some (.plus i, r)
  | some (i, .star :: r) => some (.star i, r)
  | x => x

mutual
def pPrimary : Nat → List Tok → Res
  | 0, _ => none
  | _ + 1, .zero :: r => some (.zero, r)
  | f + 1, .lp :: r => closeParen (pOption f r)
  | f + 1, .recover :: .lp :: r => (closeParen (pOption f r)).map fun p => (.recover p.1, p.2)
  | f + 1, .rollback :: .lp :: r => match closeParen (pOption f r) with
    | some (i, .catch_ :: .lp :: r) => (closeParen (pOption f r)).map fun p => (.rollback i p.1, p.2)
    | _ => none
  | _ + 1, .inline :: .ident s :: r => some (.inl s, r)
  | _ + 1, .ident n :: .eq :: r => pAnn ⟨n, false, false⟩ r
  | _ + 1, .ident n :: .colon :: r => pAnn ⟨n, false, true⟩ r
  | _ + 1, .hash :: .ident n :: .eq :: r => pAnn ⟨n, true, false⟩ r
  | _ + 1, .hash :: .ident n :: .colon :: r => pAnn ⟨n, true, true⟩ r
  | _ + 1, ts => pAtom ts
def pUnary : Nat → List Tok → Res
  | 0, _ => none
  | f + 1, .opt :: r => (pPrimary f r).map fun p => (.alt p.1 .zero, p.2)
  | f + 1, ts => times (pPrimary f ts)
def pPostfix : Nat → List Tok → Res
  | 0, _ => none
  | f + 1, .code c :: r => postLoop f (.code c) r
  | f + 1, ts => (pUnary f ts).bind fun p => postLoop f p.1 p.2
def postLoop : Nat → Item → List Tok → Res
  | 0, _, _ => none
  | f + 1, i, .at_ :: r => (pPrimary f r).bind fun p => postLoop f (sep i p.1) p.2
  | f + 1, i, .code c :: r => postLoop f (.act i c) r
  | _ + 1, i, ts => some (i, ts)
def pSeq : Nat → List Tok → Res
  | 0, _ => none
  | f + 1, ts => (pPostfix f ts).bind fun p => seqLoop f p.1 p.2
def seqLoop : Nat → Item → List Tok → Res
  | 0, _, _ => none
  | f + 1, i, ts => if starts ts then (pPostfix f ts).bind fun p => seqLoop f (.cons i p.1) p.2 else some (i, ts)
def pCond : Nat → List Tok → Res
  | 0, _ => none
  | f + 1, .opt :: .code c :: r => (pSeq f r).map fun p => (.cond c p.1, p.2)
  | f + 1, ts => pSeq f ts
def pOption : Nat → List Tok → Res
  | 0, _ => none
  | f + 1, ts => (pCond f ts).bind fun p => optLoop f p.1 p.2
def optLoop : Nat → Item → List Tok → Res
  | 0, _, _ => none
  | f + 1, i, .bar :: r => (pCond f r).bind fun p => optLoop f (.alt i p.1) p.2
  | _ + 1, i, ts => some (i, ts)
end

/-! ## What it finds is derived -/

/-- The tokens read derive the item. -/
def Read (n : Nt) (ts : List Tok) (r : Res) : Prop := ∀ i rest, r = some (i, rest) → ∃ us, ts = us ++ rest ∧ D true n us i

theorem pAtom_sound (ts : List Tok) : Read .atom ts (pAtom ts) := by
  intro i rest h
  unfold pAtom at h
  split at h
  · cases h; exact ⟨[_, _], rfl, .call⟩
  · cases h; exact ⟨[_], rfl, .nonterm⟩
  · cases h; exact ⟨[_], rfl, .term⟩
  · cases h

theorem closeParen_some {x : Res} {i : Item} {r : List Tok} : closeParen x = some (i, r) ↔ x = some (i, .rp :: r) := by
  constructor
  · intro h; unfold closeParen at h; split at h <;> simp_all
  · rintro rfl; rfl

theorem starts_notCode {ts : List Tok} (h : starts ts = true) : codeFirst ts = false := by
  unfold starts at h
  split at h <;> first | rfl | (cases h)

structure Sound (f : Nat) : Prop where
  primary : ∀ ts, Read .primary ts (pPrimary f ts)
  unary : ∀ ts, Read .unary ts (pUnary f ts)
  post : ∀ ts, Read .postfix ts (pPostfix f ts)
  postL : ∀ us i ts, D true .postfix us i → Read .postfix (us ++ ts) (postLoop f i ts)
  seq : ∀ ts, Read .seq ts (pSeq f ts)
  seqL : ∀ us i ts, D true .seq us i → Read .seq (us ++ ts) (seqLoop f i ts)
  cond : ∀ ts, Read .cond ts (pCond f ts)
  option : ∀ ts, Read .option ts (pOption f ts)
  optL : ∀ us i ts, D true .option us i → Read .option (us ++ ts) (optLoop f i ts)

theorem bind_some {α β : Type} {x : Option α} {g : α → Option β} {b : β} (h : x.bind g = some b) : ∃ a, x = some a ∧ g a = some b := by
  cases x with
  | none => cases h
  | some a => exact ⟨a, rfl, h⟩

theorem pAnn_some {l : Label} {r : List Tok} {i : Item} {rest : List Tok} (h : pAnn l r = some (i, rest)) :
    ∃ us j, r = us ++ rest ∧ D true .atom us j ∧ i = .ann l j := by
  unfold pAnn at h
  rw [Option.map_eq_some_iff] at h
  obtain ⟨⟨j, r'⟩, h1, h2⟩ := h
  cases h2
  obtain ⟨us, e, d⟩ := pAtom_sound _ _ _ h1
  exact ⟨us, j, e, d, rfl⟩

theorem sound_step {f : Nat} (S : Sound f) : Sound (f + 1) where
  primary ts := by
    intro i rest h
    unfold pPrimary at h
    split at h
    · cases h
    · cases h; exact ⟨[.zero], rfl, .zero⟩
    · rename_i f' r e
      cases e
      obtain ⟨us, e, d⟩ := S.option _ _ _ (closeParen_some.1 h)
      exact ⟨.lp :: us ++ [.rp], by simp [e], .paren d⟩
    · rename_i f' r e
      cases e
      rw [Option.map_eq_some_iff] at h
      obtain ⟨⟨j, r'⟩, h1, h2⟩ := h
      cases h2
      obtain ⟨us, e, d⟩ := S.option _ _ _ (closeParen_some.1 h1)
      exact ⟨.recover :: .lp :: us ++ [.rp], by simp [e], .tryIt (.recover d)⟩
    · rename_i f' r e
      cases e
      split at h
      · rename_i j r1 h1
        rw [Option.map_eq_some_iff] at h
        obtain ⟨⟨k, r'⟩, h3, h2⟩ := h
        cases h2
        obtain ⟨us, e, d⟩ := S.option _ _ _ (closeParen_some.1 h1)
        obtain ⟨vs, e', d'⟩ := S.option _ _ _ (closeParen_some.1 h3)
        exact ⟨.rollback :: .lp :: us ++ .rp :: .catch_ :: .lp :: vs ++ [.rp], by simp [e, e'], .tryIt (.rollback d d')⟩
      · cases h
    · cases h; exact ⟨[.inline, .ident _], rfl, .inl⟩
    · obtain ⟨us, j, e, d, rfl⟩ := pAnn_some h
      exact ⟨.ident _ :: .eq :: us, by simp [e], .annEq d⟩
    · obtain ⟨us, j, e, d, rfl⟩ := pAnn_some h
      exact ⟨.ident _ :: .colon :: us, by simp [e], .annColon d⟩
    · obtain ⟨us, j, e, d, rfl⟩ := pAnn_some h
      exact ⟨.hash :: .ident _ :: .eq :: us, by simp [e], .seqEq d⟩
    · obtain ⟨us, j, e, d, rfl⟩ := pAnn_some h
      exact ⟨.hash :: .ident _ :: .colon :: us, by simp [e], .seqColon d⟩
    · obtain ⟨us, e, d⟩ := pAtom_sound _ _ _ h
      exact ⟨us, e, .atom d⟩
  unary ts := by
    intro i rest h
    unfold pUnary at h
    split at h
    · cases h
    · rename_i f' r e
      cases e
      rw [Option.map_eq_some_iff] at h
      obtain ⟨⟨j, r'⟩, h1, h2⟩ := h
      cases h2
      obtain ⟨us, e, d⟩ := S.primary _ _ _ h1
      exact ⟨.opt :: us, by simp [e], .opt d⟩
    · rename_i f' ts' e hn
      cases e
      unfold times at h
      split at h
      · rename_i j r h1
        cases h
        obtain ⟨us, e, d⟩ := S.primary _ _ _ h1
        exact ⟨us ++ [.plus], by simp [e], .plus d⟩
      · rename_i j r h1
        cases h
        obtain ⟨us, e, d⟩ := S.primary _ _ _ h1
        exact ⟨us ++ [.star], by simp [e], .star d⟩
      · obtain ⟨us, e, d⟩ := S.primary _ _ _ h
        exact ⟨us, e, .primary d⟩
  post ts := by
    intro i rest h
    unfold pPostfix at h
    split at h
    · cases h
    · rename_i f' c r e
      cases e
      exact S.postL [.code c] _ _ .code _ _ h
    · rename_i f' ts' e hn
      cases e
      obtain ⟨⟨j, r⟩, h1, h2⟩ := bind_some h
      obtain ⟨us, e, d⟩ := S.unary _ _ _ h1
      rw [e]
      exact S.postL us _ _ (.unary d) _ _ h2
  postL us i ts d := by
    intro j rest h
    unfold postLoop at h
    split at h
    · cases h
    · rename_i f' r e
      cases e
      obtain ⟨⟨k, r'⟩, h1, h2⟩ := bind_some h
      obtain ⟨vs, e, d'⟩ := S.primary _ _ _ h1
      obtain ⟨ws, e', d''⟩ := S.postL _ _ _ (.sep d d') _ _ h2
      refine ⟨ws, ?_, d''⟩
      rw [← e', e]; simp
    · rename_i f' c r e
      cases e
      obtain ⟨ws, e', d''⟩ := S.postL _ _ _ (.act (c := c) d) _ _ h
      refine ⟨ws, ?_, d''⟩
      rw [← e']; simp
    · cases h; exact ⟨us, rfl, d⟩
  seq ts := by
    intro i rest h
    rw [pSeq] at h
    obtain ⟨⟨j, r⟩, h1, h2⟩ := bind_some h
    obtain ⟨us, e, d⟩ := S.post _ _ _ h1
    rw [e]
    exact S.seqL us _ _ (.one d) _ _ h2
  seqL us i ts d := by
    intro j rest h
    rw [seqLoop] at h
    split at h
    · rename_i hs
      obtain ⟨⟨k, r⟩, h1, h2⟩ := bind_some h
      obtain ⟨vs, e, d'⟩ := S.post _ _ _ h1
      have hne : vs ≠ [] := by
        rintro rfl
        have hz : ∀ {n ts i}, D true n ts i → ts ≠ [] := by
          intro n ts i d
          induction d <;> simp_all
        exact hz d' rfl
      have hc : codeFirst vs = false := by
        have := starts_notCode hs
        rw [e] at this
        cases vs with
        | nil => exact absurd rfl hne
        | cons t vs => cases t <;> first | rfl | (cases this)
      obtain ⟨ws, e', d''⟩ := S.seqL _ _ _ (.seq d d' fun _ => hc) _ _ h2
      refine ⟨ws, ?_, d''⟩
      rw [← e', e]; simp
    · cases h; exact ⟨us, rfl, d⟩
  cond ts := by
    intro i rest h
    unfold pCond at h
    split at h
    · cases h
    · rename_i f' c r e
      cases e
      rw [Option.map_eq_some_iff] at h
      obtain ⟨⟨j, r'⟩, h1, h2⟩ := h
      cases h2
      obtain ⟨us, e, d⟩ := S.seq _ _ _ h1
      exact ⟨.opt :: .code c :: us, by simp [e], .cond d⟩
    · rename_i f' ts' e hn
      cases e
      obtain ⟨us, e, d⟩ := S.seq _ _ _ h
      exact ⟨us, e, .sequence d⟩
  option ts := by
    intro i rest h
    rw [pOption] at h
    obtain ⟨⟨j, r⟩, h1, h2⟩ := bind_some h
    obtain ⟨us, e, d⟩ := S.cond _ _ _ h1
    rw [e]
    exact S.optL us _ _ (.single d) _ _ h2
  optL us i ts d := by
    intro j rest h
    unfold optLoop at h
    split at h
    · cases h
    · rename_i f' r e
      cases e
      obtain ⟨⟨k, r'⟩, h1, h2⟩ := bind_some h
      obtain ⟨vs, e, d'⟩ := S.cond _ _ _ h1
      obtain ⟨ws, e', d''⟩ := S.optL _ _ _ (.alt d d') _ _ h2
      refine ⟨ws, ?_, d''⟩
      rw [← e', e]; simp
    · cases h; exact ⟨us, rfl, d⟩

theorem sound : ∀ f, Sound f
  | 0 => by
    constructor <;> intro <;> intros <;> first
      | (intro i rest h; simp [pPrimary, pUnary, pPostfix, postLoop, pSeq, seqLoop, pCond, pOption, optLoop] at h)
      | (rename_i h; simp [pPrimary, pUnary, pPostfix, postLoop, pSeq, seqLoop, pCond, pOption, optLoop] at h)
  | f + 1 => sound_step (sound f)

end Verif.Syntax
