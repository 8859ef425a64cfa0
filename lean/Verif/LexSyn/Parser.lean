import Verif.LexSyn.Model

/-!
# A recursive descent parser for regular expressions, used in the proofs and to compute examples
-/

namespace Verif.LexSyn

abbrev Res := Option (E × List Tok)

/-- Iterations behind an expression. -/
def repLoop : E → List Tok → E × List Tok
  | x, .star :: r => repLoop (.star x) r
  | x, .plus :: r => repLoop (.plus x) r
  | x, r => (x, r)

/-- Juxtaposition: a concatenation, in brackets a union. -/
def join (b : Bool) (x y : E) : E := if b then .alt x y else .cat x y

def close (t : Tok) : Res → Res
  | some (x, t' :: r) => if t' = t then some (x, r) else none
  | _ => none

mutual
def pAtom : Nat → Bool → List Tok → Res
  | 0, _, _ => none
  | f + 1, _, .lp :: r => close .rp (pAlt f false r)
  | f + 1, _, .lb :: r => close .rb (pAlt f true r)
  | _ + 1, _, .dot :: r => some (.dot, r)
  | _ + 1, _, .str s :: r => some (.str s, r)
  | _ + 1, b, .unq s :: r => some (if b then .coll s else .word s, r)
  | _ + 1, true, .range s :: r => some (.range s, r)
  | _ + 1, _, .named s :: r => some (.named s, r)
  | _ + 1, _, ts => some (.eps, ts)
def pRep : Nat → Bool → List Tok → Res
  | 0, _, _ => none
  | f + 1, b, ts => (pAtom f b ts).map fun p => repLoop p.1 p.2
def pSep : Nat → Bool → List Tok → Res
  | 0, _, _ => none
  | f + 1, b, ts => (pRep f b ts).bind fun p => sepLoop f b p.1 p.2
def sepLoop : Nat → Bool → E → List Tok → Res
  | 0, _, _, _ => none
  | f + 1, b, x, .at_ :: r => (pRep f b r).bind fun p => sepLoop f b (.sepBy x p.1) p.2
  | _ + 1, _, x, ts => some (x, ts)
def pSeq : Nat → Bool → List Tok → Res
  | 0, _, _ => none
  | f + 1, b, ts => (pSep f b ts).bind fun p => seqLoop f b p.1 p.2
def seqLoop : Nat → Bool → E → List Tok → Res
  | 0, _, _, _ => none
  | f + 1, b, x, ts => if begins b ts then (pSep f b ts).bind fun p => seqLoop f b (join b x p.1) p.2 else some (x, ts)
def pPre : Nat → Bool → List Tok → Res
  | 0, _, _ => none
  | f + 1, b, .tilde :: r => (pPre f b r).map fun p => (.neg p.1, p.2)
  | f + 1, b, .opt :: r => (pPre f b r).map fun p => (.opt p.1, p.2)
  | f + 1, b, ts => pSeq f b ts
def pBut : Nat → Bool → List Tok → Res
  | 0, _, _ => none
  | f + 1, b, ts => (pPre f b ts).bind fun p => butRest f b p.1 p.2
def butRest : Nat → Bool → E → List Tok → Res
  | 0, _, _, _ => none
  | f + 1, b, x, .hat :: r => (pBut f b r).map fun p => (.but x p.1, p.2)
  | _ + 1, _, x, ts => some (x, ts)
def pAnd : Nat → Bool → List Tok → Res
  | 0, _, _ => none
  | f + 1, b, ts => (pBut f b ts).bind fun p => andLoop f b p.1 p.2
def andLoop : Nat → Bool → E → List Tok → Res
  | 0, _, _, _ => none
  | f + 1, b, x, .amp :: r => (pBut f b r).bind fun p => andLoop f b (.and x p.1) p.2
  | _ + 1, _, x, ts => some (x, ts)
def pAlt : Nat → Bool → List Tok → Res
  | 0, _, _ => none
  | f + 1, b, ts => (pAnd f b ts).bind fun p => altLoop f b p.1 p.2
def altLoop : Nat → Bool → E → List Tok → Res
  | 0, _, _, _ => none
  | f + 1, b, x, .bar :: r => (pAnd f b r).bind fun p => altLoop f b (.alt x p.1) p.2
  | _ + 1, _, x, ts => some (x, ts)
end

/-! ## What it finds is derived -/

/-- Behind an open end there is no token that begins an expression. -/
def Ok (b : Bool) (us rest : List Tok) : Prop := open_ us = true → begins b rest = false

def Read (b : Bool) (n : Lv) (ts : List Tok) (r : Res) : Prop :=
  ∀ x rest, r = some (x, rest) → ∃ us, ts = us ++ rest ∧ D true b n us x ∧ Ok b us rest

theorem bind_some {α β : Type} {x : Option α} {g : α → Option β} {b : β} (h : x.bind g = some b) : ∃ a, x = some a ∧ g a = some b := by
  cases x with
  | none => cases h
  | some a => exact ⟨a, rfl, h⟩

theorem close_some {t : Tok} {r : Res} {x : E} {rest : List Tok} : close t r = some (x, rest) ↔ r = some (x, t :: rest) := by
  constructor
  · intro h
    unfold close at h
    split at h
    · split at h
      · simp_all
      · cases h
    · cases h
  · rintro rfl; simp [close]

theorem open_append {ts us : List Tok} (h : us ≠ []) : open_ (ts ++ us) = open_ us := by
  unfold open_
  rw [List.getLast?_append]
  cases e : us.getLast? with
  | none => exact absurd (List.getLast?_eq_none_iff.1 e) h
  | some t => rfl

theorem open_last (ts : List Tok) (t : Tok) : open_ (ts ++ [t]) = (t == .at_) := by
  simp [open_]

theorem open_at (ts us : List Tok) : open_ (ts ++ .at_ :: us) = open_ us := by
  cases us with
  | nil => simp [open_]
  | cons t us =>
    rw [show ts ++ Tok.at_ :: t :: us = (ts ++ [.at_]) ++ (t :: us) by simp]
    exact open_append (by simp)

theorem repLoop_sound (b : Bool) (x : E) (us ts : List Tok) (d : D true b .rep us x) (h : Ok b us ts) :
    Read b .rep (us ++ ts) (some (repLoop x ts)) := by
  induction ts generalizing x us with
  | nil => intro y rest e; cases e; exact ⟨us, rfl, d, h⟩
  | cons t r ih =>
    intro y rest e
    cases t with
    | star =>
      obtain ⟨vs, e1, d1, o1⟩ := ih (.star x) (us ++ [.star]) (.star d) (by intro h; simp [open_last] at h) y rest e
      exact ⟨vs, by rw [← e1]; simp, d1, o1⟩
    | plus =>
      obtain ⟨vs, e1, d1, o1⟩ := ih (.plus x) (us ++ [.plus]) (.plus d) (by intro h; simp [open_last] at h) y rest e
      exact ⟨vs, by rw [← e1]; simp, d1, o1⟩
    | _ => cases e; exact ⟨us, rfl, d, h⟩

structure Sound (f : Nat) : Prop where
  atom : ∀ b ts, Read b .atom ts (pAtom f b ts)
  rep : ∀ b ts, Read b .rep ts (pRep f b ts)
  sep : ∀ b ts, Read b .sep ts (pSep f b ts)
  sepL : ∀ b us x ts, D true b .sep us x → Ok b us ts → Read b .sep (us ++ ts) (sepLoop f b x ts)
  seq : ∀ b ts, Read b .seq ts (pSeq f b ts)
  seqL : ∀ b us x ts, D true b .seq us x → Ok b us ts → Read b .seq (us ++ ts) (seqLoop f b x ts)
  pre : ∀ b ts, Read b .pre ts (pPre f b ts)
  but : ∀ b ts, Read b .but ts (pBut f b ts)
  butR : ∀ b us x ts, D true b .pre us x → Ok b us ts → Read b .but (us ++ ts) (butRest f b x ts)
  and : ∀ b ts, Read b .and ts (pAnd f b ts)
  andL : ∀ b us x ts, D true b .and us x → Ok b us ts → Read b .and (us ++ ts) (andLoop f b x ts)
  alt : ∀ b ts, Read b .alt ts (pAlt f b ts)
  altL : ∀ b us x ts, D true b .alt us x → Ok b us ts → Read b .alt (us ++ ts) (altLoop f b x ts)

theorem ok_token {b : Bool} {us rest : List Tok} (t : Tok) (h : (t == .at_) = false) : Ok b (us ++ [t]) rest := by
  intro h'; rw [open_last, h] at h'; cases h'

theorem D.join {b : Bool} {ts us : List Tok} {x y : E} (d : D true b .seq ts x) (d' : D true b .sep us y) (h : joins b ts us) :
    D true b .seq (ts ++ us) (join b x y) := by
  cases b
  · exact .cat d d' fun _ => h
  · exact .union d d' fun _ => h

theorem begins_append {b : Bool} {us rest : List Tok} (h : us ≠ []) : begins b (us ++ rest) = begins b us := by
  cases us with
  | nil => exact absurd rfl h
  | cons t us => cases t <;> rfl

/-- `Ok` behind an operator. -/
theorem ok_behind {b : Bool} {us vs rest : List Tok} {t : Tok} (h : Ok b vs rest) : Ok b (us ++ t :: vs) rest := by
  intro ho
  cases vs with
  | nil => exact h rfl
  | cons v vs =>
    rw [show us ++ t :: v :: vs = (us ++ [t]) ++ (v :: vs) by simp, open_append (by simp)] at ho
    exact h ho

theorem sound_step {f : Nat} (S : Sound f) : Sound (f + 1) where
  atom b ts := by
    intro x rest h
    unfold pAtom at h
    split at h
    · cases h
    · rename_i f' b' r e
      cases e
      obtain ⟨us, e, d, _⟩ := S.alt _ _ _ _ (close_some.1 h)
      exact ⟨.lp :: us ++ [.rp], by simp [e], .paren d, ok_token (us := .lp :: us) _ rfl⟩
    · rename_i f' b' r e
      cases e
      obtain ⟨us, e, d, _⟩ := S.alt _ _ _ _ (close_some.1 h)
      exact ⟨.lb :: us ++ [.rb], by simp [e], .bracket d, ok_token (us := .lb :: us) _ rfl⟩
    · cases h; exact ⟨[.dot], rfl, .dot, ok_token (us := []) _ rfl⟩
    · cases h; exact ⟨[.str _], rfl, .str, ok_token (us := []) _ rfl⟩
    · cases h
      refine ⟨[.unq _], rfl, ?_, ok_token (us := []) _ rfl⟩
      split
      · rename_i hb; subst hb; exact .coll
      · rename_i hb; rw [Bool.not_eq_true] at hb; subst hb; exact .word
    · cases h; exact ⟨[.range _], rfl, .range, ok_token (us := []) _ rfl⟩
    · cases h; exact ⟨[.named _], rfl, .named, ok_token (us := []) _ rfl⟩
    · rename_i e h1 h2 h3 h4 h5 h6 h7
      cases h
      refine ⟨[], rfl, .eps, fun _ => ?_⟩
      cases rest with
      | nil => rfl
      | cons t r =>
        cases t with
        | lp => exact absurd rfl (h1 r)
        | lb => exact absurd rfl (h2 r)
        | dot => exact absurd rfl (h3 r)
        | str s => exact absurd rfl (h4 s r)
        | unq s => exact absurd rfl (h5 s r)
        | range s => exact Bool.eq_false_iff.2 fun hb => h7 s r hb rfl
        | named s => exact absurd rfl (h6 s r)
        | _ => rfl
  rep b ts := by
    intro x rest h
    rw [pRep, Option.map_eq_some_iff] at h
    obtain ⟨⟨y, r⟩, h1, h2⟩ := h
    obtain ⟨us, e, d, o⟩ := S.atom _ _ _ _ h1
    rw [e]
    exact repLoop_sound b _ _ _ (.repOne d) o _ _ (congrArg some h2)
  sep b ts := by
    intro x rest h
    rw [pSep] at h
    obtain ⟨⟨y, r⟩, h1, h2⟩ := bind_some h
    obtain ⟨us, e, d, o⟩ := S.rep _ _ _ _ h1
    rw [e]
    exact S.sepL b us _ _ (.sepOne d) o _ _ h2
  sepL b us x ts d o := by
    intro y rest h
    unfold sepLoop at h
    split at h
    · cases h
    · rename_i f' b' x' r e
      cases e
      obtain ⟨⟨z, r'⟩, h1, h2⟩ := bind_some h
      obtain ⟨vs, e, d', o'⟩ := S.rep _ _ _ _ h1
      obtain ⟨ws, e', d'', o''⟩ := S.sepL _ _ _ _ (.sep d d') (by intro h; rw [open_at] at h; exact o' h) _ _ h2
      exact ⟨ws, by rw [← e', e]; simp, d'', o''⟩
    · cases h; exact ⟨us, rfl, d, o⟩
  seq b ts := by
    intro x rest h
    rw [pSeq] at h
    obtain ⟨⟨y, r⟩, h1, h2⟩ := bind_some h
    obtain ⟨us, e, d, o⟩ := S.sep _ _ _ _ h1
    rw [e]
    exact S.seqL b us _ _ (.seqOne d) o _ _ h2
  seqL b us x ts d o := by
    intro y rest h
    rw [seqLoop] at h
    split at h
    · rename_i hs
      obtain ⟨⟨z, r⟩, h1, h2⟩ := bind_some h
      obtain ⟨vs, e, d', o'⟩ := S.sep _ _ _ _ h1
      have hne : vs ≠ [] := by
        rintro rfl
        rw [e, List.nil_append] at hs
        rw [o' rfl] at hs; cases hs
      have ho : open_ us = false := by
        cases h : open_ us with
        | false => rfl
        | true => rw [o h] at hs; cases hs
      have hb : begins b vs = true := by rw [e, begins_append hne] at hs; exact hs
      obtain ⟨ws, e', d'', o''⟩ := S.seqL _ _ _ _ (d.join d' ⟨ho, hb⟩) (by intro h; rw [open_append hne] at h; exact o' h) _ _ h2
      exact ⟨ws, by rw [← e', e]; simp, d'', o''⟩
    · cases h; exact ⟨us, rfl, d, o⟩
  pre b ts := by
    intro x rest h
    unfold pPre at h
    split at h
    · cases h
    · rename_i f' b' r e
      cases e
      rw [Option.map_eq_some_iff] at h
      obtain ⟨⟨y, r'⟩, h1, h2⟩ := h
      cases h2
      obtain ⟨us, e, d, o⟩ := S.pre _ _ _ _ h1
      exact ⟨.tilde :: us, by simp [e], .neg d, ok_behind (us := []) o⟩
    · rename_i f' b' r e
      cases e
      rw [Option.map_eq_some_iff] at h
      obtain ⟨⟨y, r'⟩, h1, h2⟩ := h
      cases h2
      obtain ⟨us, e, d, o⟩ := S.pre _ _ _ _ h1
      exact ⟨.opt :: us, by simp [e], .opt d, ok_behind (us := []) o⟩
    · rename_i e _ _
      cases e
      obtain ⟨us, e, d, o⟩ := S.seq _ _ _ _ h
      exact ⟨us, e, .preOne d, o⟩
  but b ts := by
    intro x rest h
    rw [pBut] at h
    obtain ⟨⟨y, r⟩, h1, h2⟩ := bind_some h
    obtain ⟨us, e, d, o⟩ := S.pre _ _ _ _ h1
    rw [e]
    exact S.butR b us _ _ d o _ _ h2
  butR b us x ts d o := by
    intro y rest h
    unfold butRest at h
    split at h
    · cases h
    · rename_i f' b' x' r e
      cases e
      rw [Option.map_eq_some_iff] at h
      obtain ⟨⟨z, r'⟩, h1, h2⟩ := h
      cases h2
      obtain ⟨vs, e, d', o'⟩ := S.but _ _ _ _ h1
      exact ⟨us ++ .hat :: vs, by simp [e], .but d d', ok_behind o'⟩
    · cases h; exact ⟨us, rfl, .butOne d, o⟩
  and b ts := by
    intro x rest h
    rw [pAnd] at h
    obtain ⟨⟨y, r⟩, h1, h2⟩ := bind_some h
    obtain ⟨us, e, d, o⟩ := S.but _ _ _ _ h1
    rw [e]
    exact S.andL b us _ _ (.andOne d) o _ _ h2
  andL b us x ts d o := by
    intro y rest h
    unfold andLoop at h
    split at h
    · cases h
    · rename_i f' b' x' r e
      cases e
      obtain ⟨⟨z, r'⟩, h1, h2⟩ := bind_some h
      obtain ⟨vs, e, d', o'⟩ := S.but _ _ _ _ h1
      obtain ⟨ws, e', d'', o''⟩ := S.andL _ _ _ _ (.and d d') (ok_behind o') _ _ h2
      exact ⟨ws, by rw [← e', e]; simp, d'', o''⟩
    · cases h; exact ⟨us, rfl, d, o⟩
  alt b ts := by
    intro x rest h
    rw [pAlt] at h
    obtain ⟨⟨y, r⟩, h1, h2⟩ := bind_some h
    obtain ⟨us, e, d, o⟩ := S.and _ _ _ _ h1
    rw [e]
    exact S.altL b us _ _ (.altOne d) o _ _ h2
  altL b us x ts d o := by
    intro y rest h
    unfold altLoop at h
    split at h
    · cases h
    · rename_i f' b' x' r e
      cases e
      obtain ⟨⟨z, r'⟩, h1, h2⟩ := bind_some h
      obtain ⟨vs, e, d', o'⟩ := S.and _ _ _ _ h1
      obtain ⟨ws, e', d'', o''⟩ := S.altL _ _ _ _ (.alt d d') (ok_behind o') _ _ h2
      exact ⟨ws, by rw [← e', e]; simp, d'', o''⟩
    · cases h; exact ⟨us, rfl, d, o⟩

theorem sound : ∀ f, Sound f
  | 0 => by
    constructor <;> intros <;> intro _ _ h <;>
      simp [pAtom, pRep, pSep, sepLoop, pSeq, seqLoop, pPre, pBut, butRest, pAnd, andLoop, pAlt, altLoop] at h
  | f + 1 => sound_step (sound f)

end Verif.LexSyn
