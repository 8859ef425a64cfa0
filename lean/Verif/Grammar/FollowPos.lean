import Verif.Grammar.Follow
import Verif.Grammar.FirstSound

/-!
# Where the elements of FOLLOW sets come from

`Fol W eof n e`: token `e` gets into FOLLOW(`n`) on the ways on which the sets are computed, from node to node.
-/

namespace Verif.Grammar

variable {W : World} {F S : Sets}

/-- Ways on which all of FOLLOW(`n`) is passed to `m`. -/
inductive Passes (W : World) (n : Nat) : Nat → Prop
  | direct {m} : Direct W n m → Passes W n m
  | annot {i} : W.node n = some (.annot i) ∨ W.node n = some (.cond i) → Passes W n i
  | twoL {l r} : W.node n = some (.alt l r) ∨ W.node n = some (.tryc l (some r)) → Passes W n l
  | twoR {l r} : W.node n = some (.alt l r) ∨ W.node n = some (.tryc l (some r)) → Passes W n r
  | consR {l r} : W.node n = some (.cons l r) → Passes W n r
  | evolve {i s} : W.node n = some (.evolve i s) → Passes W n i

inductive Fol (W : World) (eof : Nat) : Nat → Nat → Prop
  | start {r i s} : s ∈ W.start → r ∈ W.rules → W.node r = some (.evolve i s) → Fol W eof s eof
  | rule {r i s e} : r ∈ W.rules → W.node r = some (.evolve i s) → Fol W eof s e → Fol W eof r e
  | pass {n m e} : FSeen W n → Passes W n m → Fol W eof n e → Fol W eof m e
  | last {n l r e} : FSeen W n → W.node n = some (.cons l r) → Nullable W r → Fol W eof n e → Fol W eof l e
  | next {n l r e γ} : FSeen W n → W.node n = some (.cons l r) → W.node e = some .term → Der W r (e :: γ) → Fol W eof l e
  | sym {n s e} : FSeen W n → W.node n = some (.nonterm s) ∨ W.node n = some (.inlined (some s)) → Fol W eof n e → Fol W eof s e

def PSound (W : World) (eof : Nat) (S : Sets) : Prop := ∀ n e, (n, e) ∈ S → Fol W eof n e

theorem pos_merge {eof d : Nat} {xs : List Nat} {c : Comp} (hc : PSound W eof c.sets) (h : ∀ e ∈ xs, W.node e = some .term → Fol W eof d e) :
    PSound W eof (mergeFollow W d xs c).sets := by
  intro n e hm
  rcases mem_mergeFollow.1 hm with h1 | ⟨_, h1, h2, h3⟩
  · exact hc _ _ h1
  · simp only at h1 h2 h3; subst h1; exact h e h2 h3

theorem pos_pre {eof d s : Nat} {c : Comp} (hc : PSound W eof c.sets) (h : ∀ e, Fol W eof s e → Fol W eof d e) :
    PSound W eof (preCopy W d s c).sets := pos_merge hc fun e he _ => h e (hc _ _ (mem_of.1 he))

theorem pos_ofSymbol {eof n s : Nat} {c : Comp} (hc : PSound W eof c.sets) (h : ∀ e, Fol W eof n e → Fol W eof s e) :
    PSound W eof (followOfSymbol W n s c).sets := by
  unfold followOfSymbol
  cases e : W.searchRule s with
  | none => exact pos_pre hc h
  | some r =>
    obtain ⟨h1, i, h2⟩ := searchRule_some e
    exact pos_pre (pos_pre hc fun e he => .rule h1 h2 (h e he)) h

theorem followGo_pos (hw : Wf W) (hl : LeadOk W) (ho : OpsOk W) (hF : Sound W F) {eof : Nat} : ∀ (f : Nat) (V : List Nat) (n : Nat) (c c' : Comp),
    Good W n → FSeen W n → PSound W eof c.sets → followGo W F f V n c = some c' → PSound W eof c'.sets := by
  intro f
  induction f with
  | zero => intro V n c c' _ _ _ h; cases h
  | succ f ih =>
    intro V n c c' hg hu hc h
    have ent : ∀ {m : Nat} {c c' : Comp}, Good W m → FSeen W m → PSound W eof c.sets → enter (followGo W F f) V m c = some c' → PSound W eof c'.sets := by
      intro m c c' hm hu hc h
      unfold enter at h
      split at h
      · cases h; exact hc
      · exact ih _ _ _ _ hm hu hc h
    cases hn : W.node n with
    | none => simp [followGo, hn] at h
    | some it =>
      simp only [followGo, hn] at h
      have dir : ∀ {k : Nat}, Good W k → Direct W n k → followGo W F f V k (preCopy W k n c) = some c' → PSound W eof c'.sets := by
        intro k hk hd h
        exact ih _ _ _ _ hk (hu.direct hd) (pos_pre hc fun e he => .pass hu (.direct hd) he) h
      have via : ∀ {k : Nat}, Good W k → W.node n = some (.annot k) ∨ W.node n = some (.cond k) → enter (followGo W F f) V k (preCopy W k n c) = some c' → PSound W eof c'.sets := by
        intro k hk hd h
        exact ent hk (hu.calls (.annot hd)) (pos_pre hc fun e he => .pass hu (.annot hd) he) h
      have two : ∀ {l r : Nat}, Good W l → Good W r → W.node n = some (.alt l r) ∨ W.node n = some (.tryc l (some r)) →
          (enter (followGo W F f) V l (preCopy W r n (preCopy W l n c))).bind (enter (followGo W F f) V r) = some c' → PSound W eof c'.sets := by
        intro l r gl gr d h
        obtain ⟨c1, h1, h2⟩ := Option.bind_eq_some_iff.1 h
        exact ent gr (hu.calls (.twoR d)) (ent gl (hu.calls (.twoL d)) (pos_pre (pos_pre hc fun e he => .pass hu (.twoL d) he) fun e he => .pass hu (.twoR d) he) h1) h2
      have good : ∀ {m}, (∀ l r, it ≠ .cons l r) → (∀ l r, it ≠ .alt l r) → Part W n m → (∀ o, W.node n ≠ some (.op o)) → Good W m := by
        intro m h1 h2 hp hno
        exact good_part hw (good_parsed hw hg hn h1 h2).1 hp hno
      cases it with
      | zero => cases h; exact hc
      | sym => cases h; exact hc
      | term => cases h; exact hc
      | nonterm s => cases h; exact pos_ofSymbol hc fun e he => .sym hu (.inl hn) he
      | inlined s => cases s with
        | none => cases h; exact hc
        | some s => cases h; exact pos_ofSymbol hc fun e he => .sym hu (.inr hn) he
      | plus i =>
        obtain ⟨k, a, e1, e2, e3⟩ := hw.bnf.plus n i hn
        simp only [e1] at h
        have hp := (good_parsed hw hg hn (by simp) (by simp)).1
        have hlt := part_lt hw hp (.plus hn) (by simp [hn])
        exact dir (.loopC (by omega) (fun j s => hw.parts n i j s (.plus hn)) (hw.valid _ _ (.plus hn)) e2 e3) (.plus hn e1) h
      | star i =>
        obtain ⟨k, a, e1, e2, e3⟩ := hw.bnf.star n i hn
        simp only [e1] at h
        have hp := (good_parsed hw hg hn (by simp) (by simp)).1
        have hlt := part_lt hw hp (.star hn) (by simp [hn])
        exact dir (.loopA (by omega) (fun j s => hw.parts n i j s (.star hn)) (hw.valid _ _ (.star hn)) e2 e3) (.star hn e1) h
      | op o =>
        obtain ⟨k, e1, e2, e3⟩ := hw.bnf.op n o hn
        simp only [e1] at h
        exact dir (good_top hw hn e2 e3) (.op hn e1) h
      | annot i => exact via (good (by simp) (by simp) (.annot hn) (by simp [hn])) (.inl hn) h
      | cond i => exact via (good (by simp) (by simp) (.cond hn) (by simp [hn])) (.inr hn) h
      | action i => cases i with
        | none => cases h; exact hc
        | some i => exact dir (good (by simp) (by simp) (.action hn) (by simp [hn])) (.action hn) h
      | tryc l r => cases r with
        | none => exact dir (good (by simp) (by simp) (.tryL hn) (by simp [hn])) (.tryc hn) h
        | some r => exact two (good (by simp) (by simp) (.tryL hn) (by simp [hn])) (good (by simp) (by simp) (.tryR hn) (by simp [hn])) (.inr hn) h
      | alt l r =>
        have ga := good_alt hw hg hn
        exact two ga.1 ga.2 (.inl hn) h
      | evolve i s =>
        have hp := good_parsed hw hg hn (by simp) (by simp)
        have gi := good (by simp) (by simp) (.evolve hn) (by simp [hn])
        exact ent gi (hu.calls (.evolve hn)) (pos_pre (pos_pre hc fun e he => .rule (hp.2 i s hn) hn he) fun e he => .pass hu (.evolve hn) he) h
      | cons l r =>
        obtain ⟨⟨gl, _⟩, gr, _⟩ := good_cons hw hg hn
        obtain ⟨er, h2, h⟩ := Option.bind_eq_some_iff.1 h
        obtain ⟨c1, h3, h⟩ := Option.bind_eq_some_iff.1 h
        have s1 : PSound W eof (mergeFollow W l (F.of r) (preCopy W r n c)).sets := by
          refine pos_merge (pos_pre hc fun e he => .pass hu (.consR hn) he) fun e he ht => ?_
          rcases hF _ _ (mem_of.1 he) with ⟨e1, _⟩ | ⟨_, γ, hγ⟩
          · rw [ht] at e1; cases e1
          · exact .next hu hn ht hγ
        refine ent gr (hu.calls (.consR hn)) (ent gl (hu.calls (.consL hn)) ?_ h3) h
        split
        · next he =>
          subst he
          exact pos_pre s1 fun e he => .last hu hn ((reduces_cons hw hl ho hF hg hn).2 h2) he
        · exact s1

theorem followPass_pos (hw : Wf W) (hl : LeadOk W) (ho : OpsOk W) (hF : Sound W F) {eof : Nat} (f : Nat) : ∀ (rs : List Nat), (∀ r ∈ rs, r ∈ W.rules) →
    ∀ (c c' : Comp), PSound W eof c.sets → followPass W F f rs c = some c' → PSound W eof c'.sets := by
  intro rs
  induction rs with
  | nil => intro _ c c' hc h; cases h; exact hc
  | cons r rs ih =>
    intro hrs c c' hc h
    obtain ⟨c1, h1, h2⟩ := Option.bind_eq_some_iff.1 h
    have hr := hrs r (by simp)
    obtain ⟨hp, i, s, hn⟩ := hw.rules r hr
    refine ih (fun r hr => hrs r (by simp [hr])) c1 c' ?_ h2
    unfold enter at h1
    split at h1
    · cases h1; exact hc
    · exact followGo_pos hw hl ho hF f _ r c c1 (.parsed hp fun _ _ _ => hr) ⟨_, .rule hr⟩ hc h1

theorem followLoop_pos (hw : Wf W) (hl : LeadOk W) (ho : OpsOk W) (hF : Sound W F) {eof : Nat} (f : Nat) : ∀ (k : Nat) (c : Comp) (S : Sets),
    PSound W eof c.sets → followLoop W F f k c = some S → PSound W eof S := by
  intro k
  induction k with
  | zero => intro c S _ h; simp [followLoop] at h
  | succ k ih =>
    intro c S hc h
    rw [followLoop] at h
    cases e : followPass W F f W.rules c with
    | none => rw [e] at h; cases h
    | some d =>
      rw [e] at h
      simp only at h
      have hs := followPass_pos hw hl ho hF f W.rules (fun _ => id) c d hc e
      split at h
      · exact ih ⟨d.sets, false⟩ _ hs h
      · cases h; exact hs

theorem initFollow_pos (eof : Nat) : PSound W eof (initFollow W eof).sets := by
  have key : ∀ (rs : List Nat), (∀ r ∈ rs, r ∈ W.rules) → ∀ c : Comp, PSound W eof c.sets → PSound W eof (rs.foldl (fun c r => match W.node r with
    | some (.evolve i s) => if s ∈ W.start then ((c.insert r eof).insert s eof).insert i eof else c
    | _ => c) c).sets := by
    intro rs
    induction rs with
    | nil => exact fun _ c h => h
    | cons r rs ih =>
      intro hrs c hc
      refine ih (fun r hr => hrs r (by simp [hr])) _ ?_
      simp only
      split
      · next i s hn =>
        split
        · next hs =>
          have hr := hrs r (by simp)
          intro n e h
          simp only [mem_insert, Prod.mk.injEq] at h
          have f1 : Fol W eof s eof := .start hs hr hn
          have f2 : Fol W eof r eof := .rule hr hn f1
          rcases h with ((h | ⟨rfl, rfl⟩) | ⟨rfl, rfl⟩) | ⟨rfl, rfl⟩
          · exact hc _ _ h
          · exact f2
          · exact f1
          · exact .pass ⟨_, .rule hr⟩ (.evolve hn) f2
        · exact hc
      · exact hc
  exact key _ (fun _ => id) _ (by intro n e h; cases h)

theorem computeFollow_pos (hw : Wf W) (hl : LeadOk W) (ho : OpsOk W) (hF : Sound W F) {eof f k : Nat} (h : computeFollow W F eof f k = some S) : PSound W eof S :=
  followLoop_pos hw hl ho hF f k ⟨(initFollow W eof).sets, true⟩ _ (initFollow_pos eof) h

end Verif.Grammar
