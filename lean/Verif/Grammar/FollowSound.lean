import Verif.Grammar.Follow
import Verif.Grammar.FirstSound

/-!
# The FOLLOW sets contain nothing else
-/

namespace Verif.Grammar

variable {W : World} {F S : Sets}

/-- Whatever `n` derives is a part of some form derived from a symbol. -/
def Used (W : World) (n : Nat) : Prop := ∃ s₀ α β, W.node s₀ = some .sym ∧ ∀ ω, Der W n ω → Der W s₀ (α ++ ω ++ β)

/-- `e` can follow item `n`: in a form derived from some symbol, or (for the end of the input) at the end of what a start symbol
derives. -/
def Fits (W : World) (eof n e : Nat) : Prop :=
  (∃ s₀ α β, W.node s₀ = some .sym ∧ ∀ ω, Der W n ω → Der W s₀ (α ++ ω ++ e :: β)) ∨
  (e = eof ∧ ∃ s₀ α, s₀ ∈ W.start ∧ ∀ ω, Der W n ω → Der W s₀ (α ++ ω))

def FSound (W : World) (eof : Nat) (S : Sets) : Prop := ∀ n e, (n, e) ∈ S → Fits W eof n e

theorem Used.ctx {n m : Nat} (h : Used W n) {α β : List Nat} (hd : ∀ ω, Der W m ω → Der W n (α ++ ω ++ β)) : Used W m := by
  obtain ⟨s₀, α', β', h1, h2⟩ := h
  exact ⟨s₀, α' ++ α, β ++ β', h1, fun ω hω => by simpa using h2 _ (hd ω hω)⟩

theorem Used.mono {n m : Nat} (h : Used W n) (hd : ∀ ω, Der W m ω → Der W n ω) : Used W m :=
  h.ctx (α := []) (β := []) fun ω hω => by simpa using hd ω hω

theorem Fits.ctx {eof n m e : Nat} (h : Fits W eof n e) {α : List Nat} (hd : ∀ ω, Der W m ω → Der W n (α ++ ω)) : Fits W eof m e := by
  rcases h with ⟨s₀, α', β', h1, h2⟩ | ⟨e, s₀, α', h1, h2⟩
  · exact .inl ⟨s₀, α' ++ α, β', h1, fun ω hω => by simpa using h2 _ (hd ω hω)⟩
  · exact .inr ⟨e, s₀, α' ++ α, h1, fun ω hω => by simpa using h2 _ (hd ω hω)⟩

theorem Fits.mono {eof n m e : Nat} (h : Fits W eof n e) (hd : ∀ ω, Der W m ω → Der W n ω) : Fits W eof m e :=
  h.ctx (α := []) fun ω hω => by simpa using hd ω hω

theorem follow_merge_sound {eof d : Nat} {xs : List Nat} {c : Comp} (hc : FSound W eof c.sets) (h : ∀ e ∈ xs, W.node e = some .term → Fits W eof d e) :
    FSound W eof (mergeFollow W d xs c).sets := by
  intro n e hm
  rcases mem_mergeFollow.1 hm with h1 | ⟨_, h1, h2, h3⟩
  · exact hc _ _ h1
  · simp only at h1 h2 h3; subst h1; exact h e h2 h3

theorem pre_sound {eof d s : Nat} {c : Comp} (hc : FSound W eof c.sets) (h : ∀ e, Fits W eof s e → Fits W eof d e) :
    FSound W eof (preCopy W d s c).sets := follow_merge_sound hc fun e he _ => h e (hc _ _ (mem_of.1 he))

theorem ofSymbol_sound {eof n s : Nat} {c : Comp} (hs : W.node s = some .sym) (hc : FSound W eof c.sets) (h : ∀ α, Der W s α → Der W n α) :
    FSound W eof (followOfSymbol W n s c).sets := by
  unfold followOfSymbol
  cases e : W.searchRule s with
  | none => exact pre_sound hc fun e he => he.mono h
  | some r =>
    obtain ⟨h1, i, h2⟩ := searchRule_some e
    refine pre_sound (pre_sound hc fun e he => he.mono fun ω hω => h _ ?_) fun e he => he.mono h
    exact .expand hs h1 h2 (der_evolve h2 hω)

theorem followGo_sound (hw : Wf W) (hl : LeadOk W) (ho : OpsOk W) (hF : Sound W F) {eof : Nat} : ∀ (f : Nat) (V : List Nat) (n : Nat) (c c' : Comp),
    Good W n → Used W n → FSound W eof c.sets → followGo W F f V n c = some c' → FSound W eof c'.sets := by
  intro f
  induction f with
  | zero => intro V n c c' _ _ _ h; cases h
  | succ f ih =>
    intro V n c c' hg hu hc h
    have ent : ∀ {m : Nat} {c c' : Comp}, Good W m → Used W m → FSound W eof c.sets → enter (followGo W F f) V m c = some c' → FSound W eof c'.sets := by
      intro m c c' hm hu hc h
      unfold enter at h
      split at h
      · cases h; exact hc
      · exact ih _ _ _ _ hm hu hc h
    cases hn : W.node n with
    | none => simp [followGo, hn] at h
    | some it =>
      simp only [followGo, hn] at h
      have dir : ∀ {k : Nat}, Good W k → (∀ α, Der W k α → Der W n α) → followGo W F f V k (preCopy W k n c) = some c' → FSound W eof c'.sets := by
        intro k hk hd h
        exact ih _ _ _ _ hk (hu.mono hd) (pre_sound hc fun e he => he.mono hd) h
      have via : ∀ {k : Nat}, Good W k → (∀ α, Der W k α → Der W n α) → enter (followGo W F f) V k (preCopy W k n c) = some c' → FSound W eof c'.sets := by
        intro k hk hd h
        exact ent hk (hu.mono hd) (pre_sound hc fun e he => he.mono hd) h
      have two : ∀ {l r : Nat}, Good W l → Good W r → (∀ α, Der W l α → Der W n α) → (∀ α, Der W r α → Der W n α) →
          (enter (followGo W F f) V l (preCopy W r n (preCopy W l n c))).bind (enter (followGo W F f) V r) = some c' → FSound W eof c'.sets := by
        intro l r gl gr dl dr h
        obtain ⟨c1, h1, h2⟩ := Option.bind_eq_some_iff.1 h
        exact ent gr (hu.mono dr) (ent gl (hu.mono dl) (pre_sound (pre_sound hc fun e he => he.mono dl) fun e he => he.mono dr) h1) h2
      have good : ∀ {m}, (∀ l r, it ≠ .cons l r) → (∀ l r, it ≠ .alt l r) → Part W n m → (∀ o, W.node n ≠ some (.op o)) → Good W m := by
        intro m h1 h2 hp hno
        exact good_part hw (good_parsed hw hg hn h1 h2).1 hp hno
      cases it with
      | zero => cases h; exact hc
      | sym => cases h; exact hc
      | term => cases h; exact hc
      | nonterm s => cases h; exact ofSymbol_sound (hw.symbols _ _ (.inl hn)) hc fun α => .nonterm hn
      | inlined s => cases s with
        | none => cases h; exact hc
        | some s => cases h; exact ofSymbol_sound (hw.symbols _ _ (.inr (.inl hn))) hc fun α => .inlined hn
      | plus i =>
        obtain ⟨k, a, e1, e2, e3⟩ := hw.bnf.plus n i hn
        simp only [e1] at h
        have hp := (good_parsed hw hg hn (by simp) (by simp)).1
        have hlt := part_lt hw hp (.plus hn) (by simp [hn])
        exact dir (.loopC (by omega) (fun j s => hw.parts n i j s (.plus hn)) (hw.valid _ _ (.plus hn)) e2 e3)
          (fun α hd => (plus_iff hn).2 ((loop_iff hw.zero e2 e3).1.1 hd)) h
      | star i =>
        obtain ⟨k, a, e1, e2, e3⟩ := hw.bnf.star n i hn
        simp only [e1] at h
        have hp := (good_parsed hw hg hn (by simp) (by simp)).1
        have hlt := part_lt hw hp (.star hn) (by simp [hn])
        exact dir (.loopA (by omega) (fun j s => hw.parts n i j s (.star hn)) (hw.valid _ _ (.star hn)) e2 e3)
          (fun α hd => (star_iff hn).2 ((loop_iff hw.zero e2 e3).2.1 hd)) h
      | op o =>
        obtain ⟨k, e1, e2, e3⟩ := hw.bnf.op n o hn
        simp only [e1] at h
        exact dir (good_top hw hn e2 e3) (fun α hd => op_fw hn e2 (hw.toks hn) hd) h
      | annot i => exact via (good (by simp) (by simp) (.annot hn) (by simp [hn])) (fun α => .annot hn) h
      | cond i => exact via (good (by simp) (by simp) (.cond hn) (by simp [hn])) (fun α => .cond hn) h
      | action i => cases i with
        | none => cases h; exact hc
        | some i => exact dir (good (by simp) (by simp) (.action hn) (by simp [hn])) (fun α => .action hn) h
      | tryc l r => cases r with
        | none => exact dir (good (by simp) (by simp) (.tryL hn) (by simp [hn])) (fun α => .tryL hn) h
        | some r =>
          exact two (good (by simp) (by simp) (.tryL hn) (by simp [hn])) (good (by simp) (by simp) (.tryR hn) (by simp [hn]))
            (fun α => .tryL hn) (fun α => .tryR hn) h
      | alt l r =>
        have ga := good_alt hw hg hn
        exact two ga.1 ga.2 (fun α => .altL hn) (fun α => .altR hn) h
      | evolve i s =>
        have hp := good_parsed hw hg hn (by simp) (by simp)
        have gi := good (by simp) (by simp) (.evolve hn) (by simp [hn])
        have d1 : ∀ α, Der W i α → Der W n α := fun α => .evolve hn
        have d2 : ∀ α, Der W n α → Der W s α := fun α hd => .expand (hw.symbols n s (.inr (.inr ⟨i, hn⟩))) (hp.2 i s hn) hn (der_evolve hn hd)
        exact ent gi (hu.mono d1) (pre_sound (pre_sound hc fun e he => he.mono d2) fun e he => he.mono d1) h
      | cons l r =>
        obtain ⟨⟨gl, α, hα⟩, gr, β, hβ⟩ := good_cons hw hg hn
        obtain ⟨er, h2, h⟩ := Option.bind_eq_some_iff.1 h
        obtain ⟨c1, h3, h⟩ := Option.bind_eq_some_iff.1 h
        have ul : Used W l := hu.ctx (α := []) (β := β) fun ω hω => Der.cons hn hω hβ
        have ur : Used W r := hu.ctx (α := α) (β := []) fun ω hω => by simpa using Der.cons hn hα hω
        have s1 : FSound W eof (mergeFollow W l (F.of r) (preCopy W r n c)).sets := by
          refine follow_merge_sound (pre_sound hc fun e he => he.ctx fun ω hω => Der.cons hn hα hω) fun e he ht => .inl ?_
          rcases hF _ _ (mem_of.1 he) with ⟨e1, _⟩ | ⟨_, γ, hγ⟩
          · rw [ht] at e1; cases e1
          · obtain ⟨s₀, α', β', k1, k2⟩ := hu
            exact ⟨s₀, α', γ ++ β', k1, fun ω hω => by simpa using k2 _ (Der.cons hn hω hγ)⟩
        refine ent gr ur (ent gl ul ?_ h3) h
        split
        · next he =>
          subst he
          have nr := (reduces_cons hw hl ho hF hg hn).2 h2
          exact pre_sound s1 fun e he => he.mono fun ω hω => by simpa using Der.cons hn hω nr
        · exact s1

theorem followPass_sound (hw : Wf W) (hl : LeadOk W) (ho : OpsOk W) (hF : Sound W F) {eof : Nat} (f : Nat) : ∀ (rs : List Nat), (∀ r ∈ rs, r ∈ W.rules) →
    ∀ (c c' : Comp), FSound W eof c.sets → followPass W F f rs c = some c' → FSound W eof c'.sets := by
  intro rs
  induction rs with
  | nil => intro _ c c' hc h; cases h; exact hc
  | cons r rs ih =>
    intro hrs c c' hc h
    obtain ⟨c1, h1, h2⟩ := Option.bind_eq_some_iff.1 h
    have hr := hrs r (by simp)
    obtain ⟨hp, i, s, hn⟩ := hw.rules r hr
    have hu : Used W r := ⟨s, [], [], hw.symbols r s (.inr (.inr ⟨i, hn⟩)), fun ω hω => by
      simpa using Der.expand (hw.symbols r s (.inr (.inr ⟨i, hn⟩))) hr hn (der_evolve hn hω)⟩
    refine ih (fun r hr => hrs r (by simp [hr])) c1 c' ?_ h2
    unfold enter at h1
    split at h1
    · cases h1; exact hc
    · exact followGo_sound hw hl ho hF f _ r c c1 (.parsed hp fun _ _ _ => hr) hu hc h1

theorem followLoop_sound (hw : Wf W) (hl : LeadOk W) (ho : OpsOk W) (hF : Sound W F) {eof : Nat} (f : Nat) : ∀ (k : Nat) (c : Comp) (S : Sets),
    FSound W eof c.sets → followLoop W F f k c = some S → FSound W eof S := by
  intro k
  induction k with
  | zero => intro c S _ h; simp [followLoop] at h
  | succ k ih =>
    intro c S hc h
    rw [followLoop] at h
    cases e : followPass W F f W.rules c with
    | none => rw [e] at h; cases h
    | some d =>
      rw [e] at h
      simp only at h
      have hs := followPass_sound hw hl ho hF f W.rules (fun _ => id) c d hc e
      split at h
      · exact ih ⟨d.sets, false⟩ _ hs h
      · cases h; exact hs

theorem initFollow_sound (hw : Wf W) (eof : Nat) : FSound W eof (initFollow W eof).sets := by
  have key : ∀ (rs : List Nat), (∀ r ∈ rs, r ∈ W.rules) → ∀ c : Comp, FSound W eof c.sets → FSound W eof (rs.foldl (fun c r => match W.node r with
    | some (.evolve i s) => if s ∈ W.start then ((c.insert r eof).insert s eof).insert i eof else c
    | _ => c) c).sets := by
    intro rs
    induction rs with
    | nil => exact fun _ c h => h
    | cons r rs ih =>
      intro hrs c hc
      refine ih (fun r hr => hrs r (by simp [hr])) _ ?_
      simp only
      split
      · next i s hn =>
        split
        · next hs =>
          have hsym := hw.symbols r s (.inr (.inr ⟨i, hn⟩))
          have hr := hrs r (by simp)
          intro n e h
          simp only [mem_insert, Prod.mk.injEq] at h
          have fit : ∀ m, (∀ ω, Der W m ω → Der W s ω) → Fits W eof m eof := fun m hm => .inr ⟨rfl, s, [], hs, fun ω hω => by simpa using hm ω hω⟩
          rcases h with ((h | ⟨rfl, rfl⟩) | ⟨rfl, rfl⟩) | ⟨rfl, rfl⟩
          · exact hc _ _ h
          · exact fit _ fun ω hω => .expand hsym hr hn (der_evolve hn hω)
          · exact fit _ fun ω hω => hω
          · exact fit _ fun ω hω => .expand hsym hr hn hω
        · exact hc
      · exact hc
  exact key _ (fun _ => id) _ (by intro n e h; cases h)

theorem computeFollow_sound (hw : Wf W) (hl : LeadOk W) (ho : OpsOk W) (hF : Sound W F) {eof f k : Nat} (h : computeFollow W F eof f k = some S) : FSound W eof S :=
  followLoop_sound hw hl ho hF f k ⟨(initFollow W eof).sets, true⟩ _ (initFollow_sound hw eof) h

end Verif.Grammar
