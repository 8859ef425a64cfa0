import Verif.GenText.Main

/-! # Functions -/

namespace Verif.GenText

open Verif.Grammar
open Verif.Gen (Env Ctx Stmt State Out Test exec parseFun genRules rulesOf parse)
open Spec

section
variable {E : Env} {F : Nat → Option Tree} {X : Nat → CState → Bool → CState → Prop} {o : Opts} {P : Nat → Option Stmt} {K : Ctx} {N self : Nat}

theorem rules_good (hF : Fits o K) (hcall : ∀ f, f < N → CallOk E F X o P K.eofTok f) (fuel : Nat) : ∀ {rs k d ts}, textRules o K fuel rs k d = some ts →
    ∃ s k' t, genRules K self fuel rs k = some (s, k') ∧ One ts t ∧ Sim E F X o P K.eofTok N 0 s [t]
  | [], k, d, ts, h => by
    rw [textRules] at h
    cases h
    exact ⟨.fail 0, k, _, by rw [genRules], leave_one 0, Sim.fail (leave_run 0)⟩
  | r :: rs, k, d, ts, h => by
    rw [textRules] at h
    split at h
    · next i s e =>
      obtain ⟨⟨ta, ka, da⟩, h1, h2⟩ := Option.bind_eq_some_iff.1 h
      obtain ⟨tb, h3, rfl⟩ := Option.map_eq_some_iff.1 h2
      obtain ⟨a, ec, tc, tbd, b, l, h4, rfl, h5, h6, G⟩ := (text_good (self := self) (P := P) hF hcall fuel).2.2 (Nat.zero_le _) h1
      obtain ⟨s', k', t, h7, h8, h9⟩ := rules_good hF hcall fuel h3
      refine ⟨.ite a b s', k', .ite ec (body l) t, by rw [genRules, e]; simp only [h4, Option.bind_some, h7, Option.map_some], ?_, Sim.ite h6 G.sim h9⟩
      have := One.ifElse (c := tc) (fun r => h5 (.rp :: r) closed_rp) G.series h8
      simpa only [List.append_assoc, List.cons_append, List.nil_append] using this
    · cases h

theorem silents_series {f : Nat → Toks} (hf : ∀ n, Silent (f n)) : ∀ l : List Nat, Series (l.flatMap fun n => f n ++ [.semi]) ((l.map f).map .simple)
  | [] => .nil
  | n :: l => (Series.silent (hf n)).append (silents_series hf l)

theorem fun_good (hF : Fits o K) (hcall : ∀ f, f < N → CallOk E F X o P K.eofTok f) {fuel s : Nat} {ts : Toks} (h : funText o K fuel s = some ts) :
    ∃ b t, parseFun K fuel s = some b ∧ Reads .stmt ts t [] ∧ ∀ f ≤ N, ∀ st σ out st', Rel o st σ → exec P K.eofTok E f b st = some (out, st') →
      ∃ σ', Run E F X (.stmt none t) σ (.ret (out = .ok)) σ' ∧ Rel o st' σ' := by
  unfold funText at h
  split at h
  · cases h
  obtain ⟨tb, h1, rfl⟩ := Option.map_eq_some_iff.1 h
  obtain ⟨b, k', t, h2, h3, h4⟩ := rules_good (self := s) (P := P) hF hcall fuel h1
  obtain ⟨el, hel, hsl⟩ := local_series (o.locals s)
  -- what comes before
  have hpre : ∃ es : List Toks, (∀ e ∈ es, Silent e) ∧ Series (if o.ast then [.w .«*», .w .«yynode», .w .«=», .w .«create», .w .«<», .sym .«Ast» s, .w .«>», .lp, .rp, .semi] ++ yynode ++ .w .«startToken» :: .w .«=» :: here ++ [.semi] ++
        (o.inits s).flatMap (fun n => yynode ++ [.mem n, .w .«=», .w .«-1», .semi]) else []) (es.map .simple) := by
    split
    · refine ⟨[.w .«*», .w .«yynode», .w .«=», .w .«create», .w .«<», .sym .«Ast» s, .w .«>», .lp, .rp] :: (yynode ++ .w .«startToken» :: .w .«=» :: here) ::
        (o.inits s).map fun n => yynode ++ [.mem n, .w .«=», .w .«-1»], ?_, ?_⟩
      · intro e he
        simp only [List.mem_cons, List.mem_map] at he
        rcases he with rfl | rfl | ⟨n, -, rfl⟩
        · exact .create
        · exact .start
        · exact .init
      · have := (Series.silent (.create (s := s))).append ((Series.silent .start).append (silents_series (fun n => Silent.init (n := n)) (o.inits s)))
        simpa only [List.append_assoc, List.cons_append, List.nil_append, List.map_cons, List.map_map] using this
    · exact ⟨[], nofun, .nil⟩
  obtain ⟨ep, hep, hsp⟩ := hpre
  have hpost : ∃ es : List Toks, (∀ e ∈ es, Silent e) ∧ Series (if o.ast then yynode ++ [.w .«endToken», .w .«=», .w .«tokenStream», .w .«->», .w .«index», .lp, .rp, .w .«-», .w .«2», .semi] else []) (es.map .simple) := by
    split
    · refine ⟨[_], fun e he => ?_, by simpa only [List.append_assoc, List.cons_append, List.nil_append, List.map_cons, List.map_nil] using Series.silent .done⟩
      rw [List.mem_singleton] at he
      exact he ▸ .done
    · exact ⟨[], nofun, .nil⟩
  obtain ⟨eq, heq, hsq⟩ := hpost
  refine ⟨b, body ((ep.map .simple ++ (el.map .simple ++ [t])) ++ (eq.map .simple ++ [.ret true])), by rw [parseFun, h2]; rfl, ?_, ?_⟩
  · have := ((hsp.append (hsl.append h3.series)).append (hsq.append One.retTrue.series)).block []
    simpa only [List.append_assoc, List.cons_append, List.nil_append] using this
  · intro f hf st σ out st' R hx
    have hs := (h4.silent hel).silent hep
    obtain ⟨hg, σ', r, R'⟩ := hs f hf st σ out st' R hx
    refine ⟨σ', ?_, R'⟩
    cases out with
    | ok =>
      refine run_append r ?_
      have : ∀ es : List Toks, (∀ e ∈ es, Silent e) → Run E F X (.stmt none (body (es.map .simple ++ [.ret true]))) σ' (.ret true) σ' := by
        intro es
        induction es with
        | nil => exact fun _ => run_one .ret
        | cons e es ih => exact fun h => .seqGo rfl (.simple (.silent (h e (.head _)))) (ih fun x hx => h x (.tail _ hx))
      simpa using this eq heq
    | failed => exact run_stop r (by simp [outOf]) fun i hi => by cases hi
    | goto i => exact absurd rfl (hg i rfl).2

/-- The functions are those that are read from the texts. -/
def Read (o : Opts) (K : Ctx) (fuel : Nat) (F : Nat → Option Tree) : Prop := ∀ s, match funText o K fuel s with
  | none => F s = none
  | some ts => ∃ t, F s = some t ∧ Reads .stmt ts t []

/-- A state of `Gen` and a state of the parser, without the local variables. -/
structure Alike (o : Opts) (st : State) (σ : CState) : Prop where
  pos : σ.pos = st.pos
  asked : σ.asked = st.asked
  blocked : σ.blocked = st.blocked
  errors : σ.errors = st.errors
  user : σ.user = st.user
  /-- without try blocks in the grammar errors are not blocked -/
  mgmt : o.mgmt = false → st.blocked = false

theorem Rel.alike {st σ} (R : Rel o st σ) : Alike o st σ := { R with }

theorem Alike.back {st σ st' σ'} (R : Rel o st σ) (A : Alike o st' σ') : Rel o (st'.back st) (σ'.back σ) := { A with saved := R.saved, block := R.block }

/-- Functions without text do what `exec` does. -/
def Externals (E : Env) (F : Nat → Option Tree) (X : Nat → CState → Bool → CState → Prop) (o : Opts) (P : Nat → Option Stmt) (eofTok : Nat) : Prop :=
  ∀ f s b st σ out st', F s = none → P s = some b → Alike o st σ → exec P eofTok E f b st.enter = some (out, st') → ∃ σ', X s σ.enter (out = .ok) σ' ∧ Alike o st' σ'

theorem calls_ok (hF : Fits o K) {fuel : Nat} (hR : Read o K fuel F) (hX : Externals E F X o (parseFun K fuel) K.eofTok) (f : Nat) : CallOk E F X o (parseFun K fuel) K.eofTok f := by
  induction f using Nat.strongRecOn with
  | _ f ih =>
    intro s b st σ out st' hb R hx
    have hs := hR s
    cases e : funText o K fuel s with
    | none =>
      rw [e] at hs
      obtain ⟨σ', h1, R'⟩ := hX f s b st σ out st' hs hb R.alike hx
      exact ⟨_, .extern hs h1, Alike.back R R'⟩
    | some ts =>
      rw [e] at hs
      obtain ⟨t, ht, hr⟩ := hs
      obtain ⟨b', t', h1, h2, h3⟩ := fun_good (E := E) (F := F) (X := X) (P := parseFun K fuel) (N := f) hF ih e
      obtain ⟨rfl, -⟩ := Reads.unique hr h2
      rw [h1] at hb
      cases hb
      obtain ⟨σ', h4, R'⟩ := h3 f (Nat.le_refl _) _ _ _ _ R.enter hx
      exact ⟨_, .call ht h4, R.back R'⟩

end

end Verif.GenText
