import Verif.Gen.Look
import Verif.Gen.ReturnProps

/-!
# C117: if one token of lookahead decides, there is no left recursion and no loop over something that may be empty
-/

namespace Verif.Gen

open Verif.Grammar

/-- C117 (partial): a grammar of which one token of lookahead decides everything, and whose symbols have sentences, has no left recursion and no loop over something that may be empty; so the generated
parser returns on every input, the rules not having `EOF` as a token.  Missing: inlined symbols, ternary operators and `try`. -/
theorem C117_look_partial {K : Ctx} (hw : Wf K.W) (hp : Plain K.W) (ho : OpsOk K.W) (hb : BareOk K.W) (hl : OpsLoop K.W) (hL : LeadOk K.W) (nt : ∀ n l r, K.W.node n ≠ some (.tryc l r)) (hll : LL1 K)
    {f1 k1 f2 k2 : Nat} (hF : computeFirst K.W f1 k1 = some K.F) (hS : computeFollow K.W K.F K.eofTok f2 k2 = some K.S) (hd : Declared K.W)
    (hprod : ∀ r ∈ K.W.rules, ∀ i s, K.W.node r = some (.evolve i s) → ∃ ω, Der K.W s ω ∧ ∀ t ∈ ω, K.W.node t = some .term) :
    (∀ s, ¬ Relation.TransGen (Left K.W) s s) ∧ ∀ n i, Occurs K.W n → K.W.node n = some (.star i) ∨ K.W.node n = some (.plus i) → ¬ Idle K.W i := by
  obtain ⟨f0, hf0⟩ := parseFun_total (K := K) hw hl (fun _ _ => searchRule_node hw) fun r hr => acc_plain hw hp.noInline r (hw.rules r hr).1
  have R : Ready K (onInput K.eofTok []) f0 := ⟨hw, hp, ho, hb, fun n l r => nt n l (some r), hll, (computeFirst_quiet hF).1, (computeFirst_quiet hF).2, (followLoop_quiet _ _ _ hS).1,
    fun s _ => hf0 f0 (Nat.le_refl _) s, fun _ => rfl⟩
  have sound : ∀ m t, First K m t → K.W.node t = some .term ∧ ∃ γ, Der K.W m (t :: γ) := fun m t h => by
    unfold First at h
    split at h
    · rename_i hm; subst h; exact ⟨hm, [], .term hm⟩
    · refine ⟨h.1, ?_⟩
      rcases C36_sound_partial hw ho hL hF h.2 with ⟨e, _⟩ | ⟨_, h2⟩
      · have := hw.zero
        rw [← e, h.1] at this
        cases this
      · exact h2
  exact ⟨left_none R sound hd nt hprod, fun n i h1 h2 => loop_idle R sound hd nt h1 h2⟩

/-- C117 (partial): if one token of lookahead decides, every symbol has a sentence and the rules do not have `EOF` as a token, the function of a start symbol returns on every series of tokens, and returns true exactly
for the sentences.  Missing: as in `C117_look_partial`. -/
theorem C117_look_decides_partial {K : Ctx} (hw : Wf K.W) (hp : Plain K.W) (ho : OpsOk K.W) (hb : BareOk K.W) (hl : OpsLoop K.W) (hL : LeadOk K.W) (nt : ∀ n l r, K.W.node n ≠ some (.tryc l r)) (hll : LL1 K)
    {f1 k1 f2 k2 : Nat} (hF : computeFirst K.W f1 k1 = some K.F) (hS : computeFollow K.W K.F K.eofTok f2 k2 = some K.S) (hd : Declared K.W)
    (hprod : ∀ r ∈ K.W.rules, ∀ i s, K.W.node r = some (.evolve i s) → ∃ ω, Der K.W s ω ∧ ∀ t ∈ ω, K.W.node t = some .term) (he : ¬ Occurs K.W K.eofTok)
    (heo : ∀ n o, Occurs K.W n → K.W.node n = some (.op o) → K.eofTok ∉ o.pre ++ o.post ++ o.bin ++ o.tern.map (·.1) ++ o.tern.map (·.2) ++ o.paren.map (·.1) ++ o.paren.map (·.2))
    (het : K.W.node K.eofTok = some .term) {s : Nat} (hs : K.W.node s = some .sym) (hs' : s ∈ K.W.start) :
    ∃ fuel0, ∀ fuel, fuel0 ≤ fuel → ∀ ω : List Nat, (∀ t ∈ ω, t ∈ K.W.terminals ∧ t ≠ K.eofTok) →
      ∃ f o st', parse K fuel (onInput K.eofTok ω) f s {} = some (o, st') ∧ (o = .ok ↔ Der K.W s ω) := by
  obtain ⟨g1, g2⟩ := C117_look_partial hw hp ho hb hl hL nt hll hF hS hd hprod
  exact C117_decides_partial hw hp ho hb hl nt hll ⟨g1, fun n i h1 h2 => .inl (g2 n i h1 (.inl h2)), fun n i h1 h2 => .inl (g2 n i h1 (.inr h2)), he, heo⟩ hF hS het hs hs'

/-- The sample grammar, `EOF` being declared as `NextFollow` does (kdev-pg-follow.cpp line 75). -/
def lookWorld : World := { sampleList with terminals := [1, 2, 3, 4, 21, 24] }

def lookCtx : Ctx := ctxOf lookWorld 24

theorem look_wf : Wf lookWorld := wf_of_wfB (by decide +kernel)

theorem look_lead : LeadOk lookWorld ∧ OpsOk lookWorld :=
  of_leadB (nb := sampleNull) (S := fun n => if n = 26 then 25 :: 26 :: starts lookWorld sampleNull 6 n else starts lookWorld sampleNull 6 n) look_wf (by decide +kernel)

/-- Alternatives with an empty one, a list, an expression with a prefix and a binary operator. -/
example : ((∀ s, ¬ Relation.TransGen (Left lookWorld) s s) ∧ ∀ n i, Occurs lookWorld n → lookWorld.node n = some (.star i) ∨ lookWorld.node n = some (.plus i) → ¬ Idle lookWorld i) ∧
    ∃ fuel0, ∀ fuel, fuel0 ≤ fuel → ∀ ω : List Nat, (∀ t ∈ ω, t ∈ lookWorld.terminals ∧ t ≠ 24) → ∃ f o st', parse lookCtx fuel (onInput 24 ω) f 5 {} = some (o, st') ∧ (o = .ok ↔ Der lookWorld 5 ω) := by
  have ll := ll1_of_ll1B (K := lookCtx) (nb := sampleNull) (by decide +kernel)
  have all : ∀ (P : Nat → Item → Bool), (List.range lookWorld.heap.length).all (fun n => match lookWorld.node n with | some it => P n it | none => true) = true → ∀ n it, lookWorld.node n = some it → P n it = true :=
    fun P h n it hn => by
      have := List.all_eq_true.1 h n (List.mem_range.2 (List.getElem?_eq_some_iff.1 hn).1)
      simpa [hn] using this
  have d18 : Der lookWorld 18 [2] := .expand (r := 23) (i := 2) (by decide +kernel) (by decide +kernel) (by decide +kernel) (.term (by decide +kernel))
  have d7 : Der lookWorld 7 [2] := .expand (r := 22) (i := 19) (by decide +kernel) (by decide +kernel) (by decide +kernel)
    (.opBase (o := { base := 20, pre := [4], bin := [21] }) (by decide +kernel) (.nonterm (s := 18) (by decide +kernel) d18))
  have d6 : Der lookWorld 6 [2] := .expand (r := 17) (i := 16) (by decide +kernel) (by decide +kernel) (by decide +kernel)
    (.cons (l := 14) (r := 15) (α := []) (β := [2]) (by decide +kernel) (.altR (l := 1) (r := 0) (by decide +kernel) (.zero (by decide +kernel))) (.nonterm (s := 7) (by decide +kernel) d7))
  have d5 : Der lookWorld 5 [2] := .expand (r := 13) (i := 12) (by decide +kernel) (by decide +kernel) (by decide +kernel)
    (.cons (l := 8) (r := 11) (α := [2]) (β := []) (by decide +kernel) (.nonterm (s := 6) (by decide +kernel) d6) (.star0 (i := 10) (by decide +kernel)))
  have hp : Plain lookWorld := plain_of_plainB (by decide +kernel)
  have hb : BareOk lookWorld := bareOk_of_none look_lead.2 (of_noBare (by decide +kernel))
  have hF : computeFirst lookCtx.W 50 20 = some lookCtx.F := by decide +kernel
  have hS : computeFollow lookCtx.W lookCtx.F lookCtx.eofTok 50 20 = some lookCtx.S := by decide +kernel
  have nt : ∀ n l r, lookWorld.node n ≠ some (.tryc l r) := by
    intro n l r hn
    have := all (fun _ it => match it with | .tryc _ _ => false | _ => true) (by decide +kernel) n _ hn
    simp at this
  have hd : Declared lookWorld := by
    intro t ht
    have := all (fun n it => match it with | .term => lookWorld.terminals.contains n | _ => true) (by decide +kernel) t _ ht
    exact List.contains_iff_mem.1 this
  have hprod : ∀ r ∈ lookWorld.rules, ∀ i s, lookWorld.node r = some (.evolve i s) → ∃ ω, Der lookWorld s ω ∧ ∀ t ∈ ω, lookWorld.node t = some .term := by
    intro r hr i s hi
    have hs := all (fun _ it => match it with | .evolve _ s => [5, 6, 7, 18].contains s | _ => true) (by decide +kernel) r _ hi
    have h2 : ∀ t ∈ [2], lookWorld.node t = some .term := by decide +kernel
    simp only [List.contains_eq_mem, List.mem_cons, List.not_mem_nil, _root_.or_false, decide_eq_true_eq] at hs
    rcases hs with rfl | rfl | rfl | rfl
    · exact ⟨_, d5, h2⟩
    · exact ⟨_, d6, h2⟩
    · exact ⟨_, d7, h2⟩
    · exact ⟨_, d18, h2⟩
  have hr : Returns lookCtx := returns_of (show returnsT lookCtx 12 (fun s => 100 - s) = true by decide +kernel) fun _ h => nomatch h
  have h24 : lookCtx.eofTok = 24 := by decide +kernel
  refine ⟨C117_look_partial (K := lookCtx) look_wf hp look_lead.2 hb ll.2 look_lead.1 nt ll.1 hF hS hd hprod, ?_⟩
  have := C117_look_decides_partial (K := lookCtx) look_wf hp look_lead.2 hb ll.2 look_lead.1 nt ll.1 hF hS hd hprod hr.eof hr.opEof (by decide +kernel) (s := 5) (by decide +kernel) (by decide +kernel)
  rw [h24] at this
  exact this

end Verif.Gen
