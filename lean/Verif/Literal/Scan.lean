import Verif.Literal.Lemmas
import Verif.Top.Close

/-! # Strings and names of tokens in a grammar file have no line ends -/

namespace Verif.Literal

open Verif.GLex (St Env Step Quoted Kept isCap isNl rulesOf step)

/-- What is known of the texts of tokens. -/
def Fine (t : GLex.Tok) (x : List Nat) : Prop := (t = .named "T_STRING" → Quoted x) ∧ (t = .named "T_TERMINAL" → ∀ c ∈ x, isCap c = true)

def quiet : GLex.Act → Bool
  | .ret t | .enter _ t | .place _ t | .opening t | .closing t => t != .named "T_STRING" && t != .named "T_TERMINAL"
  | .text n => n != "T_STRING"
  | .inner n => n != "T_TERMINAL"
  | _ => true

theorem quiet_rules : ∀ C : GLex.Cond, ∀ r ∈ rulesOf C, quiet r.act = true := by
  intro C; cases C <;> decide +kernel

theorem string_rules : ∀ C : GLex.Cond, ∀ r ∈ rulesOf C, r.act = .inner "T_STRING" → r.body = GLex.string ∧ r.trail = none ∧ C.keeps = false := by
  intro C
  cases C <;> simp [rulesOf, GLex.initialRules, GLex.codeRules, GLex.parserClassRules, GLex.argsRules, GLex.headerRules, GLex.varnameRules, GLex.lexerRules, GLex.ch, GLex.key, GLex.echoRule, GLex.Cond.keeps]

theorem terminal_rules : ∀ C : GLex.Cond, ∀ r ∈ rulesOf C, r.act = .text "T_TERMINAL" → r.body = GLex.plus (.cls isCap) ∧ C.keeps = false := by
  intro C
  cases C <;> simp [rulesOf, GLex.initialRules, GLex.codeRules, GLex.parserClassRules, GLex.argsRules, GLex.headerRules, GLex.varnameRules, GLex.lexerRules, GLex.ch, GLex.key, GLex.echoRule, GLex.Cond.keeps]

theorem cands_body {r : GLex.Rule} {s : List Nat} {t k : Nat} (h : (t, k) ∈ r.cands s) : GLex.Mat r.body (s.take k) := by
  cases ht : r.trail with
  | none => obtain ⟨rfl, -, m⟩ := (GLex.mem_cands_none ht).1 h; exact m
  | some x => obtain ⟨_, _, _, m, -⟩ := (GLex.mem_cands_some ht).1 h; exact m

theorem step_fine {E : Env} {st st' : St} {s s' x : List Nat} {t : GLex.Tok} (hk : Kept st) (h : step E st s = .ret t x st' s') : Fine t x := by
  have hs : s ≠ [] := GLex.next_ne (.inr ⟨t, x, h⟩)
  obtain ⟨m, i, k, r, h1, h2, h3, h4⟩ := GLex.step_shape E st hs
  have hj : r.act ≠ .reject := fun e => by rw [(h4 e).2] at h; cases h
  rw [h3 hj] at h
  obtain ⟨⟨r', hr', hm, h0⟩, _⟩ := GLex.select_some h1
  rw [h2] at hr'
  cases hr'
  have hq := quiet_rules st.cond r (List.mem_of_getElem? h2)
  have hb := cands_body hm
  have simple : ∀ t' : GLex.Tok, (t' != .named "T_STRING" && t' != .named "T_TERMINAL") = true → t = t' → Fine t x := fun t' ht e => by
    subst e
    simp only [Bool.and_eq_true, bne_iff_ne] at ht
    exact ⟨fun e => absurd e ht.1, fun e => absurd e ht.2⟩
  cases ha : r.act with
  | ret t' => rw [ha] at h hq; cases h; exact simple _ hq rfl
  | enter C t' => rw [ha] at h hq; cases h; exact simple _ hq rfl
  | place C t' => rw [ha] at h hq; cases h; exact simple _ hq rfl
  | opening t' => rw [ha] at h hq; cases h; exact simple _ hq rfl
  | closing t' => rw [ha] at h hq; cases h; exact simple _ hq rfl
  | arrow => rw [ha] at h; cases h; exact simple _ rfl rfl
  | separator => rw [ha] at h; cases h; exact simple _ rfl rfl
  | codeEnd => rw [ha] at h; cases h; exact simple _ rfl rfl
  | bracket =>
    rw [ha] at h
    simp only [GLex.run] at h
    split at h <;> cases h
    exact simple _ rfl rfl
  | argsEnd =>
    rw [ha] at h
    simp only [GLex.run] at h
    split at h <;> cases h
    exact simple _ rfl rfl
  | typeEnd =>
    rw [ha] at h
    simp only [GLex.run] at h
    split at h <;> cases h
    exact simple _ rfl rfl
  | text n =>
    rw [ha] at h hq
    cases h
    refine ⟨fun e => absurd (GLex.Tok.named.inj e) (by simpa [quiet] using hq), fun e => ?_⟩
    cases e
    obtain ⟨b1, b2⟩ := terminal_rules _ r (List.mem_of_getElem? h2) ha
    rw [b1] at hb
    have hn : st.kept = [] := GLex.kept_nil hk b2
    rw [hn]
    exact (GLex.mat_plus_cls.1 hb).2
  | inner n =>
    rw [ha] at h hq
    cases h
    refine ⟨fun e => ?_, fun e => absurd (GLex.Tok.named.inj e) (by simpa [quiet] using hq)⟩
    cases e
    obtain ⟨b1, -, b2⟩ := string_rules _ r (List.mem_of_getElem? h2) ha
    rw [b1] at hb
    obtain ⟨y, e, hy⟩ := GLex.mat_string.1 hb
    have hn : st.kept = [] := GLex.kept_nil hk b2
    rw [hn, e]
    simpa using hy
  | skip => rw [ha] at h; cases h
  | newline => rw [ha] at h; cases h
  | reject => exact absurd ha hj
  | codeStart => rw [ha] at h; cases h
  | more => rw [ha] at h; cases h
  | moreNewline => rw [ha] at h; cases h
  | moreOpen => rw [ha] at h; cases h
  | unexpected => rw [ha] at h; cases h
  | echo => rw [ha] at h; cases h

theorem lex_fine {E : Env} : ∀ {f : Nat} {st st' : St} {s s' x : List Nat} {t : GLex.Tok}, Kept st → GLex.lex E f st s = some (.ret t x st' s') → Fine t x ∧ Kept st'
  | 0, _, _, _, _, _, _, _, h => by cases h
  | f + 1, st, st', s, s', x, t, hk, h => by
    rw [GLex.lex] at h
    split at h
    · rename_i st1 s1 e
      exact lex_fine (GLex.kept_moves (GLex.next_moves (.inl e))) h
    · have e := Option.some.inj h
      exact ⟨step_fine hk e, GLex.kept_moves (GLex.next_moves (.inr ⟨_, _, e⟩))⟩

theorem scan_fine {E : Env} : ∀ {f : Nat} {st : St} {s : List Nat} {ts : List Top.T} {r : Step}, Kept st → GLex.scan E f st s = some (ts, r) → ∀ p ∈ ts, Fine p.1 p.2
  | 0, _, _, _, _, _, h => by cases h
  | f + 1, st, s, ts, r, hk, h => by
    rw [GLex.scan] at h
    split at h
    · cases h
    · rename_i t x st1 s1 e
      obtain ⟨h1, h2⟩ := lex_fine hk e
      obtain ⟨⟨ts', r'⟩, e1, e2⟩ := Option.map_eq_some_iff.1 h
      cases e2
      intro p hp
      rcases List.mem_cons.1 hp with rfl | hp
      · exact h1
      · exact scan_fine h2 e1 p hp
    · cases h
      simp

theorem start_kept : Kept {} := ⟨fun h => absurd rfl h, rfl⟩

end Verif.Literal
