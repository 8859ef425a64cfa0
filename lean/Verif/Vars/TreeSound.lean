import Verif.Vars.TreeLemmas

/-!
# The parser builds the trees it should
-/

namespace Verif.Vars

theorem assign_members {st : St} {d : Decl} {v : Tree} : (st.assign d v).members = assigned st.members [(d, v)] := by
  by_cases h : d.temp = true <;> simp [St.assign, assigned, h]

/-- Every successful run of emitted code is an instance of the item, and the members are assigned the values of the annotations in their order. -/
theorem sound (W : World) (hG : ∀ s r, r ∈ W.G.rules s → TryPlain r.item) : ∀ f : Nat,
    (∀ fe i c k code k' st st', emit W.G fe i c k = some (code, k') → TryPlain i → exec W f code st = some (.ok, st') →
      ∃ ev, Built W.G W.toks W.eof (.item i ev) st.pos st'.pos ∧ st'.members = assigned st.members ev) ∧
    (∀ s st t p n, parse W f s st = some (some t, p, n) → Built W.G W.toks W.eof (.node s t) st.pos p) := by
  intro f
  induction f using Nat.strongRecOn with
  | ind f IH =>
  have ih1 := fun f' hf => (IH f' hf).1
  have ih2 := fun f' hf => (IH f' hf).2
  constructor
  · intro fe
    induction fe with
    | zero => intro i c k code k' st st' h; simp [emit] at h
    | succ fe ihe =>
      intro i c k code k' st st' he hp h
      cases f with
      | zero => simp [exec] at h
      | succ f =>
      cases i with
      | zero =>
        simp only [emit, Option.some.injEq, Prod.mk.injEq] at he
        obtain ⟨rfl, _⟩ := he
        simp only [exec, Option.some.injEq, Prod.mk.injEq] at h
        obtain ⟨_, rfl⟩ := h
        exact ⟨[], .zero, rfl⟩
      | atom a =>
        cases a with
        | tok t =>
          simp only [emit, Option.some.injEq, Prod.mk.injEq] at he
          obtain ⟨rfl, _⟩ := he
          cases f with
          | zero => simp [exec] at h
          | succ f =>
          simp only [exec] at h
          by_cases ht : W.toks st.pos = t
          · simp only [ht, if_true, Option.some.injEq, Prod.mk.injEq] at h
            obtain ⟨_, rfl⟩ := h
            exact ⟨[], .tok ht, rfl⟩
          · simp only [ht, if_false] at h
            split at h
            · rename_i h1
              simp only [Option.some.injEq, Prod.mk.injEq] at h1
              exact absurd h1.1 (failed_ne c)
            · simp only [Option.some.injEq, Prod.mk.injEq] at h
              exact absurd h.1 (failed_ne c)
        | sym s =>
          simp only [emit, Option.some.injEq, Prod.mk.injEq] at he
          obtain ⟨rfl, _⟩ := he
          simp only [exec] at h
          split at h
          · rename_i t p n h1
            simp only [Option.some.injEq, Prod.mk.injEq] at h
            obtain ⟨_, rfl⟩ := h
            exact ⟨[], .sym (ih2 f (by omega) _ _ _ _ _ h1), rfl⟩
          · simp only [Option.some.injEq, Prod.mk.injEq] at h
            exact absurd h.1 (failed_ne c)
          · cases h
      | inl s =>
        simp only [emit] at he
        split at he
        · cases he
        · rename_i r rs hr
          simp only [Option.map_eq_some_iff, Prod.mk.injEq] at he
          obtain ⟨⟨p1, p2⟩, hp1, rfl, rfl⟩ := he
          simp only [exec] at h
          split at h
          · obtain ⟨f', hf, h1, h2⟩ := exec_end W h
            obtain ⟨ev, h3, h4⟩ := ih1 f' (by omega) _ _ _ _ _ _ _ _ hp1 (hG s r (by rw [hr]; exact List.mem_cons_self)) h1
            exact ⟨ev, .inl hr h3 h2, h4⟩
          · cases f with
            | zero => simp [exec] at h
            | succ f =>
            simp only [exec, Option.some.injEq, Prod.mk.injEq] at h
            obtain ⟨_, rfl⟩ := h
            exact ⟨[], .inlSkip, rfl⟩
      | ann d a =>
        cases a with
        | tok t =>
          simp only [emit, Option.some.injEq, Prod.mk.injEq] at he
          obtain ⟨rfl, _⟩ := he
          cases f with
          | zero => simp [exec] at h
          | succ f =>
          by_cases ht : W.toks st.pos = t
          · have hst : st' = { st.assign d (.tok st.pos) with pos := st.pos + 1 } := by
              simp only [exec, ht, if_true] at h
              cases f with
              | zero => simp [exec] at h
              | succ f =>
              cases hs : d.seq <;>
                simp only [hs, if_true, if_false, Bool.false_eq_true, exec, Option.some.injEq, Prod.mk.injEq, true_and, assign_pos] at h <;> exact h.symm
            subst hst
            exact ⟨[(d, .tok st.pos)], .annTok ht, assign_members⟩
          · simp only [exec, ht, if_false] at h
            split at h
            · rename_i h1
              simp only [Option.some.injEq, Prod.mk.injEq] at h1
              exact absurd h1.1 (failed_ne c)
            · simp only [Option.some.injEq, Prod.mk.injEq] at h
              exact absurd h.1 (failed_ne c)
        | sym s =>
          simp only [emit, Option.some.injEq, Prod.mk.injEq] at he
          obtain ⟨rfl, _⟩ := he
          have hex : exec W (f + 1) (if d.seq = true then .callSnoc s c d else .callSet s c d) st = match parse W f s st with
              | some (some t, p, n) => some (.ok, { st with pos := p, asked := n }.assign d t)
              | some (none, p, n) => some (failed c, { st with pos := p, asked := n })
              | none => none := by
            by_cases hs : d.seq = true
            · rw [if_pos hs, exec]; rfl
            · rw [if_neg hs, exec]; rfl
          rw [hex] at h
          split at h
          · rename_i t p n h1
            simp only [Option.some.injEq, Prod.mk.injEq] at h
            obtain ⟨_, rfl⟩ := h
            refine ⟨[(d, t)], ?_, assign_members⟩
            rw [assign_pos]
            exact .annSym (ih2 f (by omega) _ _ _ _ _ h1)
          · simp only [Option.some.injEq, Prod.mk.injEq] at h
            exact absurd h.1 (failed_ne c)
          · cases h
      | cons l r =>
        simp only [emit, Option.bind_eq_some_iff, Option.map_eq_some_iff, Prod.mk.injEq] at he
        obtain ⟨⟨p1, p2⟩, hp1, ⟨q1, q2⟩, hq1, rfl, rfl⟩ := he
        simp only [exec] at h
        split at h
        · rename_i st1 h1
          obtain ⟨ev, h3, h4⟩ := ih1 f (by omega) _ _ _ _ _ _ _ _ hp1 hp.1 h1
          obtain ⟨ev', h5, h6⟩ := ih1 f (by omega) _ _ _ _ _ _ _ _ hq1 hp.2 h
          exact ⟨ev ++ ev', .cons h3 h5, by rw [h6, h4, assigned_append]⟩
        · rename_i hr
          exact absurd h (hr _)
      | alt l r =>
        simp only [emit, Option.bind_eq_some_iff, Option.map_eq_some_iff, Prod.mk.injEq] at he
        obtain ⟨⟨p1, p2⟩, hp1, ⟨q1, q2⟩, hq1, rfl, rfl⟩ := he
        obtain ⟨a, ha, f', n, hf, h1⟩ := exec_chain W _ _ _ h
        rcases List.mem_append.1 ha with ha | ha
        · obtain ⟨x, fe', k1, k2, h2, h3, h4⟩ := emitAlts_mem W.G _ hp1 ha
          obtain ⟨ev, h5, h6⟩ := ih1 f' hf _ _ _ _ _ _ _ _ h4 (altOf_tryPlain h2 hp.1) h1
          exact ⟨ev, .altL (altOf_built h2 h5), h6⟩
        · obtain ⟨x, fe', k1, k2, h2, h3, h4⟩ := emitAlts_mem W.G _ hq1 ha
          obtain ⟨ev, h5, h6⟩ := ih1 f' hf _ _ _ _ _ _ _ _ h4 (altOf_tryPlain h2 hp.2) h1
          exact ⟨ev, .altR (altOf_built h2 h5), h6⟩
      | star x =>
        have he0 := he
        simp only [emit, Option.map_eq_some_iff, Prod.mk.injEq] at he
        obtain ⟨⟨p1, p2⟩, hp1, rfl, rfl⟩ := he
        simp only [exec] at h
        split at h
        · split at h
          · rename_i st1 h1
            obtain ⟨ev, h3, h4⟩ := ih1 f (by omega) _ _ _ _ _ _ _ _ hp1 hp h1
            obtain ⟨ev', h5, h6⟩ := ih1 f (by omega) _ _ _ _ _ _ _ _ he0 hp h
            exact ⟨ev ++ ev', .starCons h3 h5, by rw [h6, h4, assigned_append]⟩
          · rename_i hr
            exact absurd h (hr _)
        · simp only [Option.some.injEq, Prod.mk.injEq] at h
          obtain ⟨_, rfl⟩ := h
          exact ⟨[], .starNil, rfl⟩
      | plus x =>
        have he0 := he
        simp only [emit, Option.map_eq_some_iff, Prod.mk.injEq] at he
        obtain ⟨⟨p1, p2⟩, hp1, rfl, rfl⟩ := he
        simp only [exec] at h
        split at h
        · rename_i st1 h1
          obtain ⟨ev, h3, h4⟩ := ih1 f (by omega) _ _ _ _ _ _ _ _ hp1 hp h1
          split at h
          · obtain ⟨ev', h5, h6⟩ := ih1 f (by omega) _ _ _ _ _ _ _ _ he0 hp h
            exact ⟨ev ++ ev', .plusCons h3 h5, by rw [h6]; dsimp only; rw [h4, assigned_append]⟩
          · simp only [Option.some.injEq, Prod.mk.injEq] at h
            obtain ⟨_, rfl⟩ := h
            exact ⟨ev, .plusOne h3, h4⟩
        · rename_i hr
          exact absurd h (hr _)
      | act x =>
        simp only [emit] at he
        obtain ⟨ev, h3, h4⟩ := ihe _ _ _ _ _ _ _ he hp h
        exact ⟨ev, .act h3, h4⟩
      | cond x =>
        simp only [emit] at he
        obtain ⟨ev, h3, h4⟩ := ihe _ _ _ _ _ _ _ he hp h
        exact ⟨ev, .cond h3, h4⟩
      | recover x fl =>
        simp only [emit, Option.map_eq_some_iff, Prod.mk.injEq] at he
        obtain ⟨⟨p1, p2⟩, hp1, rfl, rfl⟩ := he
        simp only [exec] at h
        split at h
        · rename_i j st1 h1
          split at h
          · simp only [Option.map_eq_some_iff, Prod.mk.injEq] at h
            obtain ⟨q, hq, _, rfl⟩ := h
            have hm := (pos_mono W f).1 _ _ _ _ h1
            obtain ⟨h2, h3⟩ := skipTo_le hq
            have hqt := quiet_exec W _ _ _ _ _ h1 ((quiet_emit W.G fe).1 _ _ _ _ _ hp1 hp.1)
            refine ⟨[], .recovered ?_ h3, hqt⟩
            dsimp only
            split at h2 <;> omega
          · simp at h
        · obtain ⟨ev, h3, h4⟩ := ih1 f (by omega) _ _ _ _ _ _ _ _ hp1 hp.2 h
          exact ⟨ev, .recover h3, h4⟩
      | rollback x y =>
        simp only [emit, Option.bind_eq_some_iff, Option.map_eq_some_iff, Prod.mk.injEq] at he
        obtain ⟨⟨p1, p2⟩, hp1, ⟨q1, q2⟩, hq1, rfl, rfl⟩ := he
        simp only [exec] at h
        split at h
        · rename_i j st1 h1
          split at h
          · have hqt := quiet_exec W _ _ _ _ _ h1 ((quiet_emit W.G fe).1 _ _ _ _ _ hp1 hp.1)
            obtain ⟨ev, h3, h4⟩ := ih1 f (by omega) _ _ _ _ _ _ _ _ hq1 hp.2.2 h
            refine ⟨ev, .caught h3, ?_⟩
            rw [h4]
            dsimp only
            rw [hqt]
          · simp at h
        · obtain ⟨ev, h3, h4⟩ := ih1 f (by omega) _ _ _ _ _ _ _ _ hp1 hp.2.1 h
          exact ⟨ev, .tried h3, h4⟩
      | op => simp [emit] at he
  · intro s st t p n h
    cases f with
    | zero => simp [parse] at h
    | succ f =>
    simp only [parse] at h
    split at h
    · cases h
    · rename_i code hc
      split at h
      · cases h
      · rename_i st1 h1
        simp only [Option.some.injEq, Prod.mk.injEq] at h
        obtain ⟨rfl, rfl, rfl⟩ := h
        obtain ⟨r, hr, k1, k2, body, f', m, hf, h2, h3⟩ := exec_rules W _ _ _ _ _ hc h1
        obtain ⟨f'', hf', h4, h5⟩ := exec_end W h3
        obtain ⟨ev, h6, h7⟩ := ih1 f'' (by omega) _ _ _ _ _ _ _ _ h2 (hG s r hr) h4
        refine .node hr h6 h5 ?_
        rw [h7]
        exact holds_all ev
      · simp at h

/-! ## Order and nesting -/

theorem Ordered.le {l : List Tree} {a b : Int} (h : Ordered l a b) : a ≤ b := by
  induction h with
  | nil h => exact h
  | cons h1 _ h2 _ ih => omega

theorem Ordered.mono {l : List Tree} {a a' b b' : Int} (h : Ordered l a b) (ha : a' ≤ a) (hb : b ≤ b') : Ordered l a' b' := by
  induction h generalizing a' with
  | nil h => exact .nil (by omega)
  | cons h1 h2 h3 h4 ih => exact .cons (by omega) h2 h3 (ih (Int.le_refl _) hb)

theorem Ordered.append {l m : List Tree} {a b c : Int} (h : Ordered l a b) (hm : Ordered m b c) : Ordered (l ++ m) a c := by
  induction h with
  | nil h => exact hm.mono h (Int.le_refl _)
  | cons h1 h2 h3 h4 ih => exact .cons h1 h2 h3 (ih hm)

theorem Ordered.sublist {l m : List Tree} {a b : Int} (h : Ordered l a b) (hs : m.Sublist l) : Ordered m a b := by
  induction h generalizing m with
  | nil h =>
    rw [List.sublist_nil] at hs
    subst hs
    exact .nil h
  | @cons t l a b c d h1 h2 h3 h4 ih =>
    cases hs with
    | cons _ hs => exact (ih hs).mono (by omega) (Int.le_refl _)
    | cons_cons _ hs => exact .cons h1 h2 h3 (ih hs)

/-- What is known of a goal's values: their order, and where each comes from. -/
def Fine (G : Grammar) (toks : Nat → Nat) (eof : Nat) : Goal → Nat → Nat → Prop
  | .item _ ev, i, j => Ordered (ev.map (·.2)) i j ∧ ∀ p ∈ ev, match p.2 with
    | .tok k => ∃ n : Nat, k = n
    | .node s a b vars => ∃ i' j', Built G toks eof (.node s (.node s a b vars)) i' j'
  | .node _ t, i, j => Spans t i j ∧ i ≤ j

theorem fine {G toks eof g i j} (h : Built G toks eof g i j) : Fine G toks eof g i j := by
  have nodeForm : ∀ {s t i j}, Built G toks eof (.node s t) i j → ∃ a b v, t = .node s a b v := by
    intro s t i j h
    cases h with
    | node _ _ _ _ => exact ⟨_, _, _, rfl⟩
  induction h with
  | zero => exact ⟨.nil (Int.le_refl _), by simp⟩
  | tok h => exact ⟨.nil (by omega), by simp⟩
  | sym h ih => exact ⟨.nil (by have := ih.2; omega), by simp⟩
  | annTok h =>
    refine ⟨.cons (Int.le_refl _) ⟨rfl, rfl⟩ (by omega) (.nil (by omega)), ?_⟩
    intro p hp
    rw [List.mem_singleton] at hp
    subst hp
    exact ⟨_, rfl⟩
  | annSym h ih =>
    refine ⟨.cons (Int.le_refl _) ih.1 (by have := ih.2; omega) (.nil (Int.le_refl _)), ?_⟩
    intro p hp
    rw [List.mem_singleton] at hp
    subst hp
    obtain ⟨a, b, v, rfl⟩ := nodeForm h
    exact ⟨_, _, h⟩
  | inl _ _ _ ih => exact ih
  | inlSkip => exact ⟨.nil (Int.le_refl _), by simp⟩
  | cons _ _ ih1 ih2 =>
    refine ⟨by rw [List.map_append]; exact ih1.1.append ih2.1, fun p hp => ?_⟩
    rcases List.mem_append.1 hp with hp | hp
    · exact ih1.2 p hp
    · exact ih2.2 p hp
  | altL _ ih => exact ih
  | altR _ ih => exact ih
  | starNil => exact ⟨.nil (Int.le_refl _), by simp⟩
  | starCons _ _ ih1 ih2 =>
    refine ⟨by rw [List.map_append]; exact ih1.1.append ih2.1, fun p hp => ?_⟩
    rcases List.mem_append.1 hp with hp | hp
    · exact ih1.2 p hp
    · exact ih2.2 p hp
  | plusOne _ ih => exact ih
  | plusCons _ _ ih1 ih2 =>
    refine ⟨by rw [List.map_append]; exact ih1.1.append ih2.1, fun p hp => ?_⟩
    rcases List.mem_append.1 hp with hp | hp
    · exact ih1.2 p hp
    · exact ih2.2 p hp
  | act _ ih => exact ih
  | cond _ ih => exact ih
  | recover _ ih => exact ih
  | recovered h _ => exact ⟨.nil (by omega), by simp⟩
  | tried _ ih => exact ih
  | caught _ ih => exact ih
  | node _ _ _ _ ih => exact ⟨⟨rfl, by omega⟩, by have := ih.1.le; omega⟩

theorem collected_sublist (ev : List (Decl × Tree)) (n : String) (b : Bool) : (collected ev n b).Sublist (ev.map (·.2)) := by
  have h1 : ((ev.filter fun p => p.1.temp = false ∧ p.1.name = n ∧ p.1.seq = b).map (·.2)).Sublist (ev.map (·.2)) := List.Sublist.map _ List.filter_sublist
  unfold collected
  cases b with
  | true => exact h1
  | false =>
    simp only [Bool.false_eq_true, if_false]
    refine List.Sublist.trans ?_ h1
    generalize (ev.filter fun p => p.1.temp = false ∧ p.1.name = n ∧ p.1.seq = false).map (·.2) = l
    cases hl : l.getLast? with
    | none => simp
    | some x =>
      rw [Option.toList_some, List.singleton_sublist]
      exact List.mem_of_getLast? hl

end Verif.Vars
