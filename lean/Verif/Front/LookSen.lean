import Verif.Front.LookSpec
import Verif.Front.Full
import Verif.Front.Simple

/-!
# Lemmas: places in rules, copies, and sentences
-/

namespace Verif.Front

open Verif.Syntax

variable {rs : List Rule}

/-! ### Every item at a place has a sentence -/

/-- The item is valid and simple, and the symbols it mentions have sentences. -/
def Neat (rs : List Rule) (i : Item) : Prop := Simple False i ∧ Valid i ∧ ∀ s, Mentions s i → ∃ ω, Sentence rs s ω

theorem item_sen : ∀ {i : Item}, Neat rs i → ∃ ω, Sen rs i ω := by
  intro i
  induction i with
  | zero => exact fun _ => ⟨_, .zero⟩
  | nonterm s a =>
    rintro ⟨_, _, h⟩
    obtain ⟨ω, r, h1, h2, h3⟩ := h s rfl
    exact ⟨ω, .nonterm h1 h2 h3⟩
  | term s => exact fun _ => ⟨_, .term⟩
  | inl s => exact fun h => h.1.elim
  | ann l i ih => exact fun ⟨h1, h2, h3⟩ => (ih ⟨h1, h2, h3⟩).imp fun _ => .ann
  | plus i ih => exact fun ⟨h1, h2, h3⟩ => (ih ⟨h1, h2, h3⟩).imp fun _ => .once
  | star i ih => exact fun _ => ⟨_, .none⟩
  | code c => exact fun _ => ⟨_, .code⟩
  | act i c ih => exact fun ⟨h1, h2, h3⟩ => (ih ⟨h1, h2, h3⟩).imp fun _ => .act
  | alt i j ih jh => exact fun ⟨h1, h2, h3⟩ => (ih ⟨h1.1, h2.1, fun s h => h3 s (.inl h)⟩).imp fun _ => .left
  | cons i j ih jh =>
    rintro ⟨h1, h2, h3⟩
    obtain ⟨α, ha⟩ := ih ⟨h1.1, h2.1, fun s h => h3 s (.inl h)⟩
    obtain ⟨β, hb⟩ := jh ⟨h1.2, h2.2, fun s h => h3 s (.inr h)⟩
    exact ⟨_, .cons ha hb⟩
  | cond c i ih => exact fun ⟨h1, h2, h3⟩ => (ih ⟨h1, h2, h3⟩).imp fun _ => .cond
  | recover i ih => exact fun h => h.1.1.elim
  | rollback i j ih jh => exact fun h => h.1.1.elim
  | op o =>
    rintro ⟨_, ⟨⟨s, a, e⟩, _⟩, h⟩
    obtain ⟨ω, r, h1, h2, h3⟩ := h s ⟨a, e⟩
    exact ⟨ω, .opBase e (.nonterm h1 h2 h3)⟩
  | wild => exact fun h => h.1.elim

theorem at_neat (h0 : ∀ r ∈ rs, Neat rs r.item) {i : Item} {k : List Item} {s : Name} (h : At rs i k s) : Neat rs i ∧ ∀ j ∈ k, Neat rs j := by
  induction h with
  | rule hr => exact ⟨h0 _ hr, by simp⟩
  | ann _ ih => exact ih
  | act _ ih => exact ih
  | cond _ ih => exact ih
  | altL _ ih => exact ⟨⟨ih.1.1.1, ih.1.2.1.1, fun s h => ih.1.2.2 s (.inl h)⟩, ih.2⟩
  | altR _ ih => exact ⟨⟨ih.1.1.2, ih.1.2.1.2, fun s h => ih.1.2.2 s (.inr h)⟩, ih.2⟩
  | consL _ ih =>
    refine ⟨⟨ih.1.1.1, ih.1.2.1.1, fun s h => ih.1.2.2 s (.inl h)⟩, fun j hj => ?_⟩
    rcases List.mem_cons.1 hj with rfl | hj
    · exact ⟨ih.1.1.2, ih.1.2.1.2, fun s h => ih.1.2.2 s (.inr h)⟩
    · exact ih.2 j hj
  | consR _ ih => exact ⟨⟨ih.1.1.2, ih.1.2.1.2, fun s h => ih.1.2.2 s (.inr h)⟩, ih.2⟩
  | star _ ih =>
    refine ⟨ih.1, fun j hj => ?_⟩
    rcases List.mem_cons.1 hj with rfl | hj
    · exact ih.1
    · exact ih.2 j hj
  | plus _ ih =>
    refine ⟨ih.1, fun j hj => ?_⟩
    rcases List.mem_cons.1 hj with rfl | hj
    · exact ih.1
    · exact ih.2 j hj
  | recover _ ih => exact ih.1.1.1.elim
  | try_ _ ih => exact ih.1.1.1.elim
  | catch_ _ ih => exact ih.1.1.1.elim

theorem senAll_exists {k : List Item} (h : ∀ j ∈ k, Neat rs j) : ∃ ω, SenAll rs k ω := by
  induction k with
  | nil => exact ⟨_, .nil⟩
  | cons i k ih =>
    obtain ⟨α, ha⟩ := item_sen (h i (.head _))
    obtain ⟨β, hb⟩ := ih fun j hj => h j (.tail _ hj)
    exact ⟨_, .cons ha hb⟩

theorem at_mentions {i : Item} {k : List Item} {s : Name} (h : At rs i k s) : ∀ x, Mentions x i → ∃ r ∈ rs, Mentions x r.item := by
  induction h with
  | rule hr => exact fun x hx => ⟨_, hr, hx⟩
  | altL _ ih => exact fun x hx => ih x (.inl hx)
  | altR _ ih => exact fun x hx => ih x (.inr hx)
  | consL _ ih => exact fun x hx => ih x (.inl hx)
  | consR _ ih => exact fun x hx => ih x (.inr hx)
  | try_ _ ih => exact fun x hx => ih x (.inl hx)
  | catch_ _ ih => exact fun x hx => ih x (.inr hx)
  | ann _ ih => exact ih
  | act _ ih => exact ih
  | cond _ ih => exact ih
  | star _ ih => exact ih
  | plus _ ih => exact ih
  | recover _ ih => exact ih

theorem at_sym {i : Item} {k : List Item} {s : Name} (h : At rs i k s) : ∃ r ∈ rs, r.sym = s := by
  induction h with
  | rule hr => exact ⟨_, hr, rfl⟩
  | _ => assumption

/-! ### Copies -/

theorem star_congr {i j : Item} (h : ∀ ω, Sen rs i ω → Sen rs j ω) {x : Item} {ω : List Name} (hs : Sen rs x ω) : (x = .star i → Sen rs (.star j) ω) ∧ (x = .plus i → Sen rs (.plus j) ω) := by
  induction hs with
  | none => exact ⟨fun _ => .none, (nomatch ·)⟩
  | again h1 h2 ih1 ih2 => exact ⟨fun e => .again (h _ (Item.star.inj e ▸ h1)) (ih2.1 e), (nomatch ·)⟩
  | once h1 ih => exact ⟨(nomatch ·), fun e => .once (h _ (Item.plus.inj e ▸ h1))⟩
  | more h1 h2 ih1 ih2 => exact ⟨(nomatch ·), fun e => .more (h _ (Item.plus.inj e ▸ h1)) (ih2.2 e)⟩
  | _ => exact ⟨(nomatch ·), (nomatch ·)⟩

theorem sen_clone : ∀ {i : Item}, Simple False i → ∀ ω, Sen rs (clone i) ω ↔ Sen rs i ω := by
  intro i
  induction i with
  | ann l i ih => exact fun h ω => ⟨fun hs => by cases hs with | ann hs => exact .ann ((ih h _).1 hs), fun hs => by cases hs with | ann hs => exact .ann ((ih h _).2 hs)⟩
  | plus i ih => exact fun h ω => ⟨fun hs => (star_congr (fun ω => (ih h ω).1) hs).2 rfl, fun hs => (star_congr (fun ω => (ih h ω).2) hs).2 rfl⟩
  | star i ih => exact fun h ω => ⟨fun hs => (star_congr (fun ω => (ih h ω).1) hs).1 rfl, fun hs => (star_congr (fun ω => (ih h ω).2) hs).1 rfl⟩
  | act i c ih => exact fun h ω => ⟨fun hs => by cases hs with | act hs => exact .act ((ih h _).1 hs), fun hs => by cases hs with | act hs => exact .act ((ih h _).2 hs)⟩
  | cond c i ih => exact fun h ω => ⟨fun hs => .cond ((ih h _).1 hs), fun hs => by cases hs with | cond hs => exact (ih h _).2 hs⟩
  | alt i j ih jh =>
    refine fun h ω => ⟨fun hs => ?_, fun hs => ?_⟩
    · cases hs with
      | left hs => exact .left ((ih h.1 _).1 hs)
      | right hs => exact .right ((jh h.2 _).1 hs)
    · cases hs with
      | left hs => exact .left ((ih h.1 _).2 hs)
      | right hs => exact .right ((jh h.2 _).2 hs)
  | cons i j ih jh =>
    refine fun h ω => ⟨fun hs => ?_, fun hs => ?_⟩
    · cases hs with | cons h1 h2 => exact .cons ((ih h.1 _).1 h1) ((jh h.2 _).1 h2)
    · cases hs with | cons h1 h2 => exact .cons ((ih h.1 _).2 h1) ((jh h.2 _).2 h2)
  | recover i ih => exact fun h => h.1.elim
  | rollback i j ih jh => exact fun h => h.1.elim
  | code c => exact fun h => h.elim
  | _ => exact fun _ _ => Iff.rfl

theorem simple_clone : ∀ {i : Item}, Simple False i → Simple False (clone i) := by
  intro i
  induction i with
  | ann l i ih => exact ih
  | plus i ih => exact ih
  | star i ih => exact ih
  | act i c ih => exact ih
  | cond c i ih => exact ih
  | alt i j ih jh => exact fun h => ⟨ih h.1, jh h.2⟩
  | cons i j ih jh => exact fun h => ⟨ih h.1, jh h.2⟩
  | recover i ih => exact fun h => h.1.elim
  | rollback i j ih jh => exact fun h => h.1.elim
  | code c => exact fun h => h.elim
  | _ => exact fun h => h

/-- `Copy j j'`: `j'` is `j` or a copy. -/
inductive Copy (j : Item) : Item → Prop
  | refl : Copy j j
  | step {j'} : Copy j j' → Copy j (clone j')

theorem Copy.first {j j' : Item} (h : Copy (clone j) j') : Copy j j' := by
  induction h with
  | refl => exact .step .refl
  | step _ ih => exact .step ih

theorem copy_at {j i : Item} {k : List Item} {s : Name} (h : Sub j i) : At rs i k s → ∃ j' k', Copy j j' ∧ At rs j' k' s := by
  intro ha
  induction h generalizing k with
  | refl => exact ⟨_, _, .refl, ha⟩
  | copy _ ih =>
    obtain ⟨j', k', h1, h2⟩ := ih ha
    exact ⟨j', k', h1.first, h2⟩
  | ann _ ih => exact ih (.ann ha)
  | plus _ ih => exact ih (.plus ha)
  | star _ ih => exact ih (.star ha)
  | act _ ih => exact ih (.act ha)
  | altL _ ih => exact ih (.altL ha)
  | altR _ ih => exact ih (.altR ha)
  | consL _ ih => exact ih (.consL ha)
  | consR _ ih => exact ih (.consR ha)
  | cond _ ih => exact ih (.cond ha)
  | recover _ ih => exact ih (.recover ha)
  | try_ _ ih => exact ih (.try_ ha)
  | catch_ _ ih => exact ih (.catch_ ha)

theorem copy_simple {j j' : Item} (h : Copy j j') : Simple False j' → Simple False j := by
  induction h with
  | refl => exact id
  | step _ ih => exact fun h => ih (simple_of_clone h)

theorem copy_sen {j j' : Item} (h : Copy j j') (hs : Simple False j') : ∀ ω, Sen rs j' ω ↔ Sen rs j ω := by
  induction h with
  | refl => exact fun _ => Iff.rfl
  | step h ih => exact fun ω => (sen_clone (simple_of_clone hs) ω).trans (ih (simple_of_clone hs) ω)

theorem copy_alt {a b j' : Item} (h : Copy (.alt a b) j') : ∃ a' b', j' = .alt a' b' ∧ Copy a a' ∧ Copy b b' := by
  generalize e : Item.alt a b = x at h
  induction h with
  | refl => exact ⟨a, b, e.symm, .refl, .refl⟩
  | step _ ih =>
    obtain ⟨a', b', rfl, h1, h2⟩ := ih
    exact ⟨_, _, rfl, .step h1, .step h2⟩

theorem copy_cons {a b j' : Item} (h : Copy (.cons a b) j') : ∃ a' b', j' = .cons a' b' ∧ Copy a a' ∧ Copy b b' := by
  generalize e : Item.cons a b = x at h
  induction h with
  | refl => exact ⟨a, b, e.symm, .refl, .refl⟩
  | step _ ih =>
    obtain ⟨a', b', rfl, h1, h2⟩ := ih
    exact ⟨_, _, rfl, .step h1, .step h2⟩

/-! ### Choices -/

theorem begins_choice : ∀ {i : Item} {t : Name}, Begins rs i t → ∃ c ∈ choices i, Begins rs c t := by
  intro i t
  induction i with
  | alt i j ih jh =>
    rintro ⟨ω, hs⟩
    cases hs with
    | left hs => obtain ⟨c, h1, h2⟩ := ih ⟨ω, hs⟩; exact ⟨c, List.mem_append.2 (.inl h1), h2⟩
    | right hs => obtain ⟨c, h1, h2⟩ := jh ⟨ω, hs⟩; exact ⟨c, List.mem_append.2 (.inr h1), h2⟩
  | _ => exact fun h => ⟨_, List.mem_singleton.2 rfl, h⟩

theorem choices_disjoint {i j : Item} {P : Item → Item → Prop} (h : (choices (.alt i j)).Pairwise P) (hP : ∀ m m', P m m' → ∀ t, Begins rs m t → ¬ Begins rs m' t) {t : Name} (h1 : Begins rs i t) :
    ¬ Begins rs j t := by
  intro h2
  obtain ⟨c, c1, c2⟩ := begins_choice h1
  obtain ⟨d, d1, d2⟩ := begins_choice h2
  exact hP c d ((List.pairwise_append.1 h).2.2 c c1 d d1) t c2 d2

end Verif.Front
