import Verif.VisGen.Model
import Verif.VisGen.Spec
import Mathlib.Data.List.Nodup

/-!
# C114: texts of visitor classes
-/

namespace Verif.VisGen

open Verif.Top (Text txt)
open Verif.OpRule (capitalized)
open Verif.VisGen.Spec

/-! ### Lemmas -/

theorem methods_of : ∀ ks : List Text, Methods (ks.flatMap declToks) (ks.map fun k => (visitT k, astT k))
  | [] => .nil
  | k :: ks => by
    rw [List.flatMap_cons, List.map_cons]
    exact .cons (methods_of ks)

theorem defines_append {a b : List Text} {fs gs : List Fun} (h : Defines a fs) (g : Defines b gs) : Defines (a ++ b) (fs ++ gs) := by
  induction h with
  | nil => exact g
  | cons n h1 h2 _ ih =>
    rw [List.append_assoc, List.cons_append, List.cons_append]
    exact .cons n h1 h2 ih

theorem stmts_append {a b : List Text} (h : Stmts a) (g : Stmts b) : Stmts (a ++ b) := by
  induction h with
  | nil => exact g
  | expr h1 _ ih => rw [List.append_assoc]; exact .expr h1 ih
  | if_ h1 h2 _ _ ih => rw [List.append_assoc, List.cons_append]; exact .if_ h1 h2 ih
  | do_ h1 h2 _ _ ih => rw [List.append_assoc]; exact .do_ h1 h2 ih

theorem ident_fine {t : Text} (h : Ident t) : t ≠ txt ";" ∧ t ≠ txt "{" ∧ t ≠ txt "}" := by
  refine ⟨?_, ?_, ?_⟩ <;>
    · rintro rfl
      have := h.2 _ (.head _)
      revert this
      decide +kernel

theorem long_fine {x y : Text} (hx : x ≠ []) (hy : y ≠ []) : x ++ y ≠ txt ";" ∧ x ++ y ≠ txt "{" ∧ x ++ y ≠ txt "}" := by
  have : ∀ z : Text, z.length = 1 → x ++ y ≠ z := fun z hz e => by
    have h1 := List.length_pos_iff.2 hx
    have h2 := List.length_pos_iff.2 hy
    rw [← e, List.length_append] at hz
    omega
  exact ⟨this _ (by decide +kernel), this _ (by decide +kernel), this _ (by decide +kernel)⟩

theorem plain_stmts {x : Text} (h : x ≠ txt ";" ∧ x ≠ txt "{" ∧ x ≠ txt "}") : Stmts (plainToks x) := by
  refine .expr (e := [txt "visitNode", txt "(", txt "node", txt "->", x, txt ")"]) (r := []) ⟨by simp, fun t ht => ?_⟩ .nil
  simp only [List.mem_cons, List.not_mem_nil, or_false] at ht
  rcases ht with rfl | rfl | rfl | rfl | rfl | rfl
  case inr.inr.inr.inr.inl => exact h
  all_goals decide +kernel

theorem member_stmts {m : Member} (hn : Ident m.name) (ht : Ident m.type) : Stmts (memberToks m) := by
  unfold memberToks
  split
  · have h1 := long_fine hn.1 (y := txt "Sequence") (by decide +kernel)
    have h2 := long_fine ht.1 (y := txt "Ast") (by decide +kernel)
    refine .if_ (c := [txt "node", txt "->", m.name ++ txt "Sequence"])
      (b := [txt "const", txt "KDevPG", txt "::", txt "ListNode", txt "<", astT m.type, txt "*", txt ">", txt "*", txt "__it", txt "=", txt "node", txt "->", m.name ++ txt "Sequence", txt "->", txt "front", txt "(", txt ")",
        txt ",", txt "*", txt "__end", txt "=", txt "__it"] ++ txt ";" ::
        ([txt "do", txt "{"] ++ [txt "visitNode", txt "(", txt "__it", txt "->", txt "element", txt ")", txt ";", txt "__it", txt "=", txt "__it", txt "->", txt "next", txt ";"] ++
          [txt "}", txt "while", txt "("] ++ [txt "__it", txt "!=", txt "__end"] ++ [txt ")", txt ";"] ++ [])) (r := []) ⟨by simp, fun t ht => ?_⟩ ?_ .nil
    · simp only [List.mem_cons, List.not_mem_nil, or_false] at ht
      rcases ht with rfl | rfl | rfl
      case inr.inr => exact h1
      all_goals decide +kernel
    · refine .expr ⟨by simp, fun t ht => ?_⟩ (.do_ ?_ ⟨by simp, by decide +kernel⟩ .nil)
      · simp only [List.mem_cons, List.not_mem_nil, or_false] at ht
        by_cases e1 : t = m.name ++ txt "Sequence"
        · rw [e1]; exact h1
        by_cases e2 : t = astT m.type
        · rw [e2]; exact h2
        simp only [e1, e2, false_or, or_false] at ht
        have : ∀ t ∈ [txt "const", txt "KDevPG", txt "::", txt "ListNode", txt "<", txt "*", txt ">", txt "*", txt "__it", txt "=", txt "node", txt "->", txt "->", txt "front", txt "(", txt ")",
            txt ",", txt "*", txt "__end", txt "=", txt "__it"], t ≠ txt ";" ∧ t ≠ txt "{" ∧ t ≠ txt "}" := by decide +kernel
        exact this t (by simpa only [List.mem_cons, List.not_mem_nil, or_false] using ht)
      · exact .expr (e := [txt "visitNode", txt "(", txt "__it", txt "->", txt "element", txt ")"]) ⟨by simp, by decide +kernel⟩
          (.expr (e := [txt "__it", txt "=", txt "__it", txt "->", txt "next"]) (r := []) ⟨by simp, by decide +kernel⟩ .nil)
  · exact plain_stmts (ident_fine hn)

theorem members_stmts : ∀ {ms : List Member}, (∀ m ∈ ms, Ident m.name ∧ Ident m.type) → Stmts (ms.flatMap memberToks)
  | [], _ => .nil
  | m :: ms, h => by
    rw [List.flatMap_cons]
    exact stmts_append (member_stmts (h m (.head _)).1 (h m (.head _)).2) (members_stmts fun m hm => h m (.tail _ hm))

/-- One definition, before others. -/
theorem define_one {name k : Text} {mem : Bool} {b r : Toks} {fs : List Fun} (hb : Stmts b) (hm : b = [] ∨ mem = true) (hr : Defines r fs) :
    Defines (headToks name k mem ++ b ++ [txt "}"] ++ r) (⟨name, visitT k, astT k⟩ :: fs) := by
  have := Defines.cons (c := name) (m := visitT k) (t := astT k) (if mem then some (txt "node") else none) hb (fun h => by
    rcases hm with rfl | rfl
    · cases h
    · rfl) hr
  have e : headToks name k mem ++ b ++ [txt "}"] ++ r = [txt "void", name, txt "::", visitT k, txt "(", astT k, txt "*"] ++ (if mem then some (txt "node") else none).toList ++ [txt ")", txt "{"] ++ b ++ txt "}" :: r := by
    cases mem <;> simp [headToks]
  rw [e]
  exact this

theorem rule_defines {name : Text} {s : Sym} (hs : s.op = false → s.steps ≠ [] → s.members = true) (hi : ∀ m ∈ s.steps, Ident m.name ∧ Ident m.type) :
    Defines (bitsRule name s) ((kinds s).map fun k => ⟨name, visitT k, astT k⟩) := by
  have f1 := plain_stmts (x := txt "first") (by decide +kernel)
  have f2 := plain_stmts (x := txt "second") (by decide +kernel)
  have f3 := plain_stmts (x := txt "third") (by decide +kernel)
  unfold bitsRule kinds
  split
  · have h4 := define_one (name := name) (k := txt "Ternary" ++ capitalized s.name) (mem := true) (stmts_append (stmts_append f1 f2) f3) (.inr rfl) .nil
    have h3 := define_one (name := name) (k := txt "Binary" ++ capitalized s.name) (mem := true) (stmts_append f1 f2) (.inr rfl) h4
    have h2 := define_one (name := name) (k := txt "Postfix" ++ capitalized s.name) (mem := true) f1 (.inr rfl) h3
    have h1 := define_one (name := name) (k := txt "Prefix" ++ capitalized s.name) (mem := true) f1 (.inr rfl) h2
    simpa only [List.append_assoc, List.append_nil, List.map_cons, List.map_nil] using h1
  · next e =>
    have h1 := define_one (name := name) (k := capitalized s.name) (mem := s.hasMembers) (members_stmts hi) (by
      by_cases h0 : s.steps = []
      · left; rw [h0]; rfl
      · right; simp [Sym.hasMembers, hs (by simpa using e) h0]) .nil
    simpa only [List.append_nil, List.map_cons, List.map_nil] using h1

theorem rules_define {name : Text} : ∀ {ss : List Sym}, (∀ s ∈ ss, s.op = false → s.steps ≠ [] → s.members = true) → (∀ s ∈ ss, ∀ m ∈ s.steps, Ident m.name ∧ Ident m.type) →
    Defines (ss.flatMap (bitsRule name)) ((ss.flatMap kinds).map fun k => ⟨name, visitT k, astT k⟩)
  | [], _, _ => .nil
  | s :: ss, h1, h2 => by
    rw [List.flatMap_cons, List.flatMap_cons, List.map_append]
    exact defines_append (rule_defines (h1 s (.head _)) (h2 s (.head _))) (rules_define (fun s hs => h1 s (.tail _ hs)) fun s hs => h2 s (.tail _ hs))

theorem length_fine {x : Text} (h : 2 ≤ x.length) : x ≠ txt ";" ∧ x ≠ txt "{" ∧ x ≠ txt "}" := by
  have : ∀ z : Text, z.length = 1 → x ≠ z := fun z hz e => by rw [e] at h; omega
  exact ⟨this _ (by decide +kernel), this _ (by decide +kernel), this _ (by decide +kernel)⟩

theorem visit_fine (k : Text) : visitT k ≠ txt ";" ∧ visitT k ≠ txt "{" ∧ visitT k ≠ txt "}" :=
  length_fine (by
    have : (txt "visit").length = 5 := by decide +kernel
    rw [visitT, List.length_append]; omega)

theorem call_plain (k : Text) : Plain [txt "DefaultVisitor", txt "::", visitT k, txt "(", txt "node", txt ")"] := by
  refine ⟨by simp, fun t ht => ?_⟩
  simp only [List.mem_cons, List.not_mem_nil, or_false] at ht
  by_cases e1 : t = visitT k
  · rw [e1]; exact visit_fine k
  · simp only [e1, false_or] at ht
    have : ∀ t ∈ [txt "DefaultVisitor", txt "::", txt "(", txt "node", txt ")"], t ≠ txt ";" ∧ t ≠ txt "{" ∧ t ≠ txt "}" := by decide +kernel
    exact this t (by simpa only [List.mem_cons, List.not_mem_nil, or_false] using ht)

/-! ### C114 -/

theorem visitT_inj {a b : Text} (h : visitT a = visitT b) : a = b := List.append_cancel_left h

/-- C114: the default visitor, and a new visitor that does not inherit from it, is a class with a method for each method of `Visitor` except `visitNode`, and the source defines just these methods, in this
order, for this class.  The conditions: names are names, and node members are declared first (C81; without it see `C81_fails_second`). -/
theorem C114_abstract (mac : Toks) (name : Text) {ss : List Sym} (hs : ∀ s ∈ ss, s.op = false → s.steps ≠ [] → s.members = true) (hi : ∀ s ∈ ss, ∀ m ∈ s.steps, Ident m.name ∧ Ident m.type) :
    ∃ ms, Declares mac name (txt "Visitor") ms (headerToks mac name false ss) ∧ Defines (sourceToks name false ss) (ms.map fun p => ⟨name, p.1, p.2⟩) ∧
      virtuals ss = (txt "visitNode", txt "AstNode") :: ms := by
  refine ⟨(ss.flatMap kinds).map fun k => (visitT k, astT k), .mk (methods_of _), ?_, rfl⟩
  have := rules_define (name := name) hs hi
  rw [List.map_map]
  exact this

/-- C114: a new visitor that inherits from the default visitor is a class with these methods, too. -/
theorem C114_class (mac : Toks) (name : Text) (ss : List Sym) : ∃ ms, Declares mac name (txt "DefaultVisitor") ms (headerToks mac name true ss) ∧ virtuals ss = (txt "visitNode", txt "AstNode") :: ms :=
  ⟨_, .mk (methods_of _), rfl⟩

/-- Up to the first brace there is a semicolon in each series of statements. -/
theorem stmts_semi {e r : List Text} (he : Plain e) (h1 : e.head? ≠ some (txt "if")) (h2 : e.head? ≠ some (txt "do")) {b x : List Text} (hb : Stmts b) (h : b ++ txt "}" :: x = e ++ txt "}" :: r) : False := by
  have key : ∀ (p q u : List Text), Plain p → p ++ txt ";" :: q = e ++ u → (∃ v, u = txt "}" :: v) → False := by
    intro p q u hp hpq ⟨v, hv⟩
    rcases List.append_eq_append_iff.1 hpq with ⟨a, h3, h4⟩ | ⟨a, h3, h4⟩
    · cases a with
      | nil =>
        rw [List.nil_append, hv] at h4
        exact absurd (List.cons.inj h4).1 (by decide +kernel)
      | cons y a =>
        rw [List.cons_append] at h4
        have hy := (List.cons.inj h4).1
        exact (he.2 y (by rw [h3]; simp)).1 hy.symm
    · cases a with
      | nil =>
        rw [List.nil_append, hv] at h4
        exact absurd (List.cons.inj h4).1 (by decide +kernel)
      | cons y a =>
        rw [hv, List.cons_append] at h4
        have hy := (List.cons.inj h4).1
        exact (hp.2 y (by rw [h3]; simp)).2.2 hy.symm
  obtain ⟨e0, es, rfl⟩ := List.exists_cons_of_ne_nil he.1
  cases hb with
  | nil =>
    rw [List.nil_append, List.cons_append] at h
    exact (he.2 e0 (.head _)).2.2 (List.cons.inj h).1.symm
  | @expr p q hp hq =>
    rw [List.append_assoc, List.cons_append] at h
    exact key p _ _ hp h ⟨_, rfl⟩
  | if_ =>
    simp only [List.cons_append, List.nil_append] at h
    exact h1 (by rw [← (List.cons.inj h).1]; rfl)
  | do_ =>
    simp only [List.cons_append, List.nil_append] at h
    exact h2 (by rw [← (List.cons.inj h).1]; rfl)

theorem new_defines {k : Text} {r : Toks} {fs : List Fun} (h : Defines (newToks k ++ r) fs) : False := by
  generalize e : newToks k ++ r = ts at h
  cases h with
  | nil => cases e
  | @cons c m t b r' fs n h1 h2 h3 =>
    have hp := call_plain k
    cases n with
    | none =>
      simp only [newToks, Option.toList, List.cons_append, List.nil_append, List.append_nil, List.append_assoc, List.cons.injEq] at e
      exact absurd e.2.2.2.2.2.2.2.1 (by decide +kernel)
    | some n =>
      simp only [newToks, Option.toList, List.cons_append, List.nil_append, List.append_assoc, List.cons.injEq] at e
      refine stmts_semi (r := r) hp (fun h => absurd (Option.some.inj h) (by decide +kernel)) (fun h => absurd (Option.some.inj h) (by decide +kernel)) h1 (x := r') ?_
      simp only [List.cons_append, List.nil_append]
      exact e.2.2.2.2.2.2.2.2.2.2.symm

/-- C114 fails for a new visitor that inherits from the default visitor: if there is a node with members at all, the source written is no series of definitions (the call in the body is not ended by a
semicolon). -/
theorem C114_fails_new (name : Text) : ∀ {ss : List Sym}, (∃ s ∈ ss, s.hasMembers = true) → ∀ fs, ¬ Defines (sourceToks name true ss) fs
  | s :: ss, h, fs => by
    intro hd
    have e : sourceToks name true (s :: ss) = newRule s ++ sourceToks name true ss := by simp [sourceToks]
    rw [e] at hd
    unfold newRule at hd
    split at hd
    · next ho =>
      rw [kinds, if_pos ho, List.flatMap_cons, List.append_assoc] at hd
      exact new_defines hd
    · split at hd
      · exact new_defines hd
      · next hm =>
        rw [List.nil_append] at hd
        obtain ⟨t, ht, ht'⟩ := h
        rcases List.mem_cons.1 ht with rfl | ht
        · exact hm ht'
        · exact C114_fails_new name ⟨t, ht, ht'⟩ fs hd

/-- C114 fails, too, for the names: even with a semicolon, the methods would be those of classes named after the symbols. -/
theorem C114_fails_class (k : Text) : Defines ((newToks k).dropLast ++ [txt ";", txt "}"]) [⟨k, visitT k, astT k⟩] :=
  .cons (some (txt "node")) (.expr (call_plain k) .nil) (fun _ => rfl) .nil

/-! ### Names of methods -/

def prefixes : List Text := [txt "Prefix", txt "Postfix", txt "Binary", txt "Ternary"]

theorem kinds_eq (s : Sym) : kinds s = if s.op then prefixes.map (· ++ capitalized s.name) else [capitalized s.name] := rfl

/-- None of them is the beginning of another. -/
theorem prefixes_apart {p q x y : Text} (hp : p ∈ prefixes) (hq : q ∈ prefixes) (h : p ++ x = q ++ y) : p = q ∧ x = y := by
  have key : ∀ p ∈ prefixes, ∀ q ∈ prefixes, p ≠ q → p.take 2 ≠ q.take 2 := by decide +kernel
  have two : ∀ p ∈ prefixes, 2 ≤ p.length := by decide +kernel
  by_cases e : p = q
  · subst e; exact ⟨rfl, List.append_cancel_left h⟩
  · refine absurd ?_ (key p hp q hq e)
    have h1 := congrArg (List.take 2) h
    rwa [List.take_append_of_le_length (two p hp), List.take_append_of_le_length (two q hq)] at h1

theorem kinds_nodup (s : Sym) : (kinds s).Nodup := by
  rw [kinds_eq]
  split
  · refine List.Pairwise.map _ (R := (· ≠ ·)) (fun a b h e => h (List.append_cancel_right e)) (?_ : prefixes.Nodup)
    decide +kernel
  · exact List.nodup_singleton _

/-- Two symbols whose structures have a name in common. -/
def Clash (s t : Sym) : Prop :=
  s.op = t.op ∧ capitalized s.name = capitalized t.name ∨ s.op = true ∧ t.op = false ∧ (∃ p ∈ prefixes, capitalized t.name = p ++ capitalized s.name) ∨
    s.op = false ∧ t.op = true ∧ ∃ p ∈ prefixes, capitalized s.name = p ++ capitalized t.name

theorem kinds_meet {s t : Sym} : (∃ k, k ∈ kinds s ∧ k ∈ kinds t) ↔ Clash s t := by
  rw [kinds_eq, kinds_eq, Clash]
  cases hs : s.op <;> cases ht : t.op <;> simp only [Bool.false_eq_true, if_false, if_true, List.mem_singleton, List.mem_map, true_and, false_and, and_false, or_false, false_or, reduceCtorEq]
  · exact ⟨fun ⟨k, h1, h2⟩ => h1.symm.trans h2, fun h => ⟨_, rfl, h⟩⟩
  · exact ⟨fun ⟨k, h1, p, h2, h3⟩ => ⟨p, h2, h1.symm.trans h3.symm⟩, fun ⟨p, h1, h2⟩ => ⟨_, rfl, p, h1, h2.symm⟩⟩
  · exact ⟨fun ⟨k, ⟨p, h2, h3⟩, h1⟩ => ⟨p, h2, h1.symm.trans h3.symm⟩, fun ⟨p, h1, h2⟩ => ⟨_, ⟨p, h1, h2.symm⟩, rfl⟩⟩
  · constructor
    · rintro ⟨k, ⟨p, h1, h2⟩, q, h3, h4⟩
      exact (prefixes_apart h1 h3 (h2.trans h4.symm)).2
    · intro h
      exact ⟨txt "Prefix" ++ capitalized s.name, ⟨_, .head _, rfl⟩, _, .head _, by rw [h]⟩

/-- C114: a visitor has no method twice exactly if no two symbols have the same name up to the case of the first letter, and none is named like a structure of an operator rule; and it has a method
`visitNode` of its own, which hides that of `Visitor`, exactly if there is a symbol `node`. -/
theorem C114_names (ss : List Sym) {ms : List (Text × Text)} (h : virtuals ss = (txt "visitNode", txt "AstNode") :: ms) :
    ((ms.map (·.1)).Nodup ↔ ss.Pairwise fun s t => ¬ Clash s t) ∧ (txt "visitNode" ∈ ms.map (·.1) ↔ ∃ s ∈ ss, s.op = false ∧ capitalized s.name = txt "Node") := by
  have e : ms.map (·.1) = (ss.flatMap kinds).map visitT := by
    rw [← (List.cons.inj h).2, List.map_map]; rfl
  rw [e]
  constructor
  · rw [List.nodup_map_iff fun a b h => visitT_inj h, List.nodup_flatMap]
    refine ⟨fun h => h.2.imp fun h hc => ?_, fun h => ⟨fun s _ => kinds_nodup s, h.imp fun h k h1 h2 => h (kinds_meet.1 ⟨k, h1, h2⟩)⟩⟩
    obtain ⟨k, h1, h2⟩ := kinds_meet.2 hc
    exact h h1 h2
  · have e2 : txt "visitNode" = visitT (txt "Node") := by decide +kernel
    rw [e2]
    constructor
    · intro hm
      obtain ⟨k, h1, h2⟩ := List.mem_map.1 hm
      rw [visitT_inj h2] at h1
      obtain ⟨s, hs, h3⟩ := List.mem_flatMap.1 h1
      refine ⟨s, hs, ?_⟩
      rw [kinds_eq] at h3
      split at h3
      · obtain ⟨p, hp, h4⟩ := List.mem_map.1 h3
        have h5 := congrArg List.length h4
        have : ∀ p ∈ prefixes, 5 < p.length := by decide +kernel
        have h6 := this p hp
        have h7 : (txt "Node").length = 4 := by decide +kernel
        rw [List.length_append, h7] at h5
        omega
      · next ho => exact ⟨by simpa using ho, (List.mem_singleton.1 h3).symm⟩
    · rintro ⟨s, hs, ho, hn⟩
      exact List.mem_map.2 ⟨_, List.mem_flatMap.2 ⟨s, hs, by rw [kinds_eq, ho]; simp [hn]⟩, rfl⟩

/-! ### Examples -/

/-- `s` with a member and a sequence, `e` with operators, `t` without members. -/
def exSyms : List Sym := [⟨txt "e", true, false, []⟩, ⟨txt "s", false, true, [⟨txt "x", txt "E", false⟩, ⟨txt "y", txt "T", true⟩]⟩, ⟨txt "t", false, false, []⟩]

theorem exSyms_named : ∀ s ∈ exSyms, ∀ m ∈ s.steps, Ident m.name ∧ Ident m.type := by
  unfold Ident exSyms
  decide +kernel

/-- The conditions of `C114_abstract` hold; the class has six methods. -/
example : ∃ ms, ms.length = 6 ∧ Declares [txt "EXPORT"] (txt "Mine") (txt "Visitor") ms (headerToks [txt "EXPORT"] (txt "Mine") false exSyms) ∧
    Defines (sourceToks (txt "Mine") false exSyms) (ms.map fun p => ⟨txt "Mine", p.1, p.2⟩) := by
  obtain ⟨ms, h1, h2, h3⟩ := C114_abstract [txt "EXPORT"] (txt "Mine") (ss := exSyms) (by decide +kernel) exSyms_named
  exact ⟨ms, by rw [← (List.cons.inj h3).2]; decide +kernel, h1, h2⟩

example : ∃ ms, Declares [] (txt "Mine") (txt "DefaultVisitor") ms (headerToks [] (txt "Mine") true exSyms) := (C114_class [] (txt "Mine") exSyms).imp fun _ h => h.1

example (fs : List Fun) : ¬ Defines (sourceToks (txt "Mine") true exSyms) fs := C114_fails_new _ ⟨_, .head _, rfl⟩ fs

/-- Symbols `s` and `S`; a symbol `prefixE` beside operators `e`; a symbol `node`. -/
example : ¬ ((virtuals [⟨txt "s", false, false, []⟩, ⟨txt "S", false, false, []⟩]).tail.map (·.1)).Nodup ∧ ¬ ((virtuals [⟨txt "e", true, true, []⟩, ⟨txt "prefixE", false, false, []⟩]).tail.map (·.1)).Nodup ∧
    txt "visitNode" ∈ (virtuals [⟨txt "node", false, false, []⟩]).tail.map (·.1) := by
  refine ⟨fun h => ?_, fun h => ?_, (C114_names _ rfl).2.2 ⟨_, .head _, rfl, by decide +kernel⟩⟩
  · have := (C114_names _ rfl).1.1 h
    simp only [List.pairwise_cons] at this
    exact this.1 _ (.head _) (.inl ⟨rfl, by decide +kernel⟩)
  · have := (C114_names _ rfl).1.1 h
    simp only [List.pairwise_cons] at this
    exact this.1 _ (.head _) (.inr (.inl ⟨rfl, rfl, _, .head _, by decide +kernel⟩))

/-- The methods of the example are different. -/
example : ((virtuals exSyms).tail.map (·.1)).Nodup := (C114_names exSyms rfl).1.2 (by
  have n1 : ¬ Clash ⟨txt "e", true, false, []⟩ ⟨txt "s", false, true, [⟨txt "x", txt "E", false⟩, ⟨txt "y", txt "T", true⟩]⟩ := by unfold Clash; decide +kernel
  have n2 : ¬ Clash ⟨txt "e", true, false, []⟩ ⟨txt "t", false, false, []⟩ := by unfold Clash; decide +kernel
  have n3 : ¬ Clash ⟨txt "s", false, true, [⟨txt "x", txt "E", false⟩, ⟨txt "y", txt "T", true⟩]⟩ ⟨txt "t", false, false, []⟩ := by unfold Clash; decide +kernel
  simp [exSyms, n1, n2, n3])

end Verif.VisGen
