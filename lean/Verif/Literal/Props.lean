import Verif.Literal.Scan
import Verif.Tables.Props
import Verif.Top.Spec

/-!
# Properties of the texts of tokens: C109
-/

namespace Verif.Literal

open Verif.Top (Text txt)
open Spec

theorem descriptionOf_some {ts : List (Name × Text)} {n : Name} {d : Text} : descriptionOf ts n = some d ↔ Describes ts n d := by
  induction ts with
  | nil => simp [descriptionOf, Describes]
  | cons p ts ih =>
    by_cases h : p.1 = n
    · have e : descriptionOf (p :: ts) n = some p.2 := by simp [descriptionOf, List.find?, h]
      rw [e]
      constructor
      · intro h'
        cases h'
        exact ⟨[], ts, by simp [← h], by simp⟩
      · rintro ⟨a, b, e, ha⟩
        cases a with
        | nil => cases e; rfl
        | cons q a => cases e; exact absurd h (ha _ (.head _))
    · have e : descriptionOf (p :: ts) n = descriptionOf ts n := by simp [descriptionOf, List.find?, h]
      rw [e, ih]
      constructor
      · rintro ⟨a, b, rfl, ha⟩
        exact ⟨p :: a, b, rfl, fun q hq => by rcases List.mem_cons.1 hq with rfl | hq; exacts [h, ha q hq]⟩
      · rintro ⟨a, b, e, ha⟩
        cases a with
        | nil => cases e; exact absurd rfl h
        | cons q a => cases e; exact ⟨a, b, rfl, fun x hx => ha x (.tail _ hx)⟩

theorem descriptionOf_none {ts : List (Name × Text)} {n : Name} : descriptionOf ts n = none ↔ ∀ p ∈ ts, p.1 ≠ n := by
  simp [descriptionOf]

theorem descriptionOf_push (ts : List (Name × Text)) (n m : Name) (d : Text) : descriptionOf (push ts n d) m = (descriptionOf ts m).or (if n = m then some d else none) := by
  unfold push
  split
  · rename_i h
    obtain ⟨p, hp, e⟩ := List.any_eq_true.1 h
    by_cases hm : n = m
    · subst hm
      cases h' : descriptionOf ts n with
      | none => exact absurd (of_decide_eq_true e) (descriptionOf_none.1 h' p hp)
      | some x => rfl
    · rw [if_neg hm]; cases descriptionOf ts m <;> rfl
  · simp only [descriptionOf, List.find?_append]
    cases h : List.find? (fun x => decide (x.1 = m)) ts with
    | some p => rfl
    | none =>
      by_cases hm : n = m
      · simp [hm]
      · simp [hm]

theorem descriptionOf_append (a b : List (Name × Text)) (n : Name) : descriptionOf (a ++ b) n = (descriptionOf a n).or (descriptionOf b n) := by
  simp only [descriptionOf, List.find?_append]
  cases List.find? (fun x => decide (x.1 = n)) a <;> rfl

theorem descriptionOf_foldl (ts decls : List (Name × Text)) (n : Name) : descriptionOf (decls.foldl (fun ts p => push ts p.1 p.2) ts) n = (descriptionOf ts n).or (descriptionOf decls n) := by
  induction decls generalizing ts with
  | nil => rw [List.foldl_nil]; cases descriptionOf ts n <;> rfl
  | cons p decls ih =>
    have : p :: decls = [p] ++ decls := rfl
    rw [List.foldl_cons, ih, descriptionOf_push, this, descriptionOf_append, Option.or_assoc]
    congr 2
    by_cases h : p.1 = n <;> simp [descriptionOf, h]

theorem descriptionOf_described (decls : List (Name × Text)) (n : Name) : descriptionOf (described decls) n = descriptionOf (decls ++ [(Tables.eof, txt "end of file")]) n := by
  rw [described, descriptionOf_push, descriptionOf_foldl, descriptionOf_append]
  have : descriptionOf [] n = none := rfl
  rw [this]
  congr 1
  by_cases h : Tables.eof = n <;> simp [descriptionOf, h]

theorem lookup_eq_some {l : List (Name × Nat)} (hn : (l.map (·.1)).Nodup) {n : Name} {i : Nat} : l.lookup n = some i ↔ (n, i) ∈ l := by
  induction l with
  | nil => simp
  | cons p l ih =>
    obtain ⟨m, j⟩ := p
    simp only [List.map_cons, List.nodup_cons] at hn
    by_cases h : n = m
    · subst h
      rw [List.lookup_cons_self]
      constructor
      · intro e; cases e; exact .head _
      · intro e
        rcases List.mem_cons.1 e with e | e
        · cases e; rfl
        · exact absurd (List.mem_map.2 ⟨_, e, rfl⟩) hn.1
    · rw [List.lookup_cons, beq_false_of_ne h, ih hn.2]
      constructor
      · exact .tail _
      · intro e
        rcases List.mem_cons.1 e with e | e
        · cases e; exact absurd rfl h
        · exact e

/-- C109: `tokenText` of the number of a token is the description given first for it, that of `EOF` is "end of file" unless declared otherwise, and for numbers of no token it is "unknown token" - whatever characters the
descriptions have, if they have no line ends. -/
theorem C109_texts (le : Name → Name → Bool) (decls : List (Name × Text)) (hd : ∀ p ∈ decls, OneLine p.2) (i : Nat) :
    (∀ n d, (n, i) ∈ Tables.tokenType (Tables.terminals le (decls.map (·.1))) → Describes (decls ++ [(Tables.eof, txt "end of file")]) n d → Denotes (tokenText le decls i) d) ∧
    ((∀ n, (n, i) ∉ Tables.tokenType (Tables.terminals le (decls.map (·.1)))) → Denotes (tokenText le decls i) (txt "unknown token")) := by
  obtain ⟨c1, c2, c3, c4⟩ := Tables.C44_numbering le (decls.map (·.1))
  constructor
  · intro n d hn hD
    have hf : (cases le decls).find? (fun c => (Tables.tokenType (Tables.terminals le (decls.map (·.1)))).lookup c.1 == some i) = some (n, escape d) := by
      cases h : (cases le decls).find? (fun c => (Tables.tokenType (Tables.terminals le (decls.map (·.1)))).lookup c.1 == some i) with
      | none =>
        exfalso
        have hm : n ∈ Tables.terminals le (decls.map (·.1)) := by
          rw [← Tables.tokens_names 1001 (Tables.terminals le (decls.map (·.1)))]
          exact List.mem_map.2 ⟨_, hn, rfl⟩
        have := List.find?_eq_none.1 h _ (List.mem_map.2 ⟨n, hm, rfl⟩)
        simp only [(lookup_eq_some c2).2 hn, BEq.rfl, not_true] at this
      | some c =>
        have h1 := List.find?_some h
        simp only [beq_iff_eq] at h1
        have h2 := c3 _ _ _ ((lookup_eq_some c2).1 h1) hn
        obtain ⟨m, -, rfl⟩ := List.mem_map.1 (List.mem_of_find?_eq_some h)
        simp only at h2
        subst h2
        rw [descriptionOf_described, descriptionOf_some.2 hD]
        rfl
    rw [tokenText, hf]
    refine escape_denotes ?_
    obtain ⟨a, b, e, -⟩ := hD
    have : (n, d) ∈ decls ++ [(Tables.eof, txt "end of file")] := by rw [e]; simp
    rcases List.mem_append.1 this with h | h
    · exact hd _ h
    · cases List.mem_singleton.1 h
      unfold OneLine
      decide
  · intro hn
    have hf : (cases le decls).find? (fun c => (Tables.tokenType (Tables.terminals le (decls.map (·.1)))).lookup c.1 == some i) = none := by
      refine List.find?_eq_none.2 fun c _ h => ?_
      simp only [beq_iff_eq] at h
      exact hn _ ((lookup_eq_some c2).1 h)
    rw [tokenText, hf]
    have : default = escape (txt "unknown token") := by decide
    simp only [this]
    exact escape_denotes (by unfold OneLine; decide)

/-- Text with neither quotes nor backslashes nor line ends denotes itself, and no other text does. -/
theorem denotes_self {d : Text} : Denotes d d ↔ ∀ c ∈ d, c ≠ 34 ∧ c ≠ 92 ∧ c ≠ 10 ∧ c ≠ 13 := by
  constructor
  · intro h
    rcases (h []).1.length with h' | ⟨-, h'⟩
    · simp at h'
    · exact h'
  · intro h
    refine denotes_of fun r => ?_
    induction d with
    | nil => exact .close
    | cons c d ih =>
      obtain ⟨h1, h2, h3, h4⟩ := h c (.head _)
      exact .plain h1 h2 h3 h4 (ih fun c hc => h c (.tail _ hc))

theorem message_eq {decls : List (Name × Text)} {n : Name} {d : Text} (hD : Describes decls n d) (own : Text) : message decls n own = d := by
  rw [message, used, descriptionOf_foldl]
  have : descriptionOf [] n = none := rfl
  rw [this, descriptionOf_some.2 hD]
  rfl

/-- C109 (partial): the message about a missing token has the description of the token exactly if there is neither a quote nor a backslash in it.  Missing: the other descriptions. -/
theorem C109_message_partial {decls : List (Name × Text)} {n : Name} {d : Text} (hD : Describes decls n d) (own : Text) (h1 : OneLine d) : Denotes (message decls n own) d ↔ 34 ∉ d ∧ 92 ∉ d := by
  rw [message_eq hD, denotes_self]
  exact ⟨fun h => ⟨fun e => (h _ e).1 rfl, fun e => (h _ e).2.1 rfl⟩, fun h c hc => ⟨fun e => h.1 (e ▸ hc), fun e => h.2 (e ▸ hc), h1 c hc⟩⟩

/-- C109: the message about a token that is not declared has the text given to the token where it is used. -/
theorem C109_undeclared {decls : List (Name × Text)} {n : Name} (h : ∀ p ∈ decls, p.1 ≠ n) (own : Text) : message decls n own = own := by
  rw [message, used, descriptionOf_foldl, descriptionOf_none.2 h]
  rfl

example : message [("A".toList, txt "x")] "B".toList (txt "b") = txt "b" := C109_undeclared (by simp) _

/-- C109 fails: for a description with a backslash, the message and `tokenText` are different texts, whatever the backslash is for. -/
theorem C109_fails_message {le : Name → Name → Bool} {decls : List (Name × Text)} (hd : ∀ p ∈ decls, OneLine p.2) {n : Name} {i : Nat} (hn : (n, i) ∈ Tables.tokenType (Tables.terminals le (decls.map (·.1))))
    {d : Text} (hD : Describes decls n d) (hb : 92 ∈ d) (own : Text) {v : Text} (hm : Denotes (message decls n own) v) {v' : Text} (ht : Denotes (tokenText le decls i) v') : v ≠ v' := by
  rintro rfl
  have h1 : Denotes (tokenText le decls i) d := (C109_texts le decls hd i).1 n d hn (by
    obtain ⟨a, b, e, ha⟩ := hD
    exact ⟨a, b ++ [(Tables.eof, txt "end of file")], by rw [e]; simp, ha⟩)
  obtain ⟨rfl, -⟩ := (h1 []).2 _ _ (ht []).1
  obtain ⟨a, b, e, ha⟩ := hD
  exact ((C109_message_partial ⟨a, b, e, ha⟩ own (hd (n, v) (by rw [e]; simp))).1 hm).2 hb

/-- C109 fails: if a description begins with an escaped backslash and a quote, which the scanner lets pass (C70), the literal ends there and the rest of the description is code. -/
theorem C109_fails_code {decls : List (Name × Text)} {n : Name} {d : Text} (hD : Describes decls n (92 :: 92 :: 34 :: d)) (own r : Text) : Lit (message decls n own ++ 34 :: r) [92] (d ++ 34 :: r) := by
  rw [message_eq hD]
  exact .simple (by decide) .close

/-! ## From the bytes of the file -/

theorem quoted_line {x : Text} (h : GLex.Quoted x) : OneLine x := fun c hc => by
  have := h.1 c hc
  simp [GLex.isNl] at this
  omega

theorem cap_line {x : Text} (h : ∀ c ∈ x, GLex.isCap c = true) : OneLine x := fun c hc => by
  have := h c hc
  simp [GLex.isCap, GLex.isUpper] at this
  omega

theorem token_fine {ts : List Top.T} {p : Text × Text} (h : Top.Token ts p) (hf : ∀ t ∈ ts, Fine t.1 t.2) : OneLine p.2 := by
  cases h with
  | plain => exact cap_line ((hf _ (.head _)).2 rfl)
  | described => exact quoted_line ((hf _ (.tail _ (.tail _ (.head _)))).1 rfl)

theorem tokens_fine {ts : List Top.T} {l : List (Text × Text)} (h : Top.Tokens ts l) (hf : ∀ t ∈ ts, Fine t.1 t.2) : ∀ p ∈ l, OneLine p.2 := by
  induction h with
  | one h => intro p hp; cases List.mem_singleton.1 hp; exact token_fine h hf
  | more _ _ h ih =>
    intro p hp
    rcases List.mem_append.1 hp with hp | hp
    · exact ih (fun t ht => hf t (List.mem_append_left _ ht)) p hp
    · cases List.mem_singleton.1 hp
      exact token_fine h fun t ht => hf t (List.mem_append_right _ (.tail _ ht))

theorem declares_fine {ts : List Top.T} {d : Top.Decl} (h : Top.Declares ts d) (hf : ∀ t ∈ ts, Fine t.1 t.2) : ∀ p ∈ Top.Spec.tokens [d], OneLine p.2 := by
  cases h with
  | tokens _ h _ =>
    intro p hp
    simp only [Top.Spec.tokens, List.flatMap_cons, List.flatMap_nil, List.append_nil] at hp
    exact tokens_fine h (fun t ht => hf t (.tail _ (List.mem_append_left _ ht))) p hp
  | _ => intro p hp; simp [Top.Spec.tokens] at hp

theorem declaresAll_fine {ts : List Top.T} {ds : List Top.Decl} (h : Top.DeclaresAll ts ds) (hf : ∀ t ∈ ts, Fine t.1 t.2) : ∀ p ∈ Top.Spec.tokens ds, OneLine p.2 := by
  induction h with
  | one h => exact declares_fine h hf
  | more _ h ih =>
    intro p hp
    have e : ∀ a b, Top.Spec.tokens (a ++ b) = Top.Spec.tokens a ++ Top.Spec.tokens b := fun a b => List.flatMap_append
    rw [e] at hp
    rcases List.mem_append.1 hp with hp | hp
    · exact ih (fun t ht => hf t (List.mem_append_left _ ht)) p hp
    · exact declares_fine h (fun t ht => hf t (List.mem_append_right _ ht)) p hp

/-- The names of a file as names of enumerators. -/
def named (l : List (Text × Text)) : List (Name × Text) := l.map fun p => (p.1.map Char.ofNat, p.2)

/-- C109: in a file that has been read no description has a line end, so `C109_texts` holds for all files. -/
theorem C109_file {E : GLex.Env} {f : Nat} {s : List Nat} {ts : List Top.T} {r : GLex.Step} (hs : GLex.scan E f {} s = some (ts, r)) {F : Top.File} (hF : Top.System ts F) (le : Name → Name → Bool) (i : Nat) :
    (∀ n d, (n, i) ∈ Tables.tokenType (Tables.terminals le ((named (Top.Spec.tokens F.decls)).map (·.1))) →
      Describes (named (Top.Spec.tokens F.decls) ++ [(Tables.eof, txt "end of file")]) n d → Denotes (tokenText le (named (Top.Spec.tokens F.decls)) i) d) ∧
    ((∀ n, (n, i) ∉ Tables.tokenType (Tables.terminals le ((named (Top.Spec.tokens F.decls)).map (·.1)))) → Denotes (tokenText le (named (Top.Spec.tokens F.decls)) i) (txt "unknown token")) := by
  refine C109_texts le _ (fun p hp => ?_) i
  obtain ⟨q, hq, rfl⟩ := List.mem_map.1 hp
  have hf := scan_fine start_kept hs
  cases hF with
  | mk _ hd _ _ => exact declaresAll_fine hd (fun t ht => hf t (List.mem_append_left _ (List.mem_append_left _ (List.mem_append_right _ ht)))) q hq

/-! ## Examples -/

/-- `ID("name"), QUOTE("\""), ID("other")`. -/
def exDecls : List (Name × Text) := [("ID".toList, txt "name"), ("QUOTE".toList, txt "\\\""), ("ID".toList, txt "other")]

def exLe (a b : Name) : Bool := decide (a ≤ b)

theorem exLines : ∀ p ∈ exDecls, OneLine p.2 := by unfold OneLine; decide

theorem exNumber : ("QUOTE".toList, 1002) ∈ Tables.tokenType (Tables.terminals exLe (exDecls.map (·.1))) := by decide +kernel

theorem exDescribes : Describes exDecls "QUOTE".toList (txt "\\\"") := ⟨[("ID".toList, txt "name")], [("ID".toList, txt "other")], rfl, by decide⟩

example : Denotes (tokenText exLe exDecls 1002) (txt "\\\"") := (C109_texts exLe exDecls exLines 1002).1 _ _ exNumber (by
  obtain ⟨a, b, e, ha⟩ := exDescribes
  exact ⟨a, b ++ [(Tables.eof, txt "end of file")], by rw [e]; simp, ha⟩)

example : tokenText exLe exDecls 1002 = txt "\\\\\\\"" := by decide +kernel

example : Denotes (tokenText exLe exDecls 7) (txt "unknown token") := (C109_texts exLe exDecls exLines 7).2 fun n h => by
  have : ∀ p ∈ Tables.tokenType (Tables.terminals exLe (exDecls.map (·.1))), p.2 ≠ 7 := by decide +kernel
  exact this _ h rfl

/-- The message has a quote only. -/
theorem exMessage : Denotes (message exDecls "QUOTE".toList []) (txt "\"") := by
  rw [message_eq exDescribes]
  exact denotes_of fun r => .simple (by decide) .close

example {v : Text} (h : Denotes (tokenText exLe exDecls 1002) v) : txt "\"" ≠ v := C109_fails_message exLines exNumber exDescribes (by decide) [] exMessage h

example : Denotes (message exDecls "ID".toList []) (txt "name") :=
  (C109_message_partial ⟨[], [("QUOTE".toList, txt "\\\""), ("ID".toList, txt "other")], rfl, by simp⟩ [] (exLines _ (.head _))).2 (by decide)

end Verif.Literal
