import Verif.Out.Props

/-!
# C114: the files of a new visitor
-/

namespace Verif.Out

open Verif.Top (Text txt World)
open Verif.Out.Spec

variable {up low : Nat → List Nat} {o : Opts} {w : World} {d : Disk} {name : Text} {inherit : Bool}

/-- The disk after a run for the parser and a run with `--new-visitor`. -/
def newFiles (up low : Nat → List Nat) (o : Opts) (w : World) (d : Disk) (name : Text) (inherit : Bool) : Disk := (files up o w d).writes (outputVisitor up low o w name inherit)

/-- The new visitor has a name that is fit for macros, its header is none of the others, and none of the user. -/
structure NewName (up low : Nat → List Nat) (o : Opts) (w : World) (name : Text) : Prop where
  fit : ∀ c ∈ upper up name, (letter c || digit c) = true
  header : ∀ h : H, h.suffix ≠ name.flatMap low ++ txt ".h"
  own : visitorFile low o name (txt ".h") ∉ userHeaders w ∧ visitorFile low o name (txt ".cpp") ∉ userHeaders w

theorem suffix_last (h : H) : h.suffix.getLast? = some 104 := by cases h <;> decide +kernel

theorem new_stored (P : Proper up o w d) (N : NewName up low o w name) : Stored up (newFiles up low o w d name inherit) o w := by
  have S := stored P
  have hn : ∀ x, x ≠ visitorFile low o name (txt ".h") → x ≠ visitorFile low o name (txt ".cpp") → newFiles up low o w d name inherit x = files up o w d x := fun x h1 h2 =>
    writes_none (by simp [outputVisitor, h1, h2])
  refine ⟨S.named, fun h hp => ?_, fun x hx => ?_, S.ast, S.ops⟩
  · rw [hn, S.stored h hp]
    · intro e
      refine N.header h (List.append_cancel_left (as := o.language) ?_)
      simpa only [H.file, visitorFile, List.append_assoc] using e
    · intro e
      have : h.suffix = name.flatMap low ++ txt ".cpp" := List.append_cancel_left (as := o.language) (by simpa only [H.file, visitorFile, List.append_assoc] using e)
      have h1 := suffix_last h
      have h2 : (txt ".cpp").getLast? = some 112 := by decide +kernel
      rw [this, List.getLast?_append, h2] at h1
      cases h1
  · rw [hn, S.ext x hx]
    · rintro rfl; exact N.own.1 hx
    · rintro rfl; exact N.own.2 hx

theorem visitorGuard_name (hN : Named up o w) (N : NewName up low o w name) : nameOf (visitorGuard up o name) = some (visitorGuard up o name) := by
  refine nameOf_all (fun c hc => ?_) (fun c hc => ?_) (by simp [visitorGuard, (by decide +kernel : txt "_" = [95])])
  · cases e : upper up o.language with
    | nil =>
      rw [visitorGuard, e, (by decide +kernel : txt "_" = [95])] at hc
      cases hc
      decide
    | cons x xs =>
      rw [visitorGuard, e] at hc
      cases hc
      exact clean_letter (hN.first x (by rw [e]; rfl))
  · simp only [visitorGuard, List.mem_append] at hc
    rcases hc with ((hc | hc) | hc) | hc
    · obtain ⟨x, -, rfl⟩ := List.mem_map.1 hc
      exact clean_ok x
    · revert c; decide +kernel
    · exact N.fit c hc
    · revert c; decide +kernel

theorem guardSuffix_last (h : H) : h.guardSuffix.getLast? = some 68 := by cases h <;> decide +kernel

theorem visitorGuard_ne (hN : Named up o w) {h : H} (hp : present o w h) : h.guard up o ≠ visitorGuard up o name := by
  intro e
  rw [guard_eq hN (present_lexer hp)] at e
  have h1 := congrArg List.getLast? e
  have h2 : (txt "_H").getLast? = some 72 := by decide +kernel
  rw [List.getLast?_append, guardSuffix_last, visitorGuard, List.getLast?_append, h2] at h1
  cases h1

theorem export_needs (S : Stored up (newFiles up low o w d name inherit) o w) {out : List Ev} (h : ∀ l ∈ exportInclude w, Provided (newFiles up low o w d name inherit) o w l out) : ∀ n ∈ exports w, n ∈ out := by
  intro n hn
  unfold exports at hn
  split at hn
  · next e =>
    cases List.mem_singleton.1 hn
    have : Line.quote w.exportMacroHeader ∈ exportInclude w := by simp [exportInclude, e.2]
    exact (h _ this).2 (S.ext _ (by simp [userHeaders]))
  · cases hn

/-- C114 (partial): a translation unit may include the header of a new visitor, also more than once: preprocessing succeeds, the class appears once, after its base class and all else that it needs.  Missing:
names that are not fit for macros or files. -/
theorem C114_header_partial (P : Proper up o w d) (ha : o.ast = true) (N : NewName up low o w name) {defs : List Text} (hd : ∀ h, present o w h → h.guard up o ∉ defs) (hg : visitorGuard up o name ∉ defs)
    {f : Nat} (hf : 7 ≤ f) (n : Nat) :
    newFiles up low o w d name inherit (visitorFile low o name (txt ".h")) = some (visitorHeader up o w name inherit) ∧
    ∃ out defs', run (newFiles up low o w d name inherit) f defs (List.replicate (n + 1) (.quote (visitorFile low o name (txt ".h")))) = some (out, defs') ∧ Sound o w out ∧ body (.newVisitor inherit) ∈ out := by
  have S := new_stored (inherit := inherit) P N
  have hst : newFiles up low o w d name inherit (visitorFile low o name (txt ".h")) = some (visitorHeader up o w name inherit) := by
    refine writes_some ?_ (.head _)
    simp only [outputVisitor, List.map_cons, List.map_nil, List.nodup_cons, List.mem_singleton, List.not_mem_nil, not_false_eq_true, List.nodup_nil, and_true]
    intro e
    exact absurd (List.append_cancel_left e) (by decide +kernel)
  refine ⟨hst, ?_⟩
  obtain ⟨f, rfl⟩ : ∃ f', f = f' + 1 := ⟨f - 1, by omega⟩
  have hgn := visitorGuard_name P.named N
  have hA : present o w .visitor ∧ present o w .defaultVisitor := ⟨.inl (mem_outputHeaders.2 ha), .inl (mem_outputHeaders.2 ha)⟩
  -- the lines before the class
  have hpre : ∀ l ∈ Line.quote ((if inherit then H.defaultVisitor else H.visitor).file o) :: exportInclude w, PreLine (newFiles up low o w d name inherit) o w 5 l := by
    intro l hl
    rcases List.mem_cons.1 hl with rfl | hl
    · cases inherit
      · exact .gen hA.1 (by decide) (by simp)
      · exact .gen hA.2 (by decide) (by simp)
    · exact export_pre S 5 l hl
  have hI : Inv up (newFiles up low o w d name inherit) o w [] (visitorGuard up o name :: defs) [] := Inv.nil _ fun h hp hm => by
    rcases List.mem_cons.1 hm with e | hm
    · exact visitorGuard_ne P.named hp e
    · exact hd h hp hm
  obtain ⟨E, D, h1, h2, h3, h4⟩ := pre_unit S (f := f) (by omega) hpre hI
  rw [List.nil_append] at h2 h3
  have hflat : ∀ l ∈ (Line.quote ((if inherit then H.defaultVisitor else H.visitor).file o) :: exportInclude w) ++ inNs [.body (.newVisitor inherit)], Flat l := by
    intro l hl
    rcases List.mem_append.1 hl with hl | hl
    · exact (hpre l hl).flat
    · rw [inNs_eq] at hl
      obtain ⟨p, -, rfl⟩ := List.mem_map.1 hl
      trivial
  obtain ⟨f, rfl⟩ : ∃ f', f = f' + 1 := ⟨f - 1, by omega⟩
  have first : incl (newFiles up low o w d name inherit) (f + 1) (visitorFile low o name (txt ".h")) defs = some (E ++ (nsParts [.body (.newVisitor inherit)]).map .part, D) := by
    rw [incl, hst]
    show run _ (f + 1) defs (guarded _ _) = _
    rw [run_guarded hflat hgn, if_neg hg, walk_append]
    rw [Nat.add_sub_cancel] at h1
    rw [h1, inNs_eq, Option.bind_some, walk_parts]
    rfl
  have again : incl (newFiles up low o w d name inherit) (f + 1) (visitorFile low o name (txt ".h")) D = some ([], D) := by
    rw [incl, hst]
    show run _ (f + 1) D (guarded _ _) = _
    rw [run_guarded hflat hgn, if_pos (h4 _ (.head _))]
  have rest : ∀ n, walk (incl (newFiles up low o w d name inherit) (f + 1)) D (List.replicate n (.quote (visitorFile low o name (txt ".h")))) = some ([], D) := by
    intro n
    induction n with
    | zero => rfl
    | succ n ih => rw [List.replicate_succ, walk, again]; simp [ih]
  refine ⟨E ++ (nsParts [.body (.newVisitor inherit)]).map .part, D, ?_, ?_, by simp [nsParts]⟩
  · rw [run_flat fun l hl => by cases (List.eq_of_mem_replicate hl); trivial, List.replicate_succ, walk, first]
    simp [rest]
  · have hnew : body (.newVisitor inherit) ∉ E := body_not_mem h2 (fun h => by cases h <;> simp [main]) (by simp)
    have hc := h2.closed
    have hneed : ∀ n ∈ needs o w (.newVisitor inherit), n ∈ E := by
      intro n hn
      rcases List.mem_append.1 hn with hn | hn
      · exact export_needs S (fun l hl => h3 l (.tail _ hl)) n hn
      · cases List.mem_singleton.1 hn
        have := (h3 _ (.head _)).1
        cases inherit
        · exact this .visitor rfl hA.1
        · exact this .defaultVisitor rfl hA.2
    have hgr : Grown o w (E ++ (nsParts [.body (.newVisitor inherit)]).map .part) := h2.grown.append
      ⟨by simp [needsEv], by simp [level, hc], fun n hn => List.mem_append_left _ (hneed n hn), by simp [level, hc], by simp [needsEv], by simp [level, hc], trivial⟩
    refine ⟨fun b => ?_, hgr.ordered, hgr.levels, by simp [nsParts, List.count_append, hc]⟩
    rw [List.count_append]
    by_cases hb : b = .newVisitor inherit
    · subst hb
      rw [List.count_eq_zero.2 hnew]
      simp [nsParts]
    · have := h2.once b
      have h0 : ((nsParts [.body (.newVisitor inherit)]).map Ev.part).count (body b) = 0 := List.count_eq_zero.2 (by simp [nsParts, hb])
      omega

/-- C114 fails for the source of a new visitor: it includes the header of the default visitor and not its own, so the class is not declared where its methods are defined. -/
theorem C114_fails_source (P : Proper up o w d) (ha : o.ast = true) (N : NewName up low o w name) {defs : List Text} (hd : ∀ h, present o w h → h.guard up o ∉ defs) {f : Nat} (hf : 7 ≤ f) :
    ∃ out defs', run (newFiles up low o w d name inherit) f defs (visitorSource o inherit) = some (out, defs') ∧ body (.newVisitorBits inherit) ∈ out ∧ body (.newVisitor inherit) ∉ out ∧ ¬ Sound o w out := by
  have S := new_stored (inherit := inherit) P N
  obtain ⟨f, rfl⟩ : ∃ f', f = f' + 1 := ⟨f - 1, by omega⟩
  have hpre : ∀ l ∈ [Line.quote (H.defaultVisitor.file o)], PreLine (newFiles up low o w d name inherit) o w 5 l := by
    intro l hl
    cases List.mem_singleton.1 hl
    exact .gen (.inl (mem_outputHeaders.2 ha)) (by decide) (by simp)
  obtain ⟨E, D, h1, h2, h3, h4⟩ := pre_unit S (f := f + 1) (by omega) hpre (Inv.nil defs hd)
  rw [List.nil_append] at h2 h3
  have hnew : body (.newVisitor inherit) ∉ E := body_not_mem h2 (fun h => by cases h <;> simp [main]) (by simp)
  refine ⟨E ++ (nsParts [.body (.newVisitorBits inherit)]).map .part, D, ?_, by simp [nsParts], by simp [nsParts, hnew], fun hs => ?_⟩
  · show run _ (f + 1) defs ([Line.quote (H.defaultVisitor.file o)] ++ inNs [.body (.newVisitorBits inherit)]) = _
    rw [run_flat fun l hl => ?_, walk_append]
    · rw [Nat.add_sub_cancel] at h1
      rw [h1, inNs_eq, Option.bind_some, walk_parts]
      rfl
    · rcases List.mem_append.1 hl with hl | hl
      · exact (hpre l hl).flat
      · rw [inNs_eq] at hl
        obtain ⟨p, -, rfl⟩ := List.mem_map.1 hl
        trivial
  · have := hs.ordered (E ++ [.part .enter]) (body (.newVisitorBits inherit)) [.part .leave] (by simp [nsParts]) (body (.newVisitor inherit)) (.head _)
    rcases List.mem_append.1 this with h | h
    · exact hnew h
    · cases List.mem_singleton.1 h

/-! ### Examples -/

theorem exNew : NewName ascii (fun c => [if 65 ≤ c ∧ c ≤ 90 then c + 32 else c]) exO exW (txt "Mine") where
  fit := by decide +kernel
  header := fun h => by cases h <;> decide +kernel
  own := by decide +kernel

example : ∃ out defs', run (newFiles ascii (fun c => [if 65 ≤ c ∧ c ≤ 90 then c + 32 else c]) exO exW empty (txt "Mine") true) 7 []
    (List.replicate 2 (.quote (visitorFile (fun c => [if 65 ≤ c ∧ c ≤ 90 then c + 32 else c]) exO (txt "Mine") (txt ".h")))) = some (out, defs') ∧ Sound exO exW out ∧ body (.newVisitor true) ∈ out :=
  (C114_header_partial exProper rfl exNew exGuards (by simp) (Nat.le_refl 7) 1).2

example : ∃ out defs', run (newFiles ascii (fun c => [if 65 ≤ c ∧ c ≤ 90 then c + 32 else c]) exO exW empty (txt "Mine") false) 7 [] (visitorSource exO false) = some (out, defs') ∧ body (.newVisitorBits false) ∈ out ∧
    body (.newVisitor false) ∉ out ∧ ¬ Sound exO exW out := C114_fails_source exProper rfl exNew exGuards (Nat.le_refl 7)

end Verif.Out
