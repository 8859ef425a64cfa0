import Verif.Visit.Sane

/-!
# Visitors: lemmas
-/

namespace Verif.Visit

open Verif.Vars

/-! ## Members -/

theorem look_nil_of_not {n : String} {b : Bool} : ∀ {vars : Store}, (∀ v, (n, b, v) ∉ vars) → look vars n b = []
  | [], _ => rfl
  | (m, c, v) :: t, h => by
    unfold look
    by_cases he : m = n ∧ c = b
    · obtain ⟨rfl, rfl⟩ := he
      exact absurd List.mem_cons_self (h v)
    · rw [if_neg he]
      exact look_nil_of_not fun v hv => h v (List.mem_cons_of_mem _ hv)

theorem look_mem {n : String} {b : Bool} : ∀ {vars : Store}, look vars n b ≠ [] → (n, b, look vars n b) ∈ vars
  | [], h => absurd rfl h
  | (m, c, v) :: t, h => by
    unfold look at h ⊢
    by_cases he : m = n ∧ c = b
    · obtain ⟨rfl, rfl⟩ := he
      simp
    · rw [if_neg he] at h ⊢
      exact List.mem_cons_of_mem _ (look_mem h)

theorem look_once {n : String} {b : Bool} {vs : List Tree} : ∀ {vars : Store}, Once vars → (n, b, vs) ∈ vars → look vars n b = vs
  | [], _, h => by simp at h
  | (m, c, v) :: t, ho, h => by
    unfold look
    have ho' := List.pairwise_cons.1 ho
    rcases List.mem_cons.1 h with h | h
    · cases h; rw [if_pos ⟨rfl, rfl⟩]
    · rw [if_neg fun he => ho'.1 _ h ⟨he.1, he.2⟩]
      exact look_once ho'.2 h

theorem stepLoop_mem : ∀ {l : List Decl} {names : List String} {m : Decl}, m ∈ stepLoop names l → m ∈ l ∧ m.temp = false ∧ m.kind = .node ∧ m.name ∉ names
  | [], _, _, h => by simp [stepLoop] at h
  | d :: t, names, m, h => by
    unfold stepLoop at h
    split at h
    · rename_i hd
      rcases List.mem_cons.1 h with rfl | h
      · exact ⟨List.mem_cons_self, hd⟩
      · have := stepLoop_mem h
        exact ⟨List.mem_cons_of_mem _ this.1, this.2.1, this.2.2.1, fun hn => this.2.2.2 (List.mem_cons_of_mem _ hn)⟩
    · have := stepLoop_mem h
      exact ⟨List.mem_cons_of_mem _ this.1, this.2⟩

theorem stepLoop_nodup : ∀ {l : List Decl} {names : List String}, ((stepLoop names l).map (·.name)).Nodup
  | [], _ => by simp [stepLoop]
  | d :: t, names => by
    unfold stepLoop
    split
    · rw [List.map_cons, List.nodup_cons]
      refine ⟨fun h => ?_, stepLoop_nodup⟩
      obtain ⟨m, hm, he⟩ := List.mem_map.1 h
      exact (stepLoop_mem hm).2.2.2 (by rw [he]; exact List.mem_cons_self)
    · exact stepLoop_nodup

theorem stepLoop_has : ∀ {l : List Decl} {names : List String} {d : Decl}, d ∈ l → d.temp = false → d.kind = .node →
    d.name ∈ names ∨ ∃ m ∈ stepLoop names l, m.name = d.name
  | [], _, _, h, _, _ => by simp at h
  | e :: t, names, d, h, ht, hk => by
    unfold stepLoop
    by_cases he : e.temp = false ∧ e.kind = .node ∧ e.name ∉ names
    · rw [if_pos he]
      rcases List.mem_cons.1 h with rfl | h
      · exact Or.inr ⟨d, List.mem_cons_self, rfl⟩
      · rcases stepLoop_has (names := e.name :: names) h ht hk with h | ⟨m, hm, hn⟩
        · rcases List.mem_cons.1 h with h | h
          · exact Or.inr ⟨e, List.mem_cons_self, h.symm⟩
          · exact Or.inl h
        · exact Or.inr ⟨m, List.mem_cons_of_mem _ hm, hn⟩
    · rw [if_neg he]
      rcases List.mem_cons.1 h with rfl | h
      · by_cases hn : d.name ∈ names
        · exact Or.inl hn
        · exact absurd ⟨ht, hk, hn⟩ he
      · exact stepLoop_has h ht hk

theorem allVisited_mem {G : Grammar} {f : Nat} : ∀ {rs : List Rule} {v : List Decl}, allVisited G f rs = some v →
    ∀ d, d ∈ v ↔ ∃ r ∈ rs, Has G r d
  | [], v, h, d => by
    simp only [allVisited, Option.some.injEq] at h; subst h; simp
  | r :: t, v, h, d => by
    simp only [allVisited, Option.bind_eq_some_iff, Option.map_eq_some_iff] at h
    obtain ⟨a, ha, w, hw, rfl⟩ := h
    rw [List.mem_append, ← has_iff ha, allVisited_mem hw]
    simp

/-! ## Visits -/

/-- Parents first (and no node twice). -/
def Before (p q : Path) : Prop := ¬ q <+: p

theorem pairwise_map_cons {x : String × Bool × Nat} {l : List Path} (h : l.Pairwise Before) : (l.map (x :: ·)).Pairwise Before := by
  rw [List.pairwise_map]
  refine h.imp ?_
  intro p q hpq hp
  exact hpq ((List.cons_prefix_cons.1 hp).2)

theorem nodup_of_before {l : List Path} (h : l.Pairwise Before) : l.Nodup := by
  refine List.Pairwise.imp ?_ h
  rintro p q hpq rfl
  exact hpq (List.prefix_refl _)

/-- What a visit of `t` gives. -/
structure Visits (G : Grammar) (d : Nat) (t : Tree) (l : List Path) : Prop where
  order : l.Pairwise Before
  mem : ∀ p, p ∈ l ↔ ∃ u, At t p u

theorem visitList_some {G : Grammar} {d : Nat} {m : Decl} : ∀ {ts : List Tree} {k : Nat},
    (∀ t ∈ ts, ∃ F l, (∀ f, F ≤ f → visit G d f t = some l) ∧ Visits G d t l) →
    ∃ F l, (∀ f, F ≤ f → visitList G d f m k ts = some l) ∧ l.Pairwise Before ∧
      ∀ p, p ∈ l ↔ ∃ j c q u, ts[j]? = some c ∧ p = (m.name, m.seq, k + j) :: q ∧ At c q u
  | [], k, _ => by
    refine ⟨1, [], ?_, List.Pairwise.nil, ?_⟩
    · intro f hf
      obtain ⟨f, rfl⟩ : ∃ g, f = g + 1 := ⟨f - 1, by omega⟩
      simp [visitList]
    · intro p
      simp
  | t :: ts, k, h => by
    obtain ⟨F1, a, ha, hv⟩ := h t List.mem_cons_self
    obtain ⟨F2, b, hb, ho, hm⟩ := visitList_some (k := k + 1) (ts := ts) (m := m) fun t' ht' => h t' (List.mem_cons_of_mem _ ht')
    refine ⟨max F1 F2 + 1, a.map ((m.name, m.seq, k) :: ·) ++ b, ?_, ?_, ?_⟩
    · intro f hf
      obtain ⟨f, rfl⟩ : ∃ g, f = g + 1 := ⟨f - 1, by omega⟩
      simp only [visitList]
      rw [ha f (by omega), hb f (by omega)]
      rfl
    · rw [List.pairwise_append]
      refine ⟨pairwise_map_cons hv.order, ho, ?_⟩
      intro p hp q hq hpre
      obtain ⟨p', _, rfl⟩ := List.mem_map.1 hp
      obtain ⟨j, c, q', u, _, rfl, _⟩ := (hm q).1 hq
      have := (List.cons_prefix_cons.1 hpre).1
      simp only [Prod.mk.injEq] at this
      omega
    · intro p
      rw [List.mem_append, hm, List.mem_map]
      constructor
      · rintro (⟨q, hq, rfl⟩ | ⟨j, c, q, u, hc, rfl, hu⟩)
        · obtain ⟨u, hu⟩ := (hv.mem q).1 hq
          exact ⟨0, t, q, u, rfl, rfl, hu⟩
        · exact ⟨j + 1, c, q, u, hc, by rw [show k + 1 + j = k + (j + 1) by omega], hu⟩
      · rintro ⟨j, c, q, u, hc, rfl, hu⟩
        cases j with
        | zero =>
          simp only [List.getElem?_cons_zero, Option.some.injEq] at hc
          subst hc
          exact Or.inl ⟨q, (hv.mem q).2 ⟨u, hu⟩, rfl⟩
        | succ j =>
          exact Or.inr ⟨j, c, q, u, hc, by rw [show k + 1 + j = k + (j + 1) by omega], hu⟩

theorem visitMembers_some {G : Grammar} {d : Nat} {vars : Store} : ∀ {ms : List Decl}, (ms.map (·.name)).Nodup →
    (∀ m ∈ ms, ∀ t ∈ look vars m.name m.seq, ∃ F l, (∀ f, F ≤ f → visit G d f t = some l) ∧ Visits G d t l) →
    ∃ F l, (∀ f, F ≤ f → visitMembers G d f vars ms = some l) ∧ l.Pairwise Before ∧
      ∀ p, p ∈ l ↔ ∃ m ∈ ms, ∃ j c q u, (look vars m.name m.seq)[j]? = some c ∧ p = (m.name, m.seq, j) :: q ∧ At c q u
  | [], _, _ => by
    refine ⟨1, [], ?_, List.Pairwise.nil, ?_⟩
    · intro f hf
      obtain ⟨f, rfl⟩ : ∃ g, f = g + 1 := ⟨f - 1, by omega⟩
      simp [visitMembers]
    · intro p
      simp
  | m :: ms, hn, h => by
    rw [List.map_cons, List.nodup_cons] at hn
    obtain ⟨F1, a, ha, hoa, hma⟩ := visitList_some (m := m) (k := 0) (h m List.mem_cons_self)
    obtain ⟨F2, b, hb, hob, hmb⟩ := visitMembers_some hn.2 fun m' hm' => h m' (List.mem_cons_of_mem _ hm')
    refine ⟨max F1 F2 + 1, a ++ b, ?_, ?_, ?_⟩
    · intro f hf
      obtain ⟨f, rfl⟩ : ∃ g, f = g + 1 := ⟨f - 1, by omega⟩
      simp only [visitMembers]
      rw [ha f (by omega), hb f (by omega)]
      rfl
    · rw [List.pairwise_append]
      refine ⟨hoa, hob, ?_⟩
      intro p hp q hq hpre
      obtain ⟨j, c, p', u, _, rfl, _⟩ := (hma p).1 hp
      obtain ⟨m', hm', j', c', q', u', _, rfl, _⟩ := (hmb q).1 hq
      have := (List.cons_prefix_cons.1 hpre).1
      simp only [Prod.mk.injEq] at this
      exact hn.1 (List.mem_map.2 ⟨m', hm', this.1⟩)
    · intro p
      rw [List.mem_append, hma, hmb]
      constructor
      · rintro (⟨j, c, q, u, hc, rfl, hu⟩ | ⟨m', hm', h⟩)
        · exact ⟨m, List.mem_cons_self, j, c, q, u, hc, by rw [Nat.zero_add], hu⟩
        · exact ⟨m', List.mem_cons_of_mem _ hm', h⟩
      · rintro ⟨m', hm', j, c, q, u, hc, rfl, hu⟩
        rcases List.mem_cons.1 hm' with rfl | hm'
        · exact Or.inl ⟨j, c, q, u, hc, by rw [Nat.zero_add], hu⟩
        · exact Or.inr ⟨m', hm', j, c, q, u, hc, rfl, hu⟩

theorem size_member {s : Nat} {a b : Int} {vars : Store} {n : String} {seq : Bool} {vs : List Tree} {t : Tree} (h : (n, seq, vs) ∈ vars) (ht : t ∈ vs) :
    sizeOf t < sizeOf (Tree.node s a b vars) := by
  have h1 := List.sizeOf_lt_of_mem h
  have h2 := List.sizeOf_lt_of_mem ht
  simp at h1 ⊢
  omega

/-- The default visitor, on a well typed tree. -/
theorem visit_some {G : Grammar} {d : Nat} (hg : ∀ s, Agree G s) (hs : ∀ s, ∃ ms, steps G d s = some ms) : ∀ (n : Nat) {t : Tree} {s : Nat} {x y : Int} {vars : Store},
    sizeOf t ≤ n → t = .node s x y vars → Sane G t → ∃ F l, (∀ f, F ≤ f → visit G d f t = some l) ∧ Visits G d t l := by
  intro n
  induction n with
  | zero =>
    intro t s x y vars hn _ _
    cases t <;> simp at hn
  | succ n ih =>
    intro t s x y vars hn ht hb
    subst ht
    cases hb with
    | node hon hfit hsane =>
      obtain ⟨ms, hms⟩ := hs s
      have hst : ∃ v, allVisited G d (G.rules s) = some v ∧ ms = stepLoop [] v := by
        simp only [steps, Option.map_eq_some_iff] at hms
        obtain ⟨v, hv, he⟩ := hms
        exact ⟨v, hv, he.symm⟩
      obtain ⟨v, hv, rfl⟩ := hst
      have hsub : ∀ m ∈ stepLoop [] v, ∀ t ∈ look vars m.name m.seq, ∃ F l, (∀ f, F ≤ f → visit G d f t = some l) ∧ Visits G d t l := by
        intro m hmm t ht
        have hin := look_mem (List.ne_nil_of_mem ht)
        have hsz := size_member (s := s) (a := x) (b := y) hin ht
        obtain ⟨e, ⟨r, hr, han⟩, hte, hne, hse, hkind⟩ := hfit _ _ _ _ hin ht
        rcases hkind with ⟨hke, _⟩ | ⟨_, s', x', y', vars', rfl⟩
        · have hm' := stepLoop_mem hmm
          obtain ⟨q, hq, hqm⟩ := (allVisited_mem hv m).1 hm'.1
          have := hg s r hr q hq e m (Or.inr (Or.inl han)) hqm hte hm'.2.1 hne
          rw [this.2.1, hm'.2.2.1] at hke
          cases hke
        · exact ih (by omega) rfl (hsane _ _ _ _ hin ht)
      obtain ⟨F, l, hF, ho, hl⟩ := visitMembers_some stepLoop_nodup hsub
      refine ⟨F + 1, [] :: l, ?_, ⟨?_, ?_⟩⟩
      · intro f hf
        obtain ⟨f, rfl⟩ : ∃ g, f = g + 1 := ⟨f - 1, by omega⟩
        simp only [visit]
        rw [hms, Option.bind_some, hF f (by omega)]
        rfl
      · rw [List.pairwise_cons]
        refine ⟨fun q hq hpre => ?_, ho⟩
        obtain ⟨m, _, j, c, q', u, _, rfl, _⟩ := (hl q).1 hq
        simp at hpre
      · intro p
        rw [List.mem_cons, hl]
        constructor
        · rintro (rfl | ⟨m, hmm, k, c, q, u, hc, rfl, hu⟩)
          · exact ⟨_, .here⟩
          · have hne : look vars m.name m.seq ≠ [] := by rintro he; rw [he] at hc; simp at hc
            exact ⟨u, .member (look_mem hne) hc hu⟩
        · rintro ⟨u, hu⟩
          cases hu with
          | here => exact Or.inl rfl
          | @member _ _ _ _ n seq vs k c p _ hin hc hu =>
            right
            obtain ⟨e, ⟨r, hr, han⟩, hte, hne, hse, hkind⟩ := hfit _ _ _ _ hin (List.mem_of_getElem? hc)
            rcases hkind with ⟨_, z, rfl⟩ | ⟨hke, _⟩
            · cases hu
            · have hev : e ∈ v := (allVisited_mem hv e).2 ⟨r, hr, Or.inr (Or.inl han)⟩
              rcases stepLoop_has (names := []) hev hte hke with h | ⟨m, hmm, hmn⟩
              · simp at h
              · have hm' := stepLoop_mem hmm
                obtain ⟨q, hq, hqm⟩ := (allVisited_mem hv m).1 hm'.1
                have hsame := hg s r hr q hq e m (Or.inr (Or.inl han)) hqm hte hm'.2.1 hmn.symm
                refine ⟨m, hmm, k, c, p, u, ?_, ?_, hu⟩
                · rw [hmn, hne, ← hsame.1, hse, look_once hon hin]
                  exact hc
                · rw [hmn, hne, ← hsame.1, hse]

/-! ## The debug visitor -/

def own (ls : List Line) : List Line := ls.filter fun l => l.label.isNone
def named (ls : List Line) : List Line := ls.filter fun l => l.label.isSome

theorem own_append (a b : List Line) : own (a ++ b) = own a ++ own b := List.filter_append ..
theorem named_append (a b : List Line) : named (a ++ b) = named a ++ named b := List.filter_append ..

theorem memberLines_named {ind : Int} {pre : Path} {m : Decl} : ∀ {k : Nat} {ts : List Tree}, named (memberLines ind pre m k ts) = memberLines ind pre m k ts ∧
    own (memberLines ind pre m k ts) = [] ∧ ∀ l ∈ memberLines ind pre m k ts, l.indent = ind ∧ ∃ x, l.path = pre ++ [x] ∧ l.label = some (label x)
  | k, [] => by simp [memberLines, named, own]
  | k, t :: ts => by
    obtain ⟨h1, h2, h3⟩ := memberLines_named (ind := ind) (pre := pre) (m := m) (k := k + 1) (ts := ts)
    refine ⟨?_, ?_, ?_⟩
    · simp only [memberLines, named, List.filter_cons, Option.isSome_some, if_true]
      rw [← h1]
      simp [named]
    · simp only [memberLines, own, List.filter_cons, Option.isNone_some]
      exact h2
    · intro l hl
      simp only [memberLines, List.mem_cons] at hl
      rcases hl with rfl | hl
      · exact ⟨rfl, (m.name, m.seq, k), rfl, rfl⟩
      · exact h3 l hl

/-- Each labelled line: one node below its parent. -/
def Fits (ind : Int) (pre : Path) (l : Line) : Prop := ∃ p x, l.path = pre ++ p ++ [x] ∧ l.label = some (label x) ∧ l.indent = ind + p.length

theorem debug_some (G : Grammar) (d : Nat) : ∀ f : Nat,
    (∀ t l pre ind, visit G d f t = some l → ∃ ls, debug G d f pre ind t = some (ls, ind) ∧
      own ls = l.map (fun p => ⟨ind + p.length, none, pre ++ p⟩) ∧ ((named ls).map (·.path)).Perm (l.tail.map (pre ++ ·)) ∧ ∀ x ∈ named ls, Fits ind pre x) ∧
    (∀ vars ms l pre ind, visitMembers G d f vars ms = some l → ∃ ls, debugMembers G d f pre ind vars ms = some (ls, ind) ∧
      own ls = l.map (fun p => ⟨ind - 1 + p.length, none, pre ++ p⟩) ∧
      ((ms.flatMap (fun m => memberLines (ind - 1) pre m 0 (look vars m.name m.seq)) ++ named ls).map (·.path)).Perm (l.map (pre ++ ·)) ∧
      ∀ x ∈ named ls, Fits (ind - 1) pre x) ∧
    (∀ m k ts l pre ind, visitList G d f m k ts = some l → ∃ ls, debugList G d f pre ind m k ts = some (ls, ind) ∧
      own ls = l.map (fun p => ⟨ind - 1 + p.length, none, pre ++ p⟩) ∧
      ((memberLines (ind - 1) pre m k ts ++ named ls).map (·.path)).Perm (l.map (pre ++ ·)) ∧ ∀ x ∈ named ls, Fits (ind - 1) pre x) := by
  intro f
  induction f with
  | zero => refine ⟨?_, ?_, ?_⟩ <;> intros <;> simp_all [visit, visitMembers, visitList]
  | succ f ih =>
    obtain ⟨ih1, ih2, ih3⟩ := ih
    refine ⟨?_, ?_, ?_⟩
    · intro t l pre ind h
      cases t with
      | tok _ => simp [visit] at h
      | node s a b vars =>
        simp only [visit, Option.bind_eq_some_iff, Option.map_eq_some_iff] at h
        obtain ⟨ms, hms, l', hl', rfl⟩ := h
        obtain ⟨ls, hls, ho, hp, hf⟩ := ih2 vars ms l' pre (ind + 1) hl'
        rw [show ind + 1 - 1 = ind by omega] at ho hp hf
        have hml : ∀ (ms : List Decl), named (ms.flatMap fun m => memberLines ind pre m 0 (look vars m.name m.seq)) =
            ms.flatMap (fun m => memberLines ind pre m 0 (look vars m.name m.seq)) ∧
            own (ms.flatMap fun m => memberLines ind pre m 0 (look vars m.name m.seq)) = [] := by
          intro ms
          induction ms with
          | nil => exact ⟨rfl, rfl⟩
          | cons m ms ihm =>
            simp only [List.flatMap_cons]
            rw [named_append, own_append, ihm.1, ihm.2, memberLines_named.1, memberLines_named.2.1]
            exact ⟨rfl, rfl⟩
        have e1 : ∀ X : List Line, own (⟨ind, none, pre⟩ :: X) = ⟨ind, none, pre⟩ :: own X := fun X => by simp [own]
        have e2 : ∀ X : List Line, named (⟨ind, none, pre⟩ :: X) = named X := fun X => by simp [named]
        refine ⟨⟨ind, none, pre⟩ :: ms.flatMap (fun m => memberLines ind pre m 0 (look vars m.name m.seq)) ++ ls, ?_, ?_, ?_, ?_⟩
        · simp only [debug]
          rw [hms, Option.bind_some, hls]
          simp only [Option.map_some]
          rw [show ind + 1 - 1 = ind by omega]
        · rw [List.cons_append, e1, own_append, (hml ms).2, ho]
          simp
        · rw [List.cons_append, e2, named_append, (hml ms).1]
          exact hp
        · intro x hx
          rw [List.cons_append, e2, named_append, (hml ms).1, List.mem_append] at hx
          rcases hx with hx | hx
          · obtain ⟨m, _, hx⟩ := List.mem_flatMap.1 hx
            obtain ⟨h1, y, h2, h3⟩ := memberLines_named.2.2 x hx
            exact ⟨[], y, by simpa using h2, h3, by simpa using h1⟩
          · exact hf x hx
    · intro vars ms l pre ind h
      cases ms with
      | nil =>
        simp only [visitMembers, Option.some.injEq] at h
        subst h
        exact ⟨[], by simp [debugMembers], rfl, by simp [named], by simp [named]⟩
      | cons m ms =>
        simp only [visitMembers, Option.bind_eq_some_iff, Option.map_eq_some_iff] at h
        obtain ⟨a, ha, b, hb, rfl⟩ := h
        obtain ⟨la, h1, ho1, hp1, hf1⟩ := ih3 m 0 _ a pre ind ha
        obtain ⟨lb, h2, ho2, hp2, hf2⟩ := ih2 vars ms b pre ind hb
        refine ⟨la ++ lb, ?_, ?_, ?_, ?_⟩
        · simp only [debugMembers]
          rw [h1, Option.bind_some, h2]
          rfl
        · rw [own_append, ho1, ho2, List.map_append]
        · rw [named_append, List.flatMap_cons]
          simp only [List.map_append] at hp1 hp2 ⊢
          refine List.Perm.trans ?_ (hp1.append hp2)
          simp only [List.append_assoc]
          refine List.Perm.append_left _ ?_
          simp only [← List.append_assoc]
          exact List.Perm.append_right _ List.perm_append_comm
        · intro x hx
          rw [named_append, List.mem_append] at hx
          exact hx.elim (hf1 x) (hf2 x)
    · intro m k ts l pre ind h
      cases ts with
      | nil =>
        simp only [visitList, Option.some.injEq] at h
        subst h
        exact ⟨[], by simp [debugList], rfl, by simp [named, memberLines], by simp [named]⟩
      | cons t ts =>
        simp only [visitList, Option.bind_eq_some_iff, Option.map_eq_some_iff] at h
        obtain ⟨a, ha, b, hb, rfl⟩ := h
        obtain ⟨la, h1, ho1, hp1, hf1⟩ := ih1 t a (pre ++ [(m.name, m.seq, k)]) ind ha
        obtain ⟨lb, h2, ho2, hp2, hf2⟩ := ih3 m (k + 1) ts b pre ind hb
        -- the node itself is the first one visited
        obtain ⟨a', rfl⟩ : ∃ a', a = [] :: a' := by
          cases f with
          | zero => simp [visit] at ha
          | succ f =>
            cases t with
            | tok _ => simp [visit] at ha
            | node s x y vars =>
              simp only [visit, Option.bind_eq_some_iff, Option.map_eq_some_iff] at ha
              obtain ⟨_, _, a', _, rfl⟩ := ha
              exact ⟨a', rfl⟩
        refine ⟨la ++ lb, ?_, ?_, ?_, ?_⟩
        · simp only [debugList]
          rw [h1, Option.bind_some, h2]
          rfl
        · rw [own_append, ho1, ho2, List.map_append, List.map_map]
          congr 1
          apply List.map_congr_left
          intro p _
          simp only [Function.comp_apply, List.length_cons, Line.mk.injEq, List.append_assoc, List.cons_append, List.nil_append, and_true]
          push_cast
          omega
        · rw [named_append]
          simp only [memberLines, List.map_append, List.map_cons, List.tail_cons, List.cons_append] at hp1 hp2 ⊢
          refine List.Perm.cons _ ?_
          have hp1' : ((named la).map (·.path)).Perm ((a'.map ((m.name, m.seq, k) :: ·)).map (pre ++ ·)) := by
            refine hp1.trans (List.Perm.of_eq ?_)
            rw [List.map_map]
            apply List.map_congr_left
            intro p _
            simp
          refine List.Perm.trans ?_ (hp1'.append hp2)
          simp only [← List.append_assoc]
          exact List.Perm.append_right _ List.perm_append_comm
        · intro x hx
          rw [named_append, List.mem_append] at hx
          rcases hx with hx | hx
          · obtain ⟨p, y, e1, e2, e3⟩ := hf1 x hx
            refine ⟨(m.name, m.seq, k) :: p, y, ?_, e2, ?_⟩
            · rw [e1]; simp
            · rw [e3]; simp only [List.length_cons]; push_cast; omega
          · exact hf2 x hx

/-- More fuel changes nothing. -/
theorem debug_mono (G : Grammar) (d : Nat) : ∀ f : Nat,
    (∀ f', f ≤ f' → ∀ pre ind t r, debug G d f pre ind t = some r → debug G d f' pre ind t = some r) ∧
    (∀ f', f ≤ f' → ∀ pre ind vars ms r, debugMembers G d f pre ind vars ms = some r → debugMembers G d f' pre ind vars ms = some r) ∧
    (∀ f', f ≤ f' → ∀ pre ind m k ts r, debugList G d f pre ind m k ts = some r → debugList G d f' pre ind m k ts = some r) := by
  intro f
  induction f with
  | zero => refine ⟨?_, ?_, ?_⟩ <;> intros <;> simp_all [debug, debugMembers, debugList]
  | succ f ih =>
    obtain ⟨ih1, ih2, ih3⟩ := ih
    refine ⟨?_, ?_, ?_⟩
    · intro f' hf pre ind t r h
      obtain ⟨f', rfl⟩ : ∃ g, f' = g + 1 := ⟨f' - 1, by omega⟩
      cases t with
      | tok _ => simp [debug] at h
      | node s a b vars =>
        simp only [debug, Option.bind_eq_some_iff, Option.map_eq_some_iff] at h ⊢
        obtain ⟨ms, hms, x, hx, rfl⟩ := h
        exact ⟨ms, hms, x, ih2 f' (by omega) _ _ _ _ _ hx, rfl⟩
    · intro f' hf pre ind vars ms r h
      obtain ⟨f', rfl⟩ : ∃ g, f' = g + 1 := ⟨f' - 1, by omega⟩
      cases ms with
      | nil => simpa [debugMembers] using h
      | cons m ms =>
        simp only [debugMembers, Option.bind_eq_some_iff, Option.map_eq_some_iff] at h ⊢
        obtain ⟨a, ha, b, hb, rfl⟩ := h
        exact ⟨a, ih3 f' (by omega) _ _ _ _ _ _ ha, b, ih2 f' (by omega) _ _ _ _ _ hb, rfl⟩
    · intro f' hf pre ind m k ts r h
      obtain ⟨f', rfl⟩ : ∃ g, f' = g + 1 := ⟨f' - 1, by omega⟩
      cases ts with
      | nil => simpa [debugList] using h
      | cons t ts =>
        simp only [debugList, Option.bind_eq_some_iff, Option.map_eq_some_iff] at h ⊢
        obtain ⟨a, ha, b, hb, rfl⟩ := h
        exact ⟨a, ih1 f' (by omega) _ _ _ _ ha, b, ih3 f' (by omega) _ _ _ _ _ _ hb, rfl⟩

end Verif.Visit
