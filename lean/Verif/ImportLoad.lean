import Verif.ImportLemmas

/-!
# Imports: the loader's graph
-/

set_option linter.unusedSectionVars false

namespace Verif.Import

variable {L N F D : Type} [DecidableEq L]

/-! ## Specification: what imports what -/

/-- The inputs reached from `roots`, where `rd` gives the text at a locator and
only texts read as eucalypt import anything. -/
inductive Reach (rd : L → Option F) (imps : F → List (Inp L N)) (roots : List (Inp L N)) :
    Inp L N → Prop
  | root {i} : i ∈ roots → Reach rd imps roots i
  | step {i j f} : Reach rd imps roots i → i.eu = true → rd i.loc = some f → j ∈ imps f →
      Reach rd imps roots j

/-- The file at `a`, reached as eucalypt, imports the one at `b`. -/
def Imports (rd : L → Option F) (imps : F → List (Inp L N)) (roots : List (Inp L N)) (a b : L) : Prop :=
  ∃ i f j, Reach rd imps roots i ∧ i.eu = true ∧ i.loc = a ∧ rd a = some f ∧ j ∈ imps f ∧ j.loc = b

theorem Reach.of_sub {rd : L → Option F} {imps : F → List (Inp L N)} {rs rs' : List (Inp L N)}
    (h : ∀ r ∈ rs, Reach rd imps rs' r) {i : Inp L N} (hi : Reach rd imps rs i) :
    Reach rd imps rs' i := by
  induction hi with
  | root hr => exact h _ hr
  | step _ h1 h2 h3 ih => exact .step ih h1 h2 h3

/-! ## The graph by locators -/

/-- Locators of nodes. -/
def Graph.locs (g : Graph L N) : List L := g.nodes.map Inp.loc

/-- An edge between locators. -/
def Graph.le (g : Graph L N) (a b : L) : Prop :=
  ∃ x y, (x, y) ∈ g.edges ∧ g.locs[x]? = some a ∧ g.locs[y]? = some b

structure WF (g : Graph L N) : Prop where
  nodup : g.locs.Nodup
  range : InRange g.nodes.length g.edges

theorem locs_length (g : Graph L N) : g.locs.length = g.nodes.length := by simp [Graph.locs]

theorem find_some {g : Graph L N} {i : Inp L N} {k : Nat} (h : g.find i = some k) :
    g.locs[k]? = some i.loc := by
  simp only [Graph.find, List.findIdx?_eq_some_iff_getElem] at h
  obtain ⟨hk, h1, _⟩ := h
  simp only [decide_eq_true_eq] at h1
  simp [Graph.locs, hk, h1]

theorem find_none {g : Graph L N} {i : Inp L N} (h : g.find i = none) : i.loc ∉ g.locs := by
  simp only [Graph.find, List.findIdx?_eq_none_iff, decide_eq_false_iff_not] at h
  simp only [Graph.locs, List.mem_map, not_exists, not_and]
  exact h

theorem nodup_getElem? {α} {l : List α} (h : l.Nodup) {x y : Nat} {a : α} (hx : l[x]? = some a)
    (hy : l[y]? = some a) : x = y := by
  have hxl := (List.getElem?_eq_some_iff.1 hx).1
  exact (List.getElem?_inj hxl h).1 (hx.trans hy.symm)

/-- What `encounter` does. -/
theorem encounter_spec {g : Graph L N} (hw : WF g) (i : Inp L N) :
    ∃ ext, (g.encounter i).1 = ⟨g.nodes ++ ext, g.edges⟩ ∧ (ext = [] ∨ ext = [i]) ∧
      WF (g.encounter i).1 ∧ (g.encounter i).1.locs[(g.encounter i).2]? = some i.loc ∧
      (g.encounter i).2 < (g.encounter i).1.nodes.length := by
  rw [Graph.encounter]
  cases hf : g.find i with
  | some k =>
    have := find_some hf
    have hk := (List.getElem?_eq_some_iff.1 this).1
    rw [locs_length] at hk
    exact ⟨[], by simp, .inl rfl, hw, this, hk⟩
  | none =>
    have hn := find_none hf
    refine ⟨[i], rfl, .inr rfl, ⟨?_, ?_⟩, ?_, ?_⟩
    · simp only [Graph.locs, List.map_append, List.map_cons, List.map_nil]
      rw [List.nodup_append]
      refine ⟨hw.nodup, by simp, ?_⟩
      intro a ha b hb hab
      simp only [List.mem_singleton] at hb
      subst hb hab
      exact hn ha
    · intro a b hab
      have := hw.range a b hab
      simp only [List.length_append, List.length_cons, List.length_nil]
      omega
    · simp [Graph.locs]
    · simp

theorem locs_append (ns ext : List (Inp L N)) (es : Edges) :
    (Graph.mk (ns ++ ext) es).locs = (Graph.mk ns es).locs ++ ext.map Inp.loc := by
  simp [Graph.locs]

/-- Adding nodes does not change the edges between locators. -/
theorem le_append {ns ext : List (Inp L N)} {es : Edges} (hr : InRange ns.length es) (a b : L) :
    (Graph.mk (ns ++ ext) es).le a b ↔ (Graph.mk ns es).le a b := by
  have key : ∀ x, x < ns.length →
      (Graph.mk (ns ++ ext) es).locs[x]? = (Graph.mk ns es).locs[x]? := by
    intro x hx
    rw [locs_append, List.getElem?_append_left]
    simpa [Graph.locs] using hx
  constructor
  · rintro ⟨x, y, h, h1, h2⟩
    obtain ⟨hx, hy⟩ := hr x y h
    exact ⟨x, y, h, by rw [← key x hx]; exact h1, by rw [← key y hy]; exact h2⟩
  · rintro ⟨x, y, h, h1, h2⟩
    obtain ⟨hx, hy⟩ := hr x y h
    exact ⟨x, y, h, by rw [key x hx]; exact h1, by rw [key y hy]; exact h2⟩

/-- What one graph has, the other has. -/
structure Ext (g g' : Graph L N) : Prop where
  locs : ∀ l ∈ g.locs, l ∈ g'.locs
  le : ∀ a b, g.le a b → g'.le a b

theorem Ext.refl (g : Graph L N) : Ext g g := ⟨fun _ h => h, fun _ _ h => h⟩
theorem Ext.trans {g g' g'' : Graph L N} (h : Ext g g') (h' : Ext g' g'') : Ext g g'' :=
  ⟨fun l hl => h'.locs l (h.locs l hl), fun a b hab => h'.le a b (h.le a b hab)⟩

theorem addLeaf_spec {g : Graph L N} (hw : WF g) (i : Inp L N) :
    WF (g.addLeaf i) ∧ Ext g (g.addLeaf i) ∧ i.loc ∈ (g.addLeaf i).locs ∧
      (∀ a b, (g.addLeaf i).le a b → g.le a b) ∧ (g.addLeaf i).edges = g.edges ∧
      (∀ n ∈ (g.addLeaf i).nodes, n ∈ g.nodes ∨ n = i) := by
  obtain ⟨ext, h1, h2, h3, h4, h5⟩ := encounter_spec hw i
  simp only [Graph.addLeaf]
  refine ⟨h3, ⟨?_, ?_⟩, List.mem_of_getElem? h4, ?_, ?_, ?_⟩
  · intro l hl; rw [h1, locs_append]; exact List.mem_append.2 (.inl hl)
  · intro a b hab; rw [h1, le_append hw.range]; exact hab
  · intro a b hab; rw [h1, le_append hw.range] at hab; exact hab
  · rw [h1]
  · intro n hn
    rw [h1] at hn
    rcases List.mem_append.1 hn with hn | hn
    · exact .inl hn
    · rcases h2 with h | h
      · subst h; simp at hn
      · subst h; simp at hn; exact .inr hn

/-- One target added. -/
def addTarget (source : Nat) (g : Graph L N) (j : Inp L N) : Graph L N :=
  ⟨(g.encounter j).1.nodes, (g.encounter j).1.edges ++ [(source, (g.encounter j).2)]⟩

theorem addTarget_spec {g : Graph L N} (hw : WF g) {source : Nat} {a0 : L}
    (hs : g.locs[source]? = some a0) (j : Inp L N) :
    WF (addTarget source g j) ∧ (addTarget source g j).locs[source]? = some a0 ∧
      (∀ l ∈ g.locs, l ∈ (addTarget source g j).locs) ∧ j.loc ∈ (addTarget source g j).locs ∧
      (∀ a b, (addTarget source g j).le a b ↔ g.le a b ∨ (a = a0 ∧ b = j.loc)) ∧
      (∀ n ∈ (addTarget source g j).nodes, n ∈ g.nodes ∨ n = j) := by
  obtain ⟨h1, h2, h3, h4, h5, h6⟩ := addLeaf_spec hw j
  obtain ⟨ext, e1, e2, e3, e4, e5⟩ := encounter_spec hw j
  have hlocs : (addTarget source g j).locs = (g.encounter j).1.locs := rfl
  have hsl : source < g.locs.length := (List.getElem?_eq_some_iff.1 hs).1
  have hs' : (g.encounter j).1.locs[source]? = some a0 := by
    rw [e1, locs_append, List.getElem?_append_left hsl]; exact hs
  have hsr : source < (g.encounter j).1.nodes.length := by
    have := (List.getElem?_eq_some_iff.1 hs').1
    rwa [locs_length] at this
  refine ⟨⟨e3.nodup, ?_⟩, hs', h2.locs, h3, ?_, h6⟩
  · intro a b hab
    simp only [addTarget, List.mem_append, List.mem_singleton, Prod.mk.injEq] at hab ⊢
    rcases hab with h | ⟨rfl, rfl⟩
    · exact e3.range a b h
    · exact ⟨hsr, e5⟩
  · intro a b
    constructor
    · rintro ⟨x, y, hxy, hx, hy⟩
      rw [hlocs] at hx hy
      simp only [addTarget, List.mem_append, List.mem_singleton, Prod.mk.injEq] at hxy
      rcases hxy with h | ⟨rfl, rfl⟩
      · exact .inl (h4 a b ⟨x, y, h, hx, hy⟩)
      · right
        rw [hs'] at hx
        rw [e4] at hy
        exact ⟨(Option.some.inj hx).symm, (Option.some.inj hy).symm⟩
    · rintro (h | ⟨rfl, rfl⟩)
      · obtain ⟨x, y, hxy, hx, hy⟩ := h2.le a b h
        refine ⟨x, y, ?_, hx, hy⟩
        simp only [addTarget, List.mem_append]
        exact .inl hxy
      · refine ⟨source, (g.encounter j).2, ?_, hs', e4⟩
        simp [addTarget]

theorem targets_spec {source : Nat} {a0 : L} : ∀ (js : List (Inp L N)) (g : Graph L N), WF g →
    g.locs[source]? = some a0 →
    WF (js.foldl (addTarget source) g) ∧
      (∀ l ∈ g.locs, l ∈ (js.foldl (addTarget source) g).locs) ∧
      (∀ j ∈ js, j.loc ∈ (js.foldl (addTarget source) g).locs) ∧
      (∀ a b, (js.foldl (addTarget source) g).le a b ↔
        g.le a b ∨ (a = a0 ∧ ∃ j ∈ js, b = j.loc)) ∧
      (∀ n ∈ (js.foldl (addTarget source) g).nodes, n ∈ g.nodes ∨ n ∈ js)
  | [], g, hw, _ => by simp [hw]
  | j :: js, g, hw, hs => by
    obtain ⟨h1, h2, h3, h4, h5, h6⟩ := addTarget_spec hw hs j
    obtain ⟨k1, k2, k3, k4, k5⟩ := targets_spec js _ h1 h2
    rw [List.foldl_cons]
    refine ⟨k1, fun l hl => k2 l (h3 l hl), ?_, ?_, ?_⟩
    · intro x hx
      rcases List.mem_cons.1 hx with rfl | hx
      · exact k2 _ h4
      · exact k3 x hx
    · intro a b
      rw [k4, h5]
      simp only [List.mem_cons, exists_eq_or_imp]
      grind
    · intro n hn
      rcases k5 n hn with h | h
      · rcases h6 n h with h | h
        · exact .inl h
        · exact .inr (by simp [h])
      · exact .inr (by simp [h])

theorem register_eq (g : Graph L N) (i : Inp L N) (js : List (Inp L N)) :
    g.register i js = js.foldl (addTarget (g.encounter i).2) (g.encounter i).1 := rfl

theorem register_spec {g : Graph L N} (hw : WF g) (i : Inp L N) (js : List (Inp L N)) :
    WF (g.register i js) ∧ (∀ l ∈ g.locs, l ∈ (g.register i js).locs) ∧
      i.loc ∈ (g.register i js).locs ∧ (∀ j ∈ js, j.loc ∈ (g.register i js).locs) ∧
      (∀ a b, (g.register i js).le a b ↔ g.le a b ∨ (a = i.loc ∧ ∃ j ∈ js, b = j.loc)) ∧
      (∀ n ∈ (g.register i js).nodes, n ∈ g.nodes ∨ n = i ∨ n ∈ js) := by
  obtain ⟨h1, h2, h3, h4, h5, h6⟩ := addLeaf_spec hw i
  obtain ⟨ext, e1, e2, e3, e4, e5⟩ := encounter_spec hw i
  obtain ⟨k1, k2, k3, k4, k5⟩ := targets_spec js _ e3 e4
  rw [register_eq]
  refine ⟨k1, fun l hl => k2 l (h2.locs l hl), k2 _ h3, k3, ?_, ?_⟩
  · intro a b
    rw [k4]
    constructor
    · rintro (h | h)
      · exact .inl (h4 a b h)
      · exact .inr h
    · rintro (h | h)
      · exact .inl (h2.le a b h)
      · exact .inr h
  · intro n hn
    rcases k5 n hn with h | h
    · rcases h6 n h with h | h
      · exact .inl h
      · exact .inr (.inl h)
    · exact .inr (.inr h)

theorem trans_le_iff {g : Graph L N} (hw : WF g) {x : Nat} {a : L} (hx : g.locs[x]? = some a) (b : L) :
    Trans g.le a b ↔ ∃ y, g.locs[y]? = some b ∧ Trans (E g.edges) x y := by
  constructor
  · intro h
    induction h generalizing x with
    | one h =>
      obtain ⟨x', y, he, h1, h2⟩ := h
      cases nodup_getElem? hw.nodup hx h1
      exact ⟨y, h2, .one he⟩
    | cons h _ ih =>
      obtain ⟨x', y, he, h1, h2⟩ := h
      cases nodup_getElem? hw.nodup hx h1
      obtain ⟨z, hz, ht⟩ := ih h2
      exact ⟨z, hz, .cons he ht⟩
  · rintro ⟨y, hy, h⟩
    induction h generalizing a with
    | one h => exact .one ⟨_, _, h, hx, hy⟩
    | cons h _ ih =>
      rename_i a' b' c' _
      have hb := (hw.range _ _ h).2
      rw [← locs_length] at hb
      exact .cons ⟨_, _, h, hx, List.getElem?_eq_getElem hb⟩ (ih (List.getElem?_eq_getElem hb) hy)

/-- The check accepts exactly the graphs in which no locator leads to itself. -/
theorem check_spec {g : Graph L N} (hw : WF g) :
    ((∀ l, ¬ Trans g.le l l) ∧ g.check = .ok ()) ∨ ((∃ l, Trans g.le l l) ∧ ∃ v, g.check = .cycle v) := by
  have hac : Acyclic g.edges ↔ ∀ l, ¬ Trans g.le l l := by
    constructor
    · intro h l hl
      obtain ⟨c, x, y, he, h1, h2⟩ := hl.first
      obtain ⟨z, hz, ht⟩ := (trans_le_iff hw h1 l).1 hl
      cases nodup_getElem? hw.nodup h1 hz
      exact h _ ht
    · intro h v hv
      obtain ⟨c, hc⟩ := hv.first
      have hb := (hw.range _ _ hc).1
      rw [← locs_length] at hb
      have hb' := List.getElem?_eq_getElem hb
      exact h _ ((trans_le_iff hw hb' _).2 ⟨v, hb', hv⟩)
  rcases toposort_correct hw.range with ⟨h1, o, h2, _⟩ | ⟨h1, v, h2⟩
  · exact .inl ⟨hac.1 h1, by rw [Graph.check, h2]⟩
  · refine .inr ⟨?_, v, by rw [Graph.check, h2]⟩
    refine Classical.byContradiction fun hn => h1 (hac.2 fun l hl => hn ⟨l, hl⟩)

/-- The inputs of a unit: its own locator and those it leads to, once each. -/
theorem unitInputs_spec {g : Graph L N} (hw : WF g) (i : Inp L N) (hi : i.loc ∈ g.locs) :
    ∃ out, g.unitInputs i = some out ∧ (out.map Inp.loc).Nodup ∧ (∀ n ∈ out, n ∈ g.nodes) ∧
      ∀ l, l ∈ out.map Inp.loc ↔ l = i.loc ∨ Trans g.le i.loc l := by
  cases hf : g.find i with
  | none => exact absurd hi (find_none hf)
  | some k =>
    have hk := find_some hf
    have hkl := (List.getElem?_eq_some_iff.1 hk).1
    rw [locs_length] at hkl
    obtain ⟨ks, h1, h2, h3⟩ := bfs_correct hw.range k hkl
    have hlt : ∀ x ∈ ks, x < g.nodes.length := by
      intro x hx
      rcases (h3 x).1 hx with h | h
      · rw [h]; exact hkl
      · obtain ⟨c, hc⟩ := h.last
        exact (hw.range _ _ hc).2
    refine ⟨ks.filterMap fun k => g.nodes[k]?, ?_, ?_, ?_, ?_⟩
    · rw [Graph.unitInputs, hf]; dsimp only; rw [h1]; rfl
    · have : ∀ (l : List Nat), l.Nodup → ((l.filterMap fun k => g.nodes[k]?).map Inp.loc).Nodup := by
        intro l hl
        induction l with
        | nil => simp
        | cons x l ih =>
          rw [List.nodup_cons] at hl
          rw [List.filterMap_cons]
          cases hx : g.nodes[x]? with
          | none => exact ih hl.2
          | some n =>
            dsimp only
            rw [List.map_cons, List.nodup_cons]
            refine ⟨?_, ih hl.2⟩
            intro hm
            simp only [List.mem_map, List.mem_filterMap] at hm
            obtain ⟨m, ⟨y, hy, hy'⟩, hm⟩ := hm
            have e1 : g.locs[x]? = some n.loc := by simp [Graph.locs, hx]
            have e2 : g.locs[y]? = some n.loc := by simp [Graph.locs, hy', hm]
            cases nodup_getElem? hw.nodup e1 e2
            exact hl.1 hy
      exact this ks h2
    · intro n hn
      simp only [List.mem_filterMap] at hn
      obtain ⟨x, _, hx⟩ := hn
      exact List.mem_of_getElem? hx
    · intro l
      have hml : l ∈ (ks.filterMap fun k => g.nodes[k]?).map Inp.loc ↔ ∃ x ∈ ks, g.locs[x]? = some l := by
        simp only [List.mem_map, List.mem_filterMap, Graph.locs, List.getElem?_map, Option.map_eq_some_iff]
        grind
      rw [hml, trans_le_iff hw hk]
      constructor
      · rintro ⟨x, hx, hxl⟩
        rcases (h3 x).1 hx with h | h
        · subst h; rw [hk] at hxl; exact .inl (Option.some.inj hxl).symm
        · exact .inr ⟨x, hxl, h⟩
      · rintro (h | ⟨y, hy, h⟩)
        · exact ⟨k, (h3 k).2 (.inl rfl), by rw [h]; exact hk⟩
        · exact ⟨y, (h3 y).2 (.inr h), hy⟩

/-! ## Loading -/

/-- The text already read for a locator. -/
def Loader.text (s : Loader L N F D) (l : L) : Option F :=
  (s.cache.find? fun e => e.1 = l).map Prod.snd

theorem source_spec {w : World L N F D} {s s1 : Loader L N F D} {l : L} {f : F}
    (h : s.source w l = some (f, s1)) :
    s1.graph = s.graph ∧ s1.libPath = s.libPath ∧ s1.text l = some f ∧
      (∀ l' f', s.text l' = some f' → s1.text l' = some f') ∧
      (s.text l = some f ∨ (s.text l = none ∧ w.read s.libPath l = some f)) ∧
      (∀ l' f', s1.text l' = some f' → s.text l' = some f' ∨ (l' = l ∧ f' = f)) := by
  rw [Loader.source] at h
  cases hc : s.cache.find? fun e => e.1 = l with
  | some e =>
    rw [hc] at h
    cases h
    exact ⟨rfl, rfl, by simp [Loader.text, hc], fun _ _ h => h, .inl (by simp [Loader.text, hc]),
      fun _ _ h => .inl h⟩
  | none =>
    rw [hc] at h
    dsimp only at h
    cases hr : w.read s.libPath l with
    | none => rw [hr] at h; cases h
    | some f0 =>
      rw [hr] at h
      cases h
      have ht : s.text l = none := by simp [Loader.text, hc]
      refine ⟨rfl, rfl, by simp [Loader.text], ?_, .inr ⟨ht, rfl⟩, ?_⟩
      · intro l' f' h'
        have : l' ≠ l := by rintro rfl; rw [ht] at h'; cases h'
        simp only [Loader.text, List.find?_cons]
        rw [show decide (l = l') = false by simpa using this.symm]
        exact h'
      · intro l' f' h'
        by_cases hl : l = l'
        · subst hl
          simp [Loader.text] at h'
          exact .inr ⟨rfl, h'.symm⟩
        · simp only [Loader.text, List.find?_cons] at h'
          rw [show decide (l = l') = false by simpa using hl] at h'
          exact .inl h'

theorem source_none {w : World L N F D} {s : Loader L N F D} {l : L} (h : s.source w l = none) :
    s.text l = none ∧ w.read s.libPath l = none := by
  rw [Loader.source] at h
  cases hc : s.cache.find? fun e => e.1 = l with
  | some e => rw [hc] at h; cases h
  | none =>
    rw [hc] at h
    dsimp only at h
    cases hr : w.read s.libPath l with
    | none => exact ⟨by simp [Loader.text, hc], rfl⟩
    | some f0 => rw [hr] at h; cases h

/-- A loading of several, ok. -/
theorem foldlM_ok {σ α ε : Type} {f : σ → α → Except ε σ} {a : α} {as : List α} {s s' : σ}
    (h : (a :: as).foldlM f s = .ok s') : ∃ s1, f s a = .ok s1 ∧ as.foldlM f s1 = .ok s' := by
  rw [List.foldlM_cons] at h
  cases hf : f s a with
  | error e => rw [hf] at h; cases h
  | ok s1 => rw [hf] at h; exact ⟨s1, rfl, h⟩

theorem foldlM_error {σ α ε : Type} {f : σ → α → Except ε σ} {a : α} {as : List α} {s : σ} {e : ε}
    (h : (a :: as).foldlM f s = .error e) :
    f s a = .error e ∨ ∃ s1, f s a = .ok s1 ∧ as.foldlM f s1 = .error e := by
  rw [List.foldlM_cons] at h
  cases hf : f s a with
  | error e' => rw [hf] at h; cases h; exact .inl rfl
  | ok s1 => rw [hf] at h; exact .inr ⟨s1, rfl, h⟩

/-- Loading a text read as eucalypt. -/
theorem load_eu_ok {w : World L N F D} {k : Nat} {s s' : Loader L N F D} {i : Inp L N}
    (h : Loader.load w (k + 1) s i = .ok s') :
    ∃ f s1, s.source w i.loc = some (f, s1) ∧
      ((i.eu = false ∧ s' = { s1 with graph := s1.graph.addLeaf i }) ∨
       (i.eu = true ∧ (s1.graph.register i (w.imports f)).check = .ok () ∧
        ∃ s2, (w.imports f).foldlM (fun s j => Loader.load w k s j)
            { s1 with graph := s1.graph.register i (w.imports f),
                      libPath := s1.libPath ++ (w.dir s1.libPath i.loc).toList } = .ok s2 ∧
          s' = { s2 with libPath := s1.libPath })) := by
  rw [Loader.load] at h
  cases hs : s.source w i.loc with
  | none => rw [hs] at h; cases h
  | some p =>
    obtain ⟨f, s1⟩ := p
    rw [hs] at h
    dsimp only at h
    refine ⟨f, s1, rfl, ?_⟩
    cases he : i.eu with
    | false => rw [he, if_neg (by simp)] at h; cases h; exact .inl ⟨rfl, rfl⟩
    | true =>
      rw [he, if_pos rfl] at h
      right
      cases hc : (s1.graph.register i (w.imports f)).check with
      | cycle v => rw [hc] at h; cases h
      | fuel => rw [hc] at h; cases h
      | ok u =>
        rw [hc] at h
        dsimp only at h
        refine ⟨rfl, rfl, ?_⟩
        cases hf : (w.imports f).foldlM (fun s j => Loader.load w k s j)
            { s1 with graph := s1.graph.register i (w.imports f),
                      libPath := s1.libPath ++ (w.dir s1.libPath i.loc).toList } with
        | error e => rw [hf] at h; cases h
        | ok s2 => rw [hf] at h; cases h; exact ⟨s2, rfl, rfl⟩

theorem text_grows {w : World L N F D} : ∀ (k : Nat) (s s' : Loader L N F D) (i : Inp L N),
    Loader.load w k s i = .ok s' → ∀ l f, s.text l = some f → s'.text l = some f
  | 0, _, _, _, h => by cases h
  | k + 1, s, s', i, h => by
    obtain ⟨f, s1, h1, h2⟩ := load_eu_ok h
    have hs := (source_spec h1).2.2.2.1
    rcases h2 with ⟨_, rfl⟩ | ⟨_, _, s2, h3, rfl⟩
    · exact hs
    · have : ∀ (js : List (Inp L N)) (t t' : Loader L N F D),
          js.foldlM (fun s j => Loader.load w k s j) t = .ok t' →
          ∀ l f, t.text l = some f → t'.text l = some f := by
        intro js
        induction js with
        | nil => intro t t' h; cases h; exact fun _ _ h => h
        | cons j js ih =>
          intro t t' h l f hf
          obtain ⟨t1, h1, h2⟩ := foldlM_ok h
          exact ih t1 t' h2 l f (text_grows k t t1 j h1 l f hf)
      intro l f' hf
      exact this _ _ _ h3 l f' (hs l f' hf)

theorem texts_grow {w : World L N F D} {k : Nat} : ∀ (js : List (Inp L N)) (t t' : Loader L N F D),
    js.foldlM (fun s j => Loader.load w k s j) t = .ok t' →
    ∀ l f, t.text l = some f → t'.text l = some f
  | [], t, t', h => by cases h; exact fun _ _ h => h
  | j :: js, t, t', h => by
    intro l f hf
    obtain ⟨t1, h1, h2⟩ := foldlM_ok h
    exact texts_grow js t1 t' h2 l f (text_grows k t t1 j h1 l f hf)

/-- What holds of the graph while loading. -/
structure Good (rd : L → Option F) (imps : F → List (Inp L N)) (roots : List (Inp L N))
    (g : Graph L N) : Prop where
  wf : WF g
  acyclic : ∀ l, ¬ Trans g.le l l
  sound : ∀ a b, g.le a b → Imports rd imps roots a b
  nodes : ∀ n ∈ g.nodes, Reach rd imps roots n

/-- Everything reached from `i` is in the graph. -/
def Done (rd : L → Option F) (imps : F → List (Inp L N)) (g : Graph L N) (i : Inp L N) : Prop :=
  ∀ j, Reach rd imps [i] j → j.loc ∈ g.locs ∧
    ∃ f, rd j.loc = some f ∧ (j.eu = true → ∀ k ∈ imps f, g.le j.loc k.loc)

theorem Done.mono {rd : L → Option F} {imps : F → List (Inp L N)} {g g' : Graph L N} {i : Inp L N}
    (h : Done rd imps g i) (he : Ext g g') : Done rd imps g' i := by
  intro j hj
  obtain ⟨h1, f, h2, h3⟩ := h j hj
  exact ⟨he.locs _ h1, f, h2, fun h k hk => he.le _ _ (h3 h k hk)⟩

/-- What is reached from one input: itself, or what is reached from its imports. -/
theorem reach_one {rd : L → Option F} {imps : F → List (Inp L N)} {i j : Inp L N}
    (h : Reach rd imps [i] j) :
    j = i ∨ (i.eu = true ∧ ∃ f, rd i.loc = some f ∧ ∃ m ∈ imps f, Reach rd imps [m] j) := by
  induction h with
  | root h => exact .inl (List.mem_singleton.1 h)
  | step hr h1 h2 h3 ih =>
    rename_i i' j' f
    right
    rcases ih with rfl | ⟨e, f', g1, m, hm, hr'⟩
    · exact ⟨h1, f, h2, j', h3, .root (by simp)⟩
    · exact ⟨e, f', g1, m, hm, .step hr' h1 h2 h3⟩

/-- Loads that succeed. -/
theorem load_ok {w : World L N F D} {rd : L → Option F} {roots : List (Inp L N)} :
    ∀ (k : Nat) (s s' : Loader L N F D) (i : Inp L N), Loader.load w k s i = .ok s' →
    (∀ l f, s'.text l = some f → rd l = some f) → Good rd w.imports roots s.graph →
    Reach rd w.imports roots i →
    Good rd w.imports roots s'.graph ∧ Ext s.graph s'.graph ∧ Done rd w.imports s'.graph i ∧
      s'.libPath = s.libPath
  | 0, _, _, _, h, _, _, _ => by cases h
  | k + 1, s, s', i, h, hrd, hg, hi => by
    obtain ⟨f, s1, h1, h2⟩ := load_eu_ok h
    obtain ⟨a1, a2, a3, a4, _, _⟩ := source_spec h1
    rcases h2 with ⟨he, rfl⟩ | ⟨he, hck, s2, h3, rfl⟩
    · obtain ⟨b1, b2, b3, b4, b5, b6⟩ := addLeaf_spec hg.wf i
      dsimp only
      rw [a1]
      have hf : rd i.loc = some f := hrd _ _ a3
      refine ⟨⟨b1, ?_, fun a b hab => hg.sound a b (b4 a b hab), ?_⟩, b2, ?_, a2⟩
      · exact fun l hl => hg.acyclic l (hl.mono b4)
      · intro n hn
        rcases b6 n hn with h | h
        · exact hg.nodes n h
        · rw [h]; exact hi
      · intro j hj
        rcases reach_one hj with rfl | ⟨e, _⟩
        · exact ⟨b3, f, hf, fun h => by rw [he] at h; cases h⟩
        · rw [he] at e; cases e
    · rw [a1] at h3 hck
      have hf : rd i.loc = some f := hrd _ _ (texts_grow _ _ _ h3 _ _ a3)
      obtain ⟨b1, b2, b3, b4, b5, b6⟩ := register_spec hg.wf i (w.imports f)
      have hacy : ∀ l, ¬ Trans (s.graph.register i (w.imports f)).le l l := by
        rcases check_spec b1 with ⟨h, _⟩ | ⟨_, v, hv⟩
        · exact h
        · rw [hv] at hck; cases hck
      have hgood : Good rd w.imports roots (s.graph.register i (w.imports f)) := by
        refine ⟨b1, hacy, ?_, ?_⟩
        · intro a b hab
          rcases (b5 a b).1 hab with h | ⟨rfl, j, hj, rfl⟩
          · exact hg.sound a b h
          · exact ⟨i, f, j, hi, he, rfl, hf, hj, rfl⟩
        · intro n hn
          rcases b6 n hn with h | h | h
          · exact hg.nodes n h
          · rw [h]; exact hi
          · exact .step hi he hf h
      have hall : ∀ (js : List (Inp L N)) (t t' : Loader L N F D),
          (∀ j ∈ js, Reach rd w.imports roots j) →
          js.foldlM (fun s j => Loader.load w k s j) t = .ok t' →
          (∀ l f, t'.text l = some f → rd l = some f) → Good rd w.imports roots t.graph →
          Good rd w.imports roots t'.graph ∧ Ext t.graph t'.graph ∧
            ∀ j ∈ js, Done rd w.imports t'.graph j := by
        intro js
        induction js with
        | nil => intro t t' _ h _ hg; cases h; exact ⟨hg, .refl _, by simp⟩
        | cons j js ih =>
          intro t t' hjs h hrd hg
          obtain ⟨t1, e1, e2⟩ := foldlM_ok h
          obtain ⟨c1, c2, c3, _⟩ := load_ok k t t1 j e1
            (fun l f hl => hrd l f (texts_grow _ _ _ e2 l f hl)) hg (hjs j (by simp))
          obtain ⟨d1, d2, d3⟩ := ih t1 t' (fun x hx => hjs x (by simp [hx])) e2 hrd c1
          refine ⟨d1, c2.trans d2, ?_⟩
          intro x hx
          rcases List.mem_cons.1 hx with rfl | hx
          · exact c3.mono d2
          · exact d3 x hx
      obtain ⟨d1, d2, d3⟩ := hall _ _ _ (fun j hj => .step hi he hf hj) h3 hrd hgood
      refine ⟨d1, Ext.trans ⟨b2, fun a b hab => (b5 a b).2 (.inl hab)⟩ d2, ?_, a2⟩
      intro j hj
      rcases reach_one hj with rfl | ⟨_, f', hf', m, hm, hj'⟩
      · refine ⟨d2.locs _ b3, f, hf, fun _ m hm => d2.le _ _ ((b5 _ _).2 (.inr ⟨rfl, m, hm, rfl⟩))⟩
      · rw [hf] at hf'
        cases hf'
        exact d3 m hm j hj'

theorem loadAll_ok {w : World L N F D} {rd : L → Option F} {roots : List (Inp L N)} {k : Nat} :
    ∀ (is : List (Inp L N)) (s s' : Loader L N F D), Loader.loadAll w k s is = .ok s' →
    (∀ i ∈ is, Reach rd w.imports roots i) →
    (∀ l f, s'.text l = some f → rd l = some f) → Good rd w.imports roots s.graph →
    Good rd w.imports roots s'.graph ∧ Ext s.graph s'.graph ∧ ∀ i ∈ is, Done rd w.imports s'.graph i
  | [], s, s', h, _, _, hg => by cases h; exact ⟨hg, .refl _, by simp⟩
  | i :: is, s, s', h, hi, hrd, hg => by
    obtain ⟨s1, e1, e2⟩ := foldlM_ok h
    obtain ⟨c1, c2, c3, _⟩ := load_ok k s s1 i e1
      (fun l f hl => hrd l f (texts_grow _ _ _ e2 l f hl)) hg (hi i (by simp))
    obtain ⟨d1, d2, d3⟩ := loadAll_ok is s1 s' e2 (fun x hx => hi x (by simp [hx])) hrd c1
    refine ⟨d1, c2.trans d2, ?_⟩
    intro x hx
    rcases List.mem_cons.1 hx with rfl | hx
    · exact c3.mono d2
    · exact d3 x hx

/-- What an error means. -/
def Justified (rd : L → Option F) (imps : F → List (Inp L N)) (roots : List (Inp L N)) : LoadErr L → Prop
  | .unreadable l => (∃ i, Reach rd imps roots i ∧ i.loc = l) ∧ rd l = none
  | .cycle _ => ∃ l, Trans (Imports rd imps roots) l l
  | .fuel => False

/-- If what is read does not depend on the search path, the texts read are the texts there. -/
theorem text_sound {w : World L N F D} {rd : L → Option F} (hrd : ∀ lp l, w.read lp l = rd l) :
    ∀ (k : Nat) (s s' : Loader L N F D) (i : Inp L N), Loader.load w k s i = .ok s' →
    (∀ l f, s.text l = some f → rd l = some f) → ∀ l f, s'.text l = some f → rd l = some f
  | 0, _, _, _, h, _ => by cases h
  | k + 1, s, s', i, h, hs => by
    obtain ⟨f, s1, h1, h2⟩ := load_eu_ok h
    obtain ⟨_, _, a3, _, a5, a6⟩ := source_spec h1
    have hf : rd i.loc = some f := by
      rcases a5 with h | ⟨_, h⟩
      · exact hs _ _ h
      · rw [← hrd]; exact h
    have hs1 : ∀ l f, s1.text l = some f → rd l = some f := by
      intro l f' h'
      rcases a6 l f' h' with h | ⟨rfl, rfl⟩
      · exact hs _ _ h
      · exact hf
    rcases h2 with ⟨_, rfl⟩ | ⟨_, _, s2, h3, rfl⟩
    · exact hs1
    · have : ∀ (js : List (Inp L N)) (t t' : Loader L N F D),
          js.foldlM (fun s j => Loader.load w k s j) t = .ok t' →
          (∀ l f, t.text l = some f → rd l = some f) → ∀ l f, t'.text l = some f → rd l = some f := by
        intro js
        induction js with
        | nil => intro t t' h; cases h; exact fun h => h
        | cons j js ih =>
          intro t t' h ht
          obtain ⟨t1, h1, h2⟩ := foldlM_ok h
          exact ih t1 t' h2 (text_sound hrd k t t1 j h1 ht)
      intro l f' hl
      exact this _ _ _ h3 hs1 l f' hl

/-- Loads that fail; `anc` are the locators of the files being loaded. -/
theorem load_error {w : World L N F D} {rd : L → Option F} {roots : List (Inp L N)} {U : List L}
    (hrd : ∀ lp l, w.read lp l = rd l) (hU : ∀ i, Reach rd w.imports roots i → i.loc ∈ U) :
    ∀ (k : Nat) (s : Loader L N F D) (i : Inp L N) (anc : List L) (e : LoadErr L),
    Loader.load w k s i = .error e → (∀ l f, s.text l = some f → rd l = some f) →
    Good rd w.imports roots s.graph → Reach rd w.imports roots i →
    anc.Nodup → (∀ a ∈ anc, a ∈ U ∧ Trans s.graph.le a i.loc) → U.length ≤ k + anc.length →
    Justified rd w.imports roots e
  | 0, s, i, anc, e, h, _, hg, hi, hn, ha, hk => by
    exfalso
    have hia : i.loc ∉ anc := fun hm => hg.acyclic _ (ha _ hm).2
    have : (i.loc :: anc).length ≤ U.length := by
      refine nodup_subset_length (List.nodup_cons.2 ⟨hia, hn⟩) ?_
      intro x hx
      rcases List.mem_cons.1 hx with rfl | hx
      · exact hU i hi
      · exact (ha x hx).1
    simp only [List.length_cons] at this
    omega
  | k + 1, s, i, anc, e, h, hs, hg, hi, hn, ha, hk => by
    have hia : i.loc ∉ anc := fun hm => hg.acyclic _ (ha _ hm).2
    rw [Loader.load] at h
    cases hsrc : s.source w i.loc with
    | none =>
      rw [hsrc] at h
      cases h
      exact ⟨⟨i, hi, rfl⟩, by rw [← hrd]; exact (source_none hsrc).2⟩
    | some p =>
      obtain ⟨f, s1⟩ := p
      rw [hsrc] at h
      dsimp only at h
      obtain ⟨a1, a2, a3, a4, a5, a6⟩ := source_spec hsrc
      have hf : rd i.loc = some f := by
        rcases a5 with h | ⟨_, h⟩
        · exact hs _ _ h
        · rw [← hrd]; exact h
      have hs1 : ∀ l f, s1.text l = some f → rd l = some f := by
        intro l f' h'
        rcases a6 l f' h' with h | ⟨rfl, rfl⟩
        · exact hs _ _ h
        · exact hf
      cases he : i.eu with
      | false => rw [he, if_neg (by simp)] at h; cases h
      | true =>
        rw [he, if_pos rfl, a1] at h
        obtain ⟨b1, b2, b3, b4, b5, b6⟩ := register_spec hg.wf i (w.imports f)
        have hsound : ∀ a b, (s.graph.register i (w.imports f)).le a b → Imports rd w.imports roots a b := by
          intro a b hab
          rcases (b5 a b).1 hab with h | ⟨rfl, j, hj, rfl⟩
          · exact hg.sound a b h
          · exact ⟨i, f, j, hi, he, rfl, hf, hj, rfl⟩
        rcases check_spec b1 with ⟨hacy, hck⟩ | ⟨⟨l, hl⟩, v, hck⟩
        · rw [hck] at h
          dsimp only at h
          have hgood : Good rd w.imports roots (s.graph.register i (w.imports f)) := by
            refine ⟨b1, hacy, hsound, ?_⟩
            intro n hn
            rcases b6 n hn with h | h | h
            · exact hg.nodes n h
            · rw [h]; exact hi
            · exact .step hi he hf h
          have hall : ∀ (js : List (Inp L N)) (t : Loader L N F D),
              (∀ j ∈ js, Reach rd w.imports roots j) →
              js.foldlM (fun s j => Loader.load w k s j) t = .error e →
              (∀ l f, t.text l = some f → rd l = some f) → Good rd w.imports roots t.graph →
              (∀ a ∈ i.loc :: anc, ∀ j ∈ js, Trans t.graph.le a j.loc) →
              Justified rd w.imports roots e := by
            intro js
            induction js with
            | nil => intro t _ h; cases h
            | cons j js ih =>
              intro t hjs h ht hgt hanc
              rcases foldlM_error h with h | ⟨t1, h1, h2⟩
              · refine load_error hrd hU k t j (i.loc :: anc) e h ht hgt (hjs j (by simp))
                  (List.nodup_cons.2 ⟨hia, hn⟩) ?_ (by simp only [List.length_cons]; omega)
                intro a ham
                refine ⟨?_, hanc a ham j (by simp)⟩
                rcases List.mem_cons.1 ham with rfl | ham
                · exact hU i hi
                · exact (ha a ham).1
              · have ht1 := text_sound hrd k t t1 j h1 ht
                obtain ⟨c1, c2, _, _⟩ := load_ok k t t1 j h1 ht1 hgt (hjs j (by simp))
                exact ih t1 (fun x hx => hjs x (by simp [hx])) h2 ht1 c1
                  fun a ham x hx => (hanc a ham x (by simp [hx])).mono c2.le
          cases hfold : (w.imports f).foldlM (fun s j => Loader.load w k s j)
              { s1 with graph := s.graph.register i (w.imports f),
                        libPath := s1.libPath ++ (w.dir s1.libPath i.loc).toList } with
          | ok s2 => rw [hfold] at h; cases h
          | error e' =>
            rw [hfold] at h
            cases h
            refine hall _ _ (fun j hj => .step hi he hf hj) hfold hs1 hgood ?_
            intro a ham j hj
            have hij : (s.graph.register i (w.imports f)).le i.loc j.loc :=
              (b5 _ _).2 (.inr ⟨rfl, j, hj, rfl⟩)
            rcases List.mem_cons.1 ham with rfl | ham
            · exact .one hij
            · exact ((ha a ham).2.mono fun a b hab => (b5 a b).2 (.inl hab)).trans (.one hij)
        · rw [hck] at h
          cases h
          exact ⟨l, hl.mono hsound⟩

theorem loadAll_error {w : World L N F D} {rd : L → Option F} {roots : List (Inp L N)} {U : List L}
    (hrd : ∀ lp l, w.read lp l = rd l) (hU : ∀ i, Reach rd w.imports roots i → i.loc ∈ U)
    {k : Nat} (hk : U.length ≤ k) :
    ∀ (is : List (Inp L N)) (s : Loader L N F D) (e : LoadErr L), Loader.loadAll w k s is = .error e →
    (∀ i ∈ is, Reach rd w.imports roots i) → (∀ l f, s.text l = some f → rd l = some f) →
    Good rd w.imports roots s.graph → Justified rd w.imports roots e
  | [], s, e, h, _, _, _ => by cases h
  | i :: is, s, e, h, hi, hs, hg => by
    rcases foldlM_error h with h | ⟨s1, h1, h2⟩
    · exact load_error hrd hU k s i [] e h hs hg (hi i (by simp)) .nil (by simp) (by simpa using hk)
    · have hs1 := text_sound hrd k s s1 i h1 hs
      obtain ⟨c1, _⟩ := load_ok k s s1 i h1 hs1 hg (hi i (by simp))
      exact loadAll_error hrd hU hk is s1 e h2 (fun x hx => hi x (by simp [hx])) hs1 c1

theorem good_new (rd : L → Option F) (imps : F → List (Inp L N)) (roots : List (Inp L N)) :
    Good rd imps roots ⟨[], []⟩ := by
  refine ⟨⟨List.nodup_nil, fun a b h => by cases h⟩, ?_, ?_, by simp⟩
  · intro l hl
    obtain ⟨c, x, y, h, _⟩ := hl.first
    cases h
  · rintro a b ⟨x, y, h, _⟩
    cases h

end Verif.Import
