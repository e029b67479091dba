import Verif.ExportMarkup

/-!
# The document written is the value rendered

C56: for JSON, YAML, TOML, EDN and eucalypt's own syntax, what is written stands for the value, and a value that the
format cannot carry is refused.  C57: a failed run of a structured format writes nothing and a successful one writes
one document.  C58: text output.  C59: markup.
-/

namespace Verif.Export
open Verif.Arith (Num)

/-! ## C56 -/

section general
variable {K V : Type} {F : Fmt K V} {tk : Bool} {u : Prim → Bool} {T : Target V}

theorem written (H : Faithful F T) (G : Agrees F tk u T) {v d} (hv : Is v d) (g : Good v) :
    (Fits T d → ∃ doc, (tableEmitter F tk u).run v = ([doc], true) ∧ Repr T d doc) ∧
    (¬ Fits T d → (tableEmitter F tk u).run v = ([], false)) := by
  have h := run_data G ((rend_sound v).2.1 d g hv)
  exact ⟨fun hf => ⟨_, h.1 hf, build_repr H d hf⟩, h.2⟩

theorem read (H : Faithful F T) (G : Agrees F tk u T) {v} (g : Good v) (h : ((tableEmitter F tk u).run v).2 = true) :
    (Hidden v ∧ (tableEmitter F tk u).run v = ([F.fromPairs none []], true)) ∨
    ∃ d doc, Is v d ∧ (tableEmitter F tk u).run v = ([doc], true) ∧ Repr T d doc := by
  have hok : (rend true .absent v).ok = true := by
    rw [run_eq] at h
    simp only [Bool.and_eq_true] at h
    exact h.1
  rcases (rend_complete v).2.1 g hok with hh | ⟨d, hd⟩
  · exact .inl ⟨hh, run_hidden hh⟩
  · right
    have hw := written (tk := tk) (u := u) H G hd g
    by_cases hf : Fits T d
    · obtain ⟨doc, h1, h2⟩ := hw.1 hf
      exact ⟨d, doc, hd, h1, h2⟩
    · rw [hw.2 hf] at h; cases h

end general

/-- **C56**, partial: JSON.  Full statement: `JsonWritten D`.  `Good` is missing; see `json_written_fails`. -/
theorem json_written_partial (D : Display) {v d} (hv : Is v d) (g : Good v) :
    (Fits (jsonTarget D) d → ∃ doc, (jsonEmitter D).run v = ([doc], true) ∧ Repr (jsonTarget D) d doc) ∧
    (¬ Fits (jsonTarget D) d → (jsonEmitter D).run v = ([], false)) :=
  written (json_faithful D) (json_agrees D) hv g

/-- **C56**, partial: TOML. -/
theorem toml_written_partial (D : Display) {v d} (hv : Is v d) (g : Good v) :
    (Fits tomlTarget d → ∃ doc, (tomlEmitter D).run v = ([doc], true) ∧ Repr tomlTarget d doc) ∧
    (¬ Fits tomlTarget d → (tomlEmitter D).run v = ([], false)) :=
  written (toml_faithful D) (toml_agrees D) hv g

/-- **C56**, partial: YAML. -/
theorem yaml_written_partial (D : Display) {v d} (hv : Is v d) (g : Good v) :
    (Fits (yamlTarget D) d → ∃ doc, (yamlEmitter D).run v = ([doc], true) ∧ Repr (yamlTarget D) d doc) ∧
    (¬ Fits (yamlTarget D) d → (yamlEmitter D).run v = ([], false)) :=
  written (yaml_faithful D) (yaml_agrees D) hv g

/-- **C56**, partial: EDN, whatever strict order its library has. -/
theorem edn_written_partial {lt : Edn → Edn → Bool} (hi : ∀ a, lt a a = false)
    (ht : ∀ a b c, lt a b = true → lt b c = true → lt a c = true) {v d} (hv : Is v d) (g : Good v) :
    (Fits (ednTarget lt) d → ∃ doc, (ednEmitter lt).run v = ([doc], true) ∧ Repr (ednTarget lt) d doc) ∧
    (¬ Fits (ednTarget lt) d → (ednEmitter lt).run v = ([], false)) :=
  written (edn_faithful hi ht) (edn_agrees lt) hv g

/-- **C56**, partial: eucalypt's own syntax. -/
theorem eu_written_partial (D : Display) {v d} (hv : Is v d) (g : Good v) :
    (Fits euTarget d → ∃ doc, (euEmitter D).run v = ([doc], true) ∧ Repr euTarget d doc) ∧
    (¬ Fits euTarget d → (euEmitter D).run v = ([], false)) :=
  written (eu_faithful D) (eu_agrees D) hv g

/-- **C56**, partial: a JSON document written was data, and the document stands for it; or the value asked to be left
out. -/
theorem json_read_partial (D : Display) {v} (g : Good v) (h : ((jsonEmitter D).run v).2 = true) :
    (Hidden v ∧ (jsonEmitter D).run v = ([.obj []], true)) ∨
    ∃ d doc, Is v d ∧ (jsonEmitter D).run v = ([doc], true) ∧ Repr (jsonTarget D) d doc :=
  read (json_faithful D) (json_agrees D) g h

theorem toml_read_partial (D : Display) {v} (g : Good v) (h : ((tomlEmitter D).run v).2 = true) :
    (Hidden v ∧ (tomlEmitter D).run v = ([.table []], true)) ∨
    ∃ d doc, Is v d ∧ (tomlEmitter D).run v = ([doc], true) ∧ Repr tomlTarget d doc :=
  read (toml_faithful D) (toml_agrees D) g h

theorem yaml_read_partial (D : Display) {v} (g : Good v) (h : ((yamlEmitter D).run v).2 = true) :
    (Hidden v ∧ (yamlEmitter D).run v = ([.hash none []], true)) ∨
    ∃ d doc, Is v d ∧ (yamlEmitter D).run v = ([doc], true) ∧ Repr (yamlTarget D) d doc :=
  read (yaml_faithful D) (yaml_agrees D) g h

theorem edn_read_partial {lt : Edn → Edn → Bool} (hi : ∀ a, lt a a = false)
    (ht : ∀ a b c, lt a b = true → lt b c = true → lt a c = true) {v} (g : Good v)
    (h : ((ednEmitter lt).run v).2 = true) :
    (Hidden v ∧ (ednEmitter lt).run v = ([.map []], true)) ∨
    ∃ d doc, Is v d ∧ (ednEmitter lt).run v = ([doc], true) ∧ Repr (ednTarget lt) d doc :=
  read (edn_faithful hi ht) (edn_agrees lt) g h

theorem eu_read_partial (D : Display) {v} (g : Good v) (h : ((euEmitter D).run v).2 = true) :
    (Hidden v ∧ (euEmitter D).run v = ([.block []], true)) ∨
    ∃ d doc, Is v d ∧ (euEmitter D).run v = ([doc], true) ∧ Repr euTarget d doc :=
  read (eu_faithful D) (eu_agrees D) g h

/-! ### A value that meets the hypotheses -/

def plainMeta : Meta := ⟨.absent, .absent⟩
def hideMeta : Meta := ⟨.sym "suppress", .absent⟩
def num (n : Nat) : Val := .box (.ready (.num (.pos n)))
def symb (s : String) : Val := .box (.ready (.sym s))

/-- `{b: [1, x // hidden, null], f: function, a: 2 computed, b: "last"}`, the second `a` given as a list. -/
def exVal : Val :=
  .block (.cons (.pair (.sym "b") (.ann plainMeta (.cons (num 1) (.cons (.ann hideMeta .fail) (.cons .unit .nil)))))
    (.cons (.pair (.sym "f") .fn)
      (.cons (.kvlist (.cons (symb "a") (.cons (.box (.susp (.num (.pos 2)))) .nil)))
        (.cons (.pair (.sym "b") (.box (.ready (.str "last")))) .nil))))

def exData : Data :=
  .block none
    (.cons (.scalar none (.sym "b")) (.list none (.cons (.scalar none (.num (.pos 1))) (.cons (.scalar none .null) .nil)))
      (.cons (.scalar none (.sym "a")) (.scalar none (.num (.pos 2)))
        (.cons (.scalar none (.sym "b")) (.scalar none (.str "last")) .nil)))

theorem num_is (n : Nat) : Is (num n) (.scalar none (.num (.pos n))) :=
  .plain (by simp [num]) (.box rfl .num)

theorem ex_is : Is exVal exData := by
  refine .plain (by simp [exVal]) (.block ?_)
  refine .native .pair (fun h => by cases h with | ann h => cases h) .sym ?_ ?_
  · refine .ann (.inl rfl) (.absent rfl) (.cons ?_)
    exact .cons (num_is 1) (.hidden ⟨_, _, rfl, .inl rfl⟩ (.cons (.plain (by simp) .unit) .nil))
  refine .hidden .pair (.inr .fn) ?_
  refine .listed (.kvlist (.cons (.cons .nil))) (fun h => nomatch h) (.plain (by simp [symb]) (.box rfl .sym))
    (.plain (by simp) (.box rfl .num)) ?_
  exact .native .pair (fun h => nomatch h) .sym (.plain (by simp) (.box rfl .str)) .nil

example : Good exVal := rfl

/-- JSON sorts the keys and keeps the last `b`. -/
example (D : Display) :
    (jsonEmitter D).run exVal = ([.obj [("a", .num (.pos 2)), ("b", .str "last")]], true) := by
  refine ((run_data (json_agrees D) ((rend_sound exVal).2.1 exData rfl ex_is)).1
    (by simp [exData, Fits, FitsItems, FitsFields, jsonTarget, Data.IsText])).trans ?_
  simp [exData, build, buildFields, buildItems, jsonFmt, btree, btreeInsert, show ¬ "b" < "a" by decide,
    show "a" < "b" by decide]

/-- TOML refuses the null. -/
example (D : Display) : (tomlEmitter D).run exVal = ([], false) := rfl

example (D : Display) : Fits (jsonTarget D) exData := by
  simp [exData, Fits, FitsItems, FitsFields, jsonTarget, Data.IsText]

example : ¬ Fits tomlTarget exData := by
  simp [exData, Fits, FitsItems, FitsFields, tomlTarget]

/-- eucalypt writes both. -/
example (D : Display) :
    (euEmitter D).run exVal =
      ([.block [("b", .arr [.num (.pos 1), .null]), ("a", .num (.pos 2)), ("b", .str "last")]], true) := rfl

/-! ### Where it fails -/

/-- The full statements for JSON. -/
def JsonWritten (D : Display) : Prop := ∀ v d, Is v d → Fits (jsonTarget D) d →
  ∃ doc, (jsonEmitter D).run v = ([doc], true) ∧ Repr (jsonTarget D) d doc
def JsonRead (D : Display) : Prop := ∀ v, ((jsonEmitter D).run v).2 = true →
  Hidden v ∨ ∃ d doc, Is v d ∧ (jsonEmitter D).run v = ([doc], true) ∧ Repr (jsonTarget D) d doc

/-- `{x: block([[:a, 1 // hidden]])}`: the inner block is lost, and its field with it. -/
def lostVal : Val :=
  .block (.cons (.pair (.sym "x") (.block (.cons (.kvlist (.cons (symb "a") (.cons (.ann hideMeta (num 1)) .nil))) .nil))) .nil)

theorem lost_is : Is lostVal (.block none (.cons (.scalar none (.sym "x")) (.block none .nil) .nil)) := by
  refine .plain (by simp [lostVal]) (.block (.native .pair (fun h => nomatch h) .sym ?_ .nil))
  exact .plain (by simp) (.block (.hidden (.kvlist (.cons (.cons .nil))) (.inl ⟨_, _, rfl, .inl rfl⟩) .nil))

theorem json_written_fails (D : Display) : ¬ JsonWritten D := by
  intro h
  obtain ⟨doc, h1, h2⟩ := h _ _ lost_is (by simp [Fits, FitsFields, jsonTarget, Data.IsText])
  have h3 : (jsonEmitter D).run lostVal = ([.obj []], true) := rfl
  rw [h3] at h1
  cases h1
  cases h2 with
  | block hf ht =>
    cases hf with
    | cons hk hv hr =>
      obtain ⟨ks, out, e1, e2, e3, _⟩ := ht
      cases e2
      cases ks with
      | nil => cases e1
      | cons p r =>
        have hr' : r = [] := by
          cases hr
          simp only [List.map_cons, List.cons.injEq] at e1
          exact List.map_eq_nil_iff.mp e1.2.symm
        subst hr'
        have : LastOf p.1 p.2 [p] := ⟨[], [], rfl, by simp⟩
        exact absurd ((e3.2 p.1 p.2).mpr this) (by simp)

/-- `{x: block([[:a]]), y: block([[:b]])}` -/
def swappedVal : Val :=
  .block (.cons (.pair (.sym "x") (.block (.cons (.kvlist (.cons (symb "a") .nil)) .nil)))
    (.cons (.pair (.sym "y") (.block (.cons (.kvlist (.cons (symb "b") .nil)) .nil))) .nil))

/-- In YAML it gives `{x: y}`. -/
theorem swapped_run (D : Display) : (yamlEmitter D).run swappedVal = ([.hash none [(.str none "x", .str none "y")]], true) := rfl

/-- `{x: block([[:a]]), y: "s"}` -/
def droppedVal : Val :=
  .block (.cons (.pair (.sym "x") (.block (.cons (.kvlist (.cons (symb "a") .nil)) .nil)))
    (.cons (.pair (.sym "y") (.box (.ready (.str "s")))) .nil))

/-- In JSON it gives the empty object. -/
theorem dropped_run (D : Display) : (jsonEmitter D).run droppedVal = ([.obj []], true) := rfl

theorem json_read_fails (D : Display) : ¬ JsonRead D := by
  intro h
  rcases h droppedVal rfl with ⟨m, w, e, _⟩ | ⟨d, doc, hd, _⟩
  · cases e
  have inner : ∀ d, ¬ Is (.block (.cons (.kvlist (.cons (symb "a") .nil)) .nil)) d := by
    intro d hd
    cases hd with
    | plain _ hd =>
      cases hd with
      | block hf =>
        have noEntry : ∀ x, ¬ EntryIs (.kvlist (.cons (symb "a") .nil)) x := by
          intro x hx
          cases hx with
          | kvlist hs => cases hs with | cons hs => cases hs
        cases hf with
        | native he => exact noEntry _ he
        | listed he => exact noEntry _ he
        | hidden he => exact noEntry _ he
  cases hd with
  | plain _ hd =>
    cases hd with
    | block hf =>
      cases hf with
      | native he _ _ hv => cases he; exact inner _ hv
      | listed he => cases he
      | hidden he hh =>
        cases he
        rcases hh with ⟨_, _, e, _⟩ | hh
        · cases e
        · cases hh

/-- A tag on null is lost in YAML. -/
theorem yaml_tag_lost (D : Display) :
    let v : Val := .ann ⟨.absent, .str (.ready "!t")⟩ .unit
    Is v (.scalar (some "!t") .null) ∧ (yamlEmitter D).run v = ([.null none], true) ∧
    ¬ Repr (yamlTarget D) (.scalar (some "!t") .null) (.null none) := by
  refine ⟨.ann (.inl rfl) (.str rfl rfl) .unit, rfl, ?_⟩
  intro h
  cases h with
  | scalar h =>
    obtain ⟨y, ⟨p, s, hy, _⟩, he⟩ := h
    simp only at he
    cases he
    cases hy

/-- A computed number with a tag cannot be written. -/
theorem yaml_computed_refused (D : Display) :
    let v : Val := .ann ⟨.absent, .str (.ready "!t")⟩ (.box (.susp (.num (.pos 1))))
    Is v (.scalar (some "!t") (.num (.pos 1))) ∧ Fits (yamlTarget D) (.scalar (some "!t") (.num (.pos 1))) ∧
    (yamlEmitter D).run v = ([], false) := by
  refine ⟨.ann (.inl rfl) (.str rfl rfl) (.box rfl .num), ?_, rfl⟩
  show 1 ≤ 2 ^ 63 - 1
  decide

/-- A field that is to be left out makes the run fail if its value cannot be evaluated. -/
theorem hidden_failure (D : Display) :
    let v : Val := .block (.cons (.pair (.sym "a") (.ann hideMeta .fail)) .nil)
    Is v (.block none .nil) ∧ (jsonEmitter D).run v = ([], false) := by
  refine ⟨.plain (by simp) (.block (.hidden .pair (.inl ⟨_, _, rfl, .inl rfl⟩) .nil)), rfl⟩

/-! ## C57 -/

/-- **C57**: a run that fails writes nothing; a run that succeeds writes one document. -/
def AllOrNothing {σ ω : Type} (E : Emitter σ ω) : Prop :=
  ∀ v, ((E.run v).2 = false → (E.run v).1 = []) ∧ ((E.run v).2 = true → ∃ doc, (E.run v).1 = [doc])

theorem json_all_or_nothing (D : Display) : AllOrNothing (jsonEmitter D) :=
  fun v => ⟨run_fails _ _ _ v, run_succeeds _ _ _ v⟩
theorem yaml_all_or_nothing (D : Display) : AllOrNothing (yamlEmitter D) :=
  fun v => ⟨run_fails _ _ _ v, run_succeeds _ _ _ v⟩
theorem toml_all_or_nothing (D : Display) : AllOrNothing (tomlEmitter D) :=
  fun v => ⟨run_fails _ _ _ v, run_succeeds _ _ _ v⟩
theorem edn_all_or_nothing (lt : Edn → Edn → Bool) : AllOrNothing (ednEmitter lt) :=
  fun v => ⟨run_fails _ _ _ v, run_succeeds _ _ _ v⟩
theorem eu_all_or_nothing (D : Display) : AllOrNothing (euEmitter D) :=
  fun v => ⟨run_fails _ _ _ v, run_succeeds _ _ _ v⟩

/-- A list whose second item fails: nothing is written, though the first was sent. -/
example (D : Display) : (jsonEmitter D).run (.cons (num 1) (.cons .fail .nil)) = ([], false) := rfl
/-- An integer too large for TOML, in a list. -/
example (D : Display) : (tomlEmitter D).run (.cons (num 1) (.cons (num (2 ^ 63)) .nil)) = ([], false) := rfl
example (D : Display) : (jsonEmitter D).run (.cons (num 1) .nil) = ([.arr [.num (.pos 1)]], true) := rfl

/-! ## C58 -/

/-- **C58**, partial: text is the scalars of the data, one to a line, in order.  That nothing is written by a run that
fails does not hold; see `text_not_all_or_nothing`. -/
theorem text_written_partial (D : Display) {v d} (hv : Is v d) (g : Good v) :
    (textEmitter D).run v = (lines D d, true) := by
  rw [text_run, (rend_sound v).2.1 d g hv]
  simp [ser_lines]

/-- A run that fails has written the lines of the scalars before the failure. -/
theorem text_not_all_or_nothing (D : Display) :
    ∃ v, (textEmitter D).run v = ([D.num (.pos 1)], false) :=
  ⟨.cons (num 1) (.cons .fail .nil), rfl⟩

example (D : Display) : (textEmitter D).run exVal =
    (["b", D.num (.pos 1), "", "a", D.num (.pos 2), "b", "last"], true) := rfl

/-! ## C59 -/

mutual
/-- All the text of an element: its tag, its attributes and its contents. -/
def Element.texts : Element → List String
  | .mk t as c => t :: (as.flatMap (fun a => [a.1, a.2]) ++ Item.texts c)
def Item.texts : List Item → List String
  | [] => []
  | .element e :: r => e.texts ++ Item.texts r
  | .content s :: r => s :: Item.texts r
end

theorem attrs_texts {D : Display} {fs as} (h : AttrsOf D fs as) :
    linesFields D fs = as.flatMap (fun a => [a.1, a.2]) := by
  induction h with
  | nil => rfl
  | cons _ ih => simp [linesFields, lines, ih]

mutual
theorem element_texts {D : Display} {d e} (h : ElementOf D d e) : e.texts = lines D d := by
  cases h with
  | full ha hc => simp [Element.texts, lines, linesItems, attrs_texts ha, content_texts hc]
  | bare => simp [Element.texts, Item.texts, lines, linesItems]
theorem content_texts {D : Display} {cs is} (h : ContentOf D cs is) : Item.texts is = linesItems D cs := by
  cases h with
  | nil => rfl
  | text hr => simp [Item.texts, linesItems, lines, content_texts hr]
  | element he hr => simp [Item.texts, linesItems, element_texts he, content_texts hr]
end

/-- **C59**, partial: a list of a tag, attributes and contents is written as that element, with all its text.  Full
statement: `HtmlWhole`. -/
theorem html_element_partial (D : Display) {v d e} (hv : Is v d) (g : Good v) (h : ElementOf D d e) :
    (htmlEmitter D).run v = ([e], true) ∧ e.texts = lines D d :=
  ⟨html_run_element ((rend_sound v).2.1 d g hv) h, element_texts h⟩

/-- **C59**: at the root a scalar or a block is refused. -/
theorem html_root_refused (D : Display) {v d} (hv : Is v d) (g : Good v) (h : ∀ t xs, d ≠ .list t xs) :
    (htmlEmitter D).run v = ([], false) :=
  html_run_root ((rend_sound v).2.1 d g hv) h

/-- **C59**: a run that fails writes nothing. -/
theorem html_fails_silent (D : Display) (v : Val) (h : ((htmlEmitter D).run v).2 = false) :
    ((htmlEmitter D).run v).1 = [] := html_run_fails v h

/-- The full statement: what is accepted is written whole. -/
def HtmlWhole (D : Display) : Prop := ∀ v d, Is v d → Good v → ((htmlEmitter D).run v).2 = true →
  ∃ e, ((htmlEmitter D).run v).1 = [e] ∧ e.texts = lines D d

/-- `[:div, "hello"]` is written as an empty `div`. -/
theorem html_loses_content (D : Display) : ¬ HtmlWhole D := by
  intro h
  let v : Val := .cons (symb "div") (.cons (.box (.ready (.str "hello"))) .nil)
  have hv : Is v (.list none (.cons (.scalar none (.sym "div")) (.cons (.scalar none (.str "hello")) .nil))) := by
    refine .plain (by simp [v]) (.cons (.cons (.plain (by simp [symb]) (.box rfl .sym))
      (.cons (.plain (by simp) (.box rfl .str)) .nil)))
  obtain ⟨e, h1, h2⟩ := h v _ hv rfl rfl
  have h3 : ((htmlEmitter D).run v).1 = [.mk "div" [] []] := rfl
  rw [h3] at h1
  cases h1
  simp [Element.texts, Item.texts, lines, linesItems, textOf] at h2

/-- `[]` is accepted and writes nothing. -/
theorem html_empty (D : Display) : (htmlEmitter D).run .nil = ([], true) := rfl

/-- `[:p, {class: :x}, "a", [:br], "b"]` -/
example (D : Display) :
    (htmlEmitter D).run (.cons (symb "p") (.cons (.block (.cons (.pair (.sym "class") (symb "x")) .nil))
      (.cons (.box (.ready (.str "a"))) (.cons (.cons (symb "br") .nil) (.cons (.box (.ready (.str "b"))) .nil))))) =
    ([.mk "p" [("class", "x")] [.content "a", .element (.mk "br" [] []), .content "b"]], true) := rfl

example (D : Display) :
    ElementOf D (.list none (.cons (.scalar none (.sym "p")) (.cons (.block none (.cons (.scalar none (.sym "class"))
      (.scalar none (.sym "x")) .nil)) (.cons (.scalar none (.str "a")) (.cons (.list none (.cons (.scalar none (.sym "br")) .nil))
      .nil))))) (.mk "p" [("class", "x")] [.content "a", .element (.mk "br" [] [])]) :=
  .full (.cons .nil) (.text (.element .bare .nil))

end Verif.Export
