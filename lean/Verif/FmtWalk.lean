import Verif.FmtFix
import Verif.ParseProps

/-!
# Proofs only.  What the formatter writes for a tree
-/

namespace Verif.Fmt

open Verif.Lex
open Verif.Parse (Tree Res parseUnit ptoks PTok numbered Keeps ColonsOk colonBad colonsOk colonsOk_iff parse_keeps_tokens_partial)

/-! ## The tree walked is the tokens walked -/

/-- The tokens written one after the other. -/
def lay (txt : Nat → List Char) : List (Nat × Kind) → Nat → List Char × Nat
  | [], col => ([], col)
  | p :: r, col =>
    ((token p.2 (txt p.1) col).1 ++ (lay txt r (token p.2 (txt p.1) col).2).1, (lay txt r (token p.2 (txt p.1) col).2).2)

theorem lay_append (txt : Nat → List Char) (a b : List (Nat × Kind)) : ∀ col,
    lay txt (a ++ b) col = ((lay txt a col).1 ++ (lay txt b (lay txt a col).2).1, (lay txt b (lay txt a col).2).2) := by
  induction a with
  | nil => intro col; rfl
  | cons p a ih => intro col; simp [lay, ih, List.append_assoc]

mutual
theorem walk_leaves (txt : Nat → List Char) : ∀ (t : Tree) (col : Nat), walk txt t col = lay txt t.leaves col
  | .node _ cs, col => by
    rw [walk, Tree.leaves]
    exact walkL_leaves txt cs col
  | .leaf k i, col => by simp [walk, Tree.leaves, lay]
theorem walkL_leaves (txt : Nat → List Char) : ∀ (ts : List Tree) (col : Nat), walkL txt ts col = lay txt (Tree.leavesL ts) col
  | [], col => by simp [walkL, Tree.leavesL, lay]
  | t :: ts, col => by
    rw [walkL, Tree.leavesL, lay_append, walk_leaves txt t col]
    simp only [walkL_leaves txt ts]
end

theorem lay_numbered (src : List Char) (ts : List Tok) : ∀ (suf pre : List Tok) (col : Nat), ts = pre ++ suf →
    (lay (tokText src ts) (numbered pre.length (ptoks src suf)) col).1 = flat (fixP col (pieces src suf)) := by
  intro suf
  induction suf with
  | nil => intro pre col _; rfl
  | cons t suf ih =>
    intro pre col h
    have ih' := fun col => ih (pre ++ [t]) col (by rw [h]; simp)
    rw [List.length_append] at ih'
    have ht : tokText src ts pre.length = (text src t).getD [] := by
      unfold tokText
      rw [h, List.getElem?_append_right (Nat.le_refl _), Nat.sub_self]
      rfl
    show (token t.kind (tokText src ts pre.length) col).1 ++
      (lay (tokText src ts) (numbered (pre.length + 1) (ptoks src suf)) (token t.kind (tokText src ts pre.length) col).2).1 = _
    rw [ht]
    have := ih' (token t.kind ((text src t).getD []) col).2
    simp only [List.length_cons, List.length_nil, Nat.zero_add] at this
    rw [this]
    rfl

theorem format_eq {cc : CharClass} {src : List Char} {ts : List Tok} (h : tokens cc src = some ts)
    (hk : Keeps (ptoks src ts) (parseUnit (ptoks src ts))) :
    format cc src = some (endLine (flat (fixP 0 (pieces src ts)))) := by
  obtain ⟨t, h1, h2⟩ := hk
  unfold format
  rw [h]
  dsimp only
  rw [h1]
  dsimp only
  rw [walk_leaves, h2]
  have := lay_numbered src ts ts [] 0 rfl
  rw [List.length_nil] at this
  rw [this]

/-! ## Kinds -/

theorem fixP_kinds (ps : List (Kind × List Char)) : ∀ col, (fixP col ps).map Prod.fst = ps.map Prod.fst := by
  induction ps with
  | nil => intro col; rfl
  | cons p ps ih => intro col; simp [fixP, ih]

theorem fixP_solids (ps : List (Kind × List Char)) : ∀ col, solid (fixP col ps) = solid ps := by
  induction ps with
  | nil => intro col; rfl
  | cons p ps ih =>
    intro col
    have ih' := ih (token p.1 p.2 col).2
    unfold solid at ih' ⊢
    rw [fixP]
    by_cases hp : p.1 = .whitespace
    · rw [List.filter_cons_of_neg (by simp [hp]), List.filter_cons_of_neg (by simp [hp]), ih']
    · rw [List.filter_cons_of_pos (by simp [hp]), List.filter_cons_of_pos (by simp [hp]), ih', token_solid hp]

theorem addTail_solids (ps : List (Kind × List Char)) : solid (addTail ps) = solid ps := by
  induction ps using addTail.induct with
  | case1 => rfl
  | case2 p h => rw [addTail, if_pos h]; simp [solid, h]
  | case3 p h => rw [addTail, if_neg h]; simp [solid, h]
  | case4 p q ps ih =>
    rw [addTail]
    unfold solid at ih ⊢
    rw [List.filter_cons, List.filter_cons (x := p), ih]

theorem addTail_kinds (ps : List (Kind × List Char)) :
    ((addTail ps).map Prod.fst = ps.map Prod.fst ∧ ps.getLast?.map Prod.fst = some .whitespace) ∨
      (addTail ps).map Prod.fst = ps.map Prod.fst ++ [.whitespace] := by
  induction ps using addTail.induct with
  | case1 => exact .inr rfl
  | case2 p h => rw [addTail, if_pos h]; exact .inl ⟨by simp [h], by simp [h]⟩
  | case3 p h => rw [addTail, if_neg h]; exact .inr rfl
  | case4 p q ps ih =>
    rw [addTail]
    rcases ih with ⟨h1, h2⟩ | h
    · left
      refine ⟨by rw [List.map_cons, h1]; rfl, ?_⟩
      rw [List.getLast?_cons_cons]
      exact h2
    · right
      rw [List.map_cons, h]
      rfl

theorem colonBad_ws (ks : List Kind) : ∀ tr, colonBad tr (ks ++ [.whitespace]) = colonBad tr ks := by
  induction ks with
  | nil => intro tr; simp [colonBad, Kind.isTrivial]
  | cons k ks ih =>
    intro tr
    rw [List.cons_append, colonBad, colonBad, ih]
    cases ks <;> rfl

theorem colonsOk_ws (ks : List Kind) : ∀ p, ColonsOk p ks → ColonsOk p (ks ++ [.whitespace]) := by
  induction ks with
  | nil => intro p _; exact ⟨(fun h => nomatch h), trivial⟩
  | cons k ks ih =>
    intro p h
    refine ⟨fun h1 h2 => ?_, ih _ h.2⟩
    show colonBad false (ks ++ [.whitespace]) = false
    rw [colonBad_ws]
    exact h.1 h1 h2

theorem pieces_kinds (src : List Char) (ts : List Tok) : (pieces src ts).map Prod.fst = ts.map Tok.kind := by
  simp [pieces, Function.comp_def]

/-! ## The text -/

theorem ended_endLine (out : List Char) : Ended (endLine out) := by
  unfold endLine Ended
  split
  · right; simp
  · rename_i h
    by_cases h1 : out = []
    · exact .inl h1
    · right
      by_cases h2 : out.getLast? = some '\n'
      · exact h2
      · exact absurd ⟨h1, h2⟩ h

theorem endLine_id {out : List Char} (h : Ended out) : endLine out = out := by
  unfold endLine
  rcases h with rfl | h
  · rfl
  · rw [if_neg (by simp [h])]

/-- The white space tokens are white space. -/
theorem lexes_blank {cc : CharClass} (hb : Blanks cc) (hs : cc.Sane) {last ws cs ps} (h : Lexes cc last ws cs ps) :
    ∀ p ∈ ps, p.1 = .whitespace → ∀ c ∈ p.2, cc.whitespace c = true := by
  induction h with
  | nil => simp
  | @step last ws c mid rest t buf l ps hd _ ih =>
    intro p hp hpk
    rcases List.mem_append.mp hp with hp | hp
    · cases hc : cc.whitespace c with
      | false => exact absurd hpk ((group_solid hs hc hd).1 p hp)
      | true =>
        obtain ⟨g1, _, _, g2, _⟩ := group_ws hb hc hd
        rw [g1] at hp
        rw [List.mem_singleton.mp hp]
        intro x hx
        rcases List.mem_cons.mp hx with rfl | hx
        · exact hc
        · exact g2 x hx
    · exact ih p hp hpk

/-- How the tokens look to the parser. -/
theorem ptoks_pieces {src : List Char} {ts : List Tok} (h : ∀ t ∈ ts, ∃ a, text src t = some a ∧ a ≠ []) :
    ptoks src ts = (pieces src ts).map fun p => ⟨p.1, p.2 == ['.']⟩ := by
  unfold ptoks pieces
  rw [List.map_map]
  refine List.map_congr_left fun t ht => ?_
  obtain ⟨a, ha, _⟩ := h t ht
  simp [ha]

theorem fixP_dots {cc : CharClass} (hb : Blanks cc) (ps : List (Kind × List Char))
    (h : ∀ p ∈ ps, p.1 = .whitespace → ∀ c ∈ p.2, cc.whitespace c = true) : ∀ col,
    (fixP col ps).map (fun p => (⟨p.1, p.2 == ['.']⟩ : PTok)) = ps.map fun p => ⟨p.1, p.2 == ['.']⟩ := by
  have hdot : ∀ t : List Char, (∀ c ∈ t, cc.whitespace c = true) → (t == ['.']) = false := by
    intro t ht
    rw [beq_eq_false_iff_ne]
    rintro rfl
    exact hb.ne (ht '.' (by simp)) (by decide) (by decide) rfl
  induction ps with
  | nil => intro col; rfl
  | cons p ps ih =>
    intro col
    rw [fixP, List.map_cons, List.map_cons, ih (fun q hq => h q (by simp [hq]))]
    congr 2
    by_cases hp : p.1 = .whitespace
    · rw [hp, token_ws, hdot _ (normalize_mem hb (h p (by simp) hp) col), hdot _ (h p (by simp) hp)]
    · rw [token_solid hp]

end Verif.Fmt
