import Verif.BcSpec

/-! # Lemmas about encoding and reading -/

namespace Verif.Bc
variable {K : Type}

/-! ## Growing -/

/-- The encoder only appends. -/
structure Enc.Le (e f : Enc K) : Prop where
  code : e.code <+: f.code
  consts : e.consts <+: f.consts

theorem Enc.Le.refl (e : Enc K) : e.Le e := ⟨List.prefix_refl _, List.prefix_refl _⟩
theorem Enc.Le.trans {a b c : Enc K} (h : a.Le b) (h' : b.Le c) : a.Le c := ⟨h.code.trans h'.code, h.consts.trans h'.consts⟩

theorem le_u8 (e : Enc K) (v : Nat) : e.Le (e.u8 v) := ⟨List.prefix_append _ _, List.prefix_refl _⟩
theorem le_u32 (e : Enc K) (v : Nat) : e.Le (e.u32 v) := ⟨List.prefix_append _ _, List.prefix_refl _⟩
theorem le_op (e : Enc K) (o : Op) : e.Le (e.op o) := le_u8 _ _
theorem le_ref (e : Enc K) (r : Ref K) : e.Le (e.ref r) := by
  cases r with
  | l i => exact (le_u8 _ _).trans (le_u32 _ _)
  | g i => exact (le_u8 _ _).trans (le_u32 _ _)
  | v n => exact ⟨by simp [Enc.ref, Enc.u8, Enc.u32, List.append_assoc], by simp [Enc.ref, Enc.u8, Enc.u32]⟩
theorem le_atom (e : Enc K) (r : Ref K) : e.Le (e.atom r).1 := (le_op _ _).trans (le_ref _ _)
theorem le_atoms (e : Enc K) (rs : List (Ref K)) : e.Le (e.atoms rs).1 := by
  induction rs generalizing e with
  | nil => exact .refl _
  | cons r rs ih => exact (le_atom e r).trans (ih _)
theorem le_u32s (e : Enc K) (os : List Nat) : e.Le (e.u32s os) := by
  induction os generalizing e with
  | nil => exact .refl _
  | cons r rs ih => exact (le_u32 e r).trans (ih _)
theorem le_args (e : Enc K) (os : List Nat) : e.Le (e.args os) := (le_u8 _ _).trans (le_u32s _ _)
theorem le_fused (e : Enc K) (id : Nat) (l r : Ref K) : e.Le (e.fused id l r).1 :=
  (le_atom e l).trans <| (le_atom _ r).trans <| (le_op _ _).trans <| (le_u8 _ _).trans <| (le_u32 _ _).trans (le_u32 _ _)
theorem le_header (e : Enc K) (h : Head) (b : Nat) : e.Le (e.header h b) :=
  (le_u8 _ _).trans <| (le_u8 _ _).trans <| (le_u32 _ _).trans (le_u32 _ _)
theorem le_headers (e : Enc K) (fs : Forms K) (os : List Nat) : e.Le (e.headers fs os) := by
  induction os generalizing e fs with
  | nil => cases fs <;> exact .refl _
  | cons o os ih =>
    cases fs with
    | nil => exact .refl _
    | cons h b fs => exact (le_header e h o).trans (ih _ _)
theorem le_table (e : Enc K) (bs : List (Nat × Nat)) : e.Le (e.table bs) := by
  cases bs with
  | nil => exact (le_u8 _ _).trans (le_u8 _ _)
  | cons b bs => exact (le_u8 _ _).trans <| (le_u8 _ _).trans (le_u32s _ _)

mutual
theorem le_node (e : Enc K) : (t : Syn K) → e.Le (e.node t).1
  | .atom r => by rw [Enc.node]; exact le_atom e r
  | .case scr bs fb => by
    rw [Enc.node]
    have h := (le_node e scr).trans <| (le_branches _ bs).trans (le_fallback _ fb)
    dsimp only
    split
    · exact h.trans <| (le_op _ _).trans <| (le_u32 _ _).trans <| (le_table _ _).trans <| (le_u8 _ _).trans (le_u32 _ _)
    · exact h.trans <| (le_op _ _).trans <| (le_u32 _ _).trans <| (le_table _ _).trans <| le_u8 _ _
  | .cons tag args => by
    rw [Enc.node]; exact (le_atoms e args).trans <| (le_op _ _).trans <| (le_u8 _ _).trans (le_args _ _)
  | .app f args eager => by
    rw [Enc.node]; exact (le_atoms e args).trans <| (le_op _ _).trans <| (le_u8 _ _).trans <| (le_ref _ _).trans (le_args _ _)
  | .dapp smid f args eager => by
    rw [Enc.node]
    exact (le_atoms e args).trans <| (le_op _ _).trans <| (le_u8 _ _).trans <| (le_u32 _ _).trans <| (le_ref _ _).trans (le_args _ _)
  | .bif i args => by
    rw [Enc.node]; exact (le_atoms e args).trans <| (le_op _ _).trans <| (le_u8 _ _).trans (le_args _ _)
  | .let_ fs body => by
    rw [Enc.node]
    exact (le_bodies e fs).trans <| (le_node _ body).trans <| (le_op _ _).trans <| (le_u32 _ _).trans <|
      (le_headers _ _ _).trans (le_u32 _ _)
  | .letrec fs body => by
    rw [Enc.node]
    exact (le_bodies e fs).trans <| (le_node _ body).trans <| (le_op _ _).trans <| (le_u32 _ _).trans <|
      (le_headers _ _ _).trans (le_u32 _ _)
  | .ann smid body => by
    rw [Enc.node]; exact (le_node e body).trans <| (le_op _ _).trans <| (le_u32 _ _).trans (le_u32 _ _)
  | .metaOf m b => by
    rw [Enc.node]; exact (le_atom e m).trans <| (le_atom _ b).trans <| (le_op _ _).trans <| (le_u32 _ _).trans (le_u32 _ _)
  | .demeta scr handler orElse => by
    rw [Enc.node]
    exact (le_node e scr).trans <| (le_node _ handler).trans <| (le_node _ orElse).trans <| (le_op _ _).trans <|
      (le_u32 _ _).trans <| (le_u32 _ _).trans (le_u32 _ _)
  | .seq scr body => by
    rw [Enc.node]
    exact (le_node e scr).trans <| (le_node _ body).trans <| (le_op _ _).trans <| (le_u32 _ _).trans (le_u32 _ _)
  | .lookup smid key obj dflt => by
    rw [Enc.node]
    exact (le_atom e dflt).trans <| (le_op _ _).trans <| (le_u32 _ _).trans <| (le_ref _ _).trans <| (le_ref _ _).trans (le_u32 _ _)
  | .fused id left right => by rw [Enc.node]; exact le_fused _ _ _ _
  | .hole => by rw [Enc.node]; exact le_op _ _
theorem le_branches (e : Enc K) : (bs : Brs K) → e.Le (e.branches bs).1
  | .nil => by rw [Enc.branches]; exact .refl _
  | .cons tag body bs => by rw [Enc.branches]; exact (le_node e body).trans (le_branches _ bs)
theorem le_fallback (e : Enc K) : (fb : Fb K) → e.Le (e.fallback fb).1
  | .none => by rw [Enc.fallback]; exact .refl _
  | .some body => by rw [Enc.fallback]; exact le_node e body
theorem le_bodies (e : Enc K) : (fs : Forms K) → e.Le (e.bodies fs).1
  | .nil => by rw [Enc.bodies]; exact .refl _
  | .cons h body fs => by rw [Enc.bodies]; exact (le_node e body).trans (le_bodies _ fs)
end

theorem le_nodes (e : Enc K) (ts : List (Syn K)) : e.Le (e.nodes ts).1 := by
  induction ts generalizing e with
  | nil => exact .refl _
  | cons t ts ih => exact (le_node e t).trans (ih _)

/-! ## Constants take code -/

/-- Every constant comes with five bytes of code. -/
def Enc.Ok (e : Enc K) : Prop := 5 * e.consts.length ≤ e.code.length

/-- Code added without constants. -/
theorem Enc.Ok.mono {e f : Enc K} (h : e.Ok) (hc : f.consts = e.consts) (hl : e.code.length ≤ f.code.length) : f.Ok := by
  unfold Enc.Ok at *; rw [hc]; omega

theorem ok_u8 {e : Enc K} (v : Nat) (h : e.Ok) : (e.u8 v).Ok := h.mono rfl (by simp [Enc.u8])
theorem ok_u32 {e : Enc K} (v : Nat) (h : e.Ok) : (e.u32 v).Ok := h.mono rfl (by simp [Enc.u32])
theorem ok_op {e : Enc K} (o : Op) (h : e.Ok) : (e.op o).Ok := ok_u8 _ h
theorem ok_ref {e : Enc K} (r : Ref K) (h : e.Ok) : (e.ref r).Ok := by
  cases r with
  | l i => exact ok_u32 _ (ok_u8 _ h)
  | g i => exact ok_u32 _ (ok_u8 _ h)
  | v n =>
    unfold Enc.Ok at *
    simp [Enc.ref, Enc.u8, Enc.u32, le4]
    omega
theorem ok_atom {e : Enc K} (r : Ref K) (h : e.Ok) : (e.atom r).1.Ok := ok_ref _ (ok_op _ h)
theorem ok_atoms {e : Enc K} (rs : List (Ref K)) (h : e.Ok) : (e.atoms rs).1.Ok := by
  induction rs generalizing e with
  | nil => exact h
  | cons r rs ih => exact ih (ok_atom r h)
theorem ok_u32s {e : Enc K} (os : List Nat) (h : e.Ok) : (e.u32s os).Ok := by
  induction os generalizing e with
  | nil => exact h
  | cons r rs ih => exact ih (ok_u32 r h)
theorem ok_args {e : Enc K} (os : List Nat) (h : e.Ok) : (e.args os).Ok := ok_u32s _ (ok_u8 _ h)
theorem ok_fused {e : Enc K} (id : Nat) (l r : Ref K) (h : e.Ok) : (e.fused id l r).1.Ok :=
  ok_u32 _ <| ok_u32 _ <| ok_u8 _ <| ok_op _ <| ok_atom r <| ok_atom l h
theorem ok_header {e : Enc K} (hd : Head) (b : Nat) (h : e.Ok) : (e.header hd b).Ok :=
  ok_u32 _ <| ok_u32 _ <| ok_u8 _ <| ok_u8 _ h
theorem ok_headers {e : Enc K} (fs : Forms K) (os : List Nat) (h : e.Ok) : (e.headers fs os).Ok := by
  induction os generalizing e fs with
  | nil => cases fs <;> exact h
  | cons o os ih =>
    cases fs with
    | nil => exact h
    | cons hd b fs => exact ih _ (ok_header hd o h)
theorem ok_table {e : Enc K} (bs : List (Nat × Nat)) (h : e.Ok) : (e.table bs).Ok := by
  cases bs with
  | nil => exact ok_u8 _ (ok_u8 _ h)
  | cons b bs => exact ok_u32s _ <| ok_u8 _ <| ok_u8 _ h

mutual
theorem ok_node {e : Enc K} (h : e.Ok) : (t : Syn K) → (e.node t).1.Ok
  | .atom r => by rw [Enc.node]; exact ok_atom r h
  | .case scr bs fb => by
    rw [Enc.node]
    have h := ok_fallback (ok_branches (ok_node h scr) bs) fb
    dsimp only
    have h := ok_table (e.node scr |>.1.branches bs).2 <| ok_u32 (e.node scr).2 <| ok_op .case h
    split
    · exact ok_u32 _ <| ok_u8 _ h
    · exact ok_u8 _ h
  | .cons tag args => by rw [Enc.node]; exact ok_args _ <| ok_u8 _ <| ok_op _ <| ok_atoms args h
  | .app f args eager => by rw [Enc.node]; exact ok_args _ <| ok_ref _ <| ok_u8 _ <| ok_op _ <| ok_atoms args h
  | .dapp smid f args eager => by
    rw [Enc.node]; exact ok_args _ <| ok_ref _ <| ok_u32 _ <| ok_u8 _ <| ok_op _ <| ok_atoms args h
  | .bif i args => by rw [Enc.node]; exact ok_args _ <| ok_u8 _ <| ok_op _ <| ok_atoms args h
  | .let_ fs body => by
    rw [Enc.node]; exact ok_u32 _ <| ok_headers _ _ <| ok_u32 _ <| ok_op _ <| ok_node (ok_bodies h fs) body
  | .letrec fs body => by
    rw [Enc.node]; exact ok_u32 _ <| ok_headers _ _ <| ok_u32 _ <| ok_op _ <| ok_node (ok_bodies h fs) body
  | .ann smid body => by rw [Enc.node]; exact ok_u32 _ <| ok_u32 _ <| ok_op _ <| ok_node h body
  | .metaOf m b => by rw [Enc.node]; exact ok_u32 _ <| ok_u32 _ <| ok_op _ <| ok_atom b <| ok_atom m h
  | .demeta scr handler orElse => by
    rw [Enc.node]
    exact ok_u32 _ <| ok_u32 _ <| ok_u32 _ <| ok_op _ <| ok_node (ok_node (ok_node h scr) handler) orElse
  | .seq scr body => by rw [Enc.node]; exact ok_u32 _ <| ok_u32 _ <| ok_op _ <| ok_node (ok_node h scr) body
  | .lookup smid key obj dflt => by
    rw [Enc.node]; exact ok_u32 _ <| ok_ref _ <| ok_ref _ <| ok_u32 _ <| ok_op _ <| ok_atom dflt h
  | .fused id left right => by rw [Enc.node]; exact ok_fused _ _ _ h
  | .hole => by rw [Enc.node]; exact ok_op _ h
theorem ok_branches {e : Enc K} (h : e.Ok) : (bs : Brs K) → (e.branches bs).1.Ok
  | .nil => by rw [Enc.branches]; exact h
  | .cons tag body bs => by rw [Enc.branches]; exact ok_branches (ok_node h body) bs
theorem ok_fallback {e : Enc K} (h : e.Ok) : (fb : Fb K) → (e.fallback fb).1.Ok
  | .none => by rw [Enc.fallback]; exact h
  | .some body => by rw [Enc.fallback]; exact ok_node h body
theorem ok_bodies {e : Enc K} (h : e.Ok) : (fs : Forms K) → (e.bodies fs).1.Ok
  | .nil => by rw [Enc.bodies]; exact h
  | .cons hd body fs => by rw [Enc.bodies]; exact ok_bodies (ok_node h body) fs
end

theorem ok_nodes {e : Enc K} (ts : List (Syn K)) (h : e.Ok) : (e.nodes ts).1.Ok := by
  induction ts generalizing e with
  | nil => exact h
  | cons t ts ih => exact ih (ok_node h t)

/-! ## Reading what was written -/

theorem get_of_prefix {a b : List Nat} {i : Nat} {x : Nat} (h : a <+: b) (hx : a[i]? = some x) : b[i]? = some x := by
  obtain ⟨t, rfl⟩ := h
  rw [List.getElem?_append_left]
  · exact hx
  · exact (List.getElem?_eq_some_iff.1 hx).1

/-- `e` after writing, up to the final state `F`, and the position before and after. -/
theorem readU8_at {e F : Enc K} {v : Nat} (h : (e.u8 v).Le F) (hv : v < 256) :
    readU8 F.code e.code.length = some (v, (e.u8 v).code.length) := by
  have : (e.u8 v).code[e.code.length]? = some v := by
    simp [Enc.u8, Nat.mod_eq_of_lt hv]
  simp [readU8, get_of_prefix h.code this, Enc.u8]

theorem le4_value {v : Nat} (hv : v < u32) :
    v % 256 + 256 * (v / 256 % 256) + 65536 * (v / 65536 % 256) + 16777216 * (v / 16777216 % 256) = v := by
  unfold u32 at hv; omega

theorem readU32_at {e F : Enc K} {v : Nat} (h : (e.u32 v).Le F) (hv : v < u32) :
    readU32 F.code e.code.length = some (v, (e.u32 v).code.length) := by
  have g (i : Nat) (x : Nat) (hx : (le4 v)[i]? = some x) : F.code[e.code.length + i]? = some x := by
    refine get_of_prefix h.code ?_
    simp only [Enc.u32]
    rw [List.getElem?_append_right (by omega), Nat.add_sub_cancel_left]
    exact hx
  have g0 := g 0 (v % 256) rfl
  have g1 := g 1 (v / 256 % 256) rfl
  have g2 := g 2 (v / 65536 % 256) rfl
  have g3 := g 3 (v / 16777216 % 256) rfl
  simp only [Nat.add_zero] at g0
  simp [readU32, g0, g1, g2, g3, le4_value hv, Enc.u32, le4]

theorem ofByte_byte (o : Op) : Op.ofByte o.byte = some o := by cases o <;> rfl
theorem byte_lt (o : Op) : o.byte < 256 := by cases o <;> decide

theorem readNode_at {e F : Enc K} {o : Op} (h : (e.op o).Le F) :
    readNode F.code e.code.length = readOperands F.code (e.op o).code.length o := by
  unfold readNode
  rw [readU8_at h (byte_lt o)]
  simp [ofByte_byte, Enc.op]

/-- The final program fits. -/
structure Fin (F : Enc K) : Prop where
  code : F.code.length < u32
  ok : F.Ok

theorem Enc.Le.length {e F : Enc K} (h : e.Le F) : e.code.length ≤ F.code.length := h.code.length_le

theorem readRef_at {e F : Enc K} {r : Ref K} (hF : Fin F) (h : (e.ref r).Le F) (hr : r.Fits) :
    ∃ d, readRef F.code e.code.length = some (d, (e.ref r).code.length) ∧ RefIs F.consts d r := by
  cases r with
  | l i =>
    have h1 := readU8_at ((le_u32 (e.u8 0) i).trans h) (by decide)
    have h2 := readU32_at (e := e.u8 0) (v := i) h hr
    exact ⟨.loc i, by simp [readRef, h1, h2, Enc.ref], rfl⟩
  | g i =>
    have h1 := readU8_at ((le_u32 (e.u8 1) i).trans h) (by decide)
    have h2 := readU32_at (e := e.u8 1) (v := i) h hr
    exact ⟨.glob i, by simp [readRef, h1, h2, Enc.ref], rfl⟩
  | v n =>
    have hk : F.consts[e.consts.length]? = some n := by
      obtain ⟨t, ht⟩ := h.consts
      rw [← ht, List.getElem?_append_left]
      · simp [Enc.ref, Enc.u8, Enc.u32]
      · simp [Enc.ref, Enc.u8, Enc.u32]
    have hlt : e.consts.length < u32 := by
      have h1 := (List.getElem?_eq_some_iff.1 hk).1
      have h2 := hF.ok
      have h3 := hF.code
      unfold Enc.Ok at h2; unfold u32 at *; omega
    have hle : (e.u8 2).Le F := by
      refine Enc.Le.trans ?_ h
      exact ⟨by simp [Enc.ref, Enc.u32], by simp [Enc.ref, Enc.u32]⟩
    have h1 := readU8_at hle (by decide)
    have h2 := readU32_at (e := { e.u8 2 with consts := (e.u8 2).consts ++ [n] }) (v := e.consts.length) h hlt
    refine ⟨.val e.consts.length, ?_, hk⟩
    have e1 : ({ e.u8 2 with consts := (e.u8 2).consts ++ [n] } : Enc K).code.length = (e.u8 2).code.length := rfl
    rw [e1] at h2
    simp only [readRef, h1, Option.bind_eq_bind, Option.bind_some, h2]
    rfl

theorem here_eq {e F : Enc K} (hF : Fin F) (h : e.Le F) : e.here = e.code.length := by
  unfold Enc.here
  exact Nat.mod_eq_of_lt (Nat.lt_of_le_of_lt h.length hF.code)

theorem here_lt {e F : Enc K} (hF : Fin F) (h : e.Le F) : e.here < u32 := by
  rw [here_eq hF h]; exact Nat.lt_of_le_of_lt h.length hF.code

theorem arg_at {e F : Enc K} {r : Ref K} (hF : Fin F) (h : (e.atom r).1.Le F) (hr : r.Fits) :
    ArgIs F.code F.consts (e.atom r).2 r := by
  have hop : (e.op .atom).Le F := (le_ref _ _).trans h
  obtain ⟨d, h1, h2⟩ := readRef_at hF (e := e.op .atom) h hr
  have hh : (e.atom r).2 = e.code.length := here_eq hF ((le_op _ _).trans hop)
  refine ⟨d, ?_, ?_, h2⟩
  · rw [hh, readNode_at hop]
    simp [readOperands, h1]
  · rw [hh]
    have : e.code.length + 1 = (e.op .atom).code.length := by simp [Enc.op, Enc.u8]
    simp [argRef, this, h1]

theorem atoms_at {e F : Enc K} {rs : List (Ref K)} (hF : Fin F) (h : (e.atoms rs).1.Le F) (hr : ∀ r ∈ rs, r.Fits) :
    ArgsAre F.code F.consts (e.atoms rs).2 rs ∧ (∀ o ∈ (e.atoms rs).2, o < u32) ∧ (e.atoms rs).2.length = rs.length := by
  induction rs generalizing e with
  | nil => exact ⟨trivial, by simp [Enc.atoms], rfl⟩
  | cons r rs ih =>
    obtain ⟨h1, h2, h3⟩ := ih (e := (e.atom r).1) h fun r hm => hr r (by simp [hm])
    have hle : (e.atom r).1.Le F := (le_atoms _ _).trans h
    refine ⟨⟨arg_at hF hle (hr r (by simp)), h1⟩, ?_, by simp [Enc.atoms, h3]⟩
    intro o ho
    simp only [Enc.atoms, List.mem_cons] at ho
    rcases ho with rfl | ho
    · exact here_lt hF ((le_atom _ _).trans hle)
    · exact h2 o ho

theorem readU32s_at {e F : Enc K} {os : List Nat} (h : (e.u32s os).Le F) (ho : ∀ o ∈ os, o < u32) :
    readU32s F.code os.length e.code.length = some (os, (e.u32s os).code.length) := by
  induction os generalizing e with
  | nil => rfl
  | cons o os ih =>
    have h1 := readU32_at (e := e) (v := o) ((le_u32s _ _).trans h) (ho o (by simp))
    have h2 := ih (e := e.u32 o) h fun o hm => ho o (by simp [hm])
    simp [readU32s, h1, h2, Enc.u32s]

theorem readArgs_at {e F : Enc K} {os : List Nat} (h : (e.args os).Le F) (hl : os.length < 256) (ho : ∀ o ∈ os, o < u32) :
    readArgs F.code e.code.length = some (os, (e.args os).code.length) := by
  have h1 := readU8_at (e := e) (v := os.length) ((le_u32s _ _).trans h) hl
  have h2 := readU32s_at (e := e.u8 os.length) h ho
  simp [readArgs, h1, h2, Enc.args]

theorem classify_fits {h : Head} (hf : h.Fits) : (classify h).1 < 256 ∧ (classify h).2.1 < 256 ∧ (classify h).2.2 < u32 := by
  cases h with
  | lambda b s =>
    rw [classify]
    split
    · exact ⟨(by decide : 2 < 256), (by decide : 0 < 256), hf.2⟩
    · exact ⟨(by decide : 0 < 256), hf.1, hf.2⟩
  | thunk => decide
  | value => decide

/-- The header written for a form. -/
def headerFor (h : Head) (body : Nat) : Header := ⟨(classify h).1, (classify h).2.1, (classify h).2.2, body⟩

theorem headerFor_head (h : Head) (body : Nat) : (headerFor h body).head = h.norm := by
  cases h with
  | lambda b s =>
    cases b with
    | zero => rfl
    | succ b => rfl
  | thunk => rfl
  | value => rfl

theorem readHeader_at {e F : Enc K} {h : Head} {b : Nat} (hle : (e.header h b).Le F) (hf : h.Fits) (hb : b < u32) :
    readHeader F.code e.code.length = some (headerFor h b, (e.header h b).code.length) := by
  obtain ⟨f1, f2, f3⟩ := classify_fits hf
  have l4 : ((((e.u8 (classify h).1).u8 (classify h).2.1).u32 (classify h).2.2).u32 b).Le F := hle
  have l3 := (le_u32 _ _).trans l4
  have l2 := (le_u32 _ _).trans l3
  have l1 := (le_u8 _ _).trans l2
  have h1 := readU8_at l1 f1
  have h2 := readU8_at l2 f2
  have h3 := readU32_at l3 f3
  have h4 := readU32_at l4 hb
  simp [readHeader, h1, h2, h3, h4, headerFor, Enc.header]

/-- The headers written for forms. -/
def headersFor : Forms K → List Nat → List Header
  | .cons h _ fs, o :: os => headerFor h o :: headersFor fs os
  | _, _ => []

def Forms.count : Forms K → Nat
  | .nil => 0
  | .cons _ _ fs => fs.count + 1

theorem readHeaders_at {e F : Enc K} {fs : Forms K} {os : List Nat} (h : (e.headers fs os).Le F) (hf : fs.Fits)
    (hl : os.length = fs.count) (ho : ∀ o ∈ os, o < u32) :
    readHeaders F.code os.length e.code.length = some (headersFor fs os, (e.headers fs os).code.length) := by
  induction os generalizing e fs with
  | nil => cases fs <;> rfl
  | cons o os ih =>
    cases fs with
    | nil => simp [Forms.count] at hl
    | cons hd b fs =>
      simp only [Forms.Fits] at hf
      have h1 := readHeader_at (e := e) ((le_headers _ fs os).trans h) hf.1 (ho o (by simp))
      have h2 := ih (e := e.header hd o) h hf.2.2 (by simpa [Forms.count] using hl) fun o hm => ho o (by simp [hm])
      simp [readHeaders, h1, h2, headersFor, Enc.headers]

theorem readU8_lt {code : List Nat} {pc : Nat} {r} (h : readU8 code pc = some r) : pc < code.length := by
  simp only [readU8, Option.map_eq_some_iff] at h
  obtain ⟨a, h, _⟩ := h
  exact (List.getElem?_eq_some_iff.1 h).1

theorem readNode_lt {code : List Nat} {off : Nat} {n : Node} (h : readNode code off = some n) : off < code.length := by
  unfold readNode at h
  cases h1 : readU8 code off with
  | none => simp [h1] at h
  | some r => exact readU8_lt h1

theorem reads_lt {code : List Nat} {ks : List K} {off : Nat} {t : Syn K} (h : Reads code ks off t) : off < code.length := by
  cases t <;> rw [Reads] at h
  case atom => obtain ⟨_, h, _⟩ := h; exact readNode_lt h
  case case => obtain ⟨_, _, _, _, h, _⟩ := h; exact readNode_lt h
  case cons => obtain ⟨_, h, _⟩ := h; exact readNode_lt h
  case app => obtain ⟨_, _, h, _⟩ := h; exact readNode_lt h
  case dapp => obtain ⟨_, _, h, _⟩ := h; exact readNode_lt h
  case «bif» => obtain ⟨_, h, _⟩ := h; exact readNode_lt h
  case let_ => obtain ⟨_, _, h, _⟩ := h; exact readNode_lt h
  case letrec => obtain ⟨_, _, h, _⟩ := h; exact readNode_lt h
  case ann => obtain ⟨_, h, _⟩ := h; exact readNode_lt h
  case metaOf => obtain ⟨_, _, h, _⟩ := h; exact readNode_lt h
  case demeta => obtain ⟨_, _, _, h, _⟩ := h; exact readNode_lt h
  case seq => obtain ⟨_, _, h, _⟩ := h; exact readNode_lt h
  case lookup => obtain ⟨_, _, _, h, _⟩ := h; exact readNode_lt h
  case fused => obtain ⟨_, _, h, _⟩ := h; exact readNode_lt h
  case hole => exact readNode_lt h

/-! ## The branch table -/

/-- The offset of the last branch for a tag. -/
def lastOff : List (Nat × Nat) → Nat → Option Nat
  | [], _ => none
  | (t, o) :: bs, tag => (lastOff bs tag).or (if t = tag then some o else none)

theorem fillTable_length (lo : Nat) (bs : List (Nat × Nat)) (table : List Nat) : (fillTable lo bs table).length = table.length := by
  induction bs generalizing table with
  | nil => rfl
  | cons b bs ih => obtain ⟨t, o⟩ := b; simp [fillTable, ih]

theorem fillTable_get (lo : Nat) (bs : List (Nat × Nat)) (table : List Nat) (hlo : ∀ b ∈ bs, lo ≤ b.1) (i : Nat)
    (hi : i < table.length) : (fillTable lo bs table)[i]? = (lastOff bs (lo + i)).or table[i]? := by
  induction bs generalizing table with
  | nil => simp [fillTable, lastOff]
  | cons b bs ih =>
    obtain ⟨t, o⟩ := b
    have ht : lo ≤ t := hlo (t, o) (by simp)
    rw [fillTable, ih _ (fun b hb => hlo b (by simp [hb])) (by simpa using hi), lastOff]
    cases lastOff bs (lo + i) with
    | some x => simp
    | none =>
      simp only [Option.none_or]
      by_cases h : t = lo + i
      · subst h
        simp [hi]
      · rw [if_neg h, List.getElem?_set_ne (by omega)]
        simp

theorem minTag_le (bs : List (Nat × Nat)) : ∀ b ∈ bs, minTag bs ≤ b.1 := by
  induction bs with
  | nil => simp
  | cons b bs ih =>
    obtain ⟨t, o⟩ := b
    cases bs with
    | nil => simp [minTag]
    | cons b' bs =>
      intro c hc
      rw [minTag]
      · rcases List.mem_cons.1 hc with rfl | hc
        · exact Nat.min_le_left _ _
        · exact Nat.le_trans (Nat.min_le_right _ _) (ih c hc)
      · simp

theorem minTag_mem (bs : List (Nat × Nat)) (h : bs ≠ []) : ∃ b ∈ bs, minTag bs = b.1 := by
  induction bs with
  | nil => simp at h
  | cons b bs ih =>
    obtain ⟨t, o⟩ := b
    cases bs with
    | nil => exact ⟨(t, o), by simp, by simp [minTag]⟩
    | cons b' bs =>
      obtain ⟨c, hc, he⟩ := ih (by simp)
      have hmin : minTag ((t, o) :: b' :: bs) = min t (minTag (b' :: bs)) := by rw [minTag]; simp
      rw [hmin]
      rcases Nat.le_total t (minTag (b' :: bs)) with h | h
      · exact ⟨(t, o), by simp, by simp [Nat.min_eq_left h]⟩
      · exact ⟨c, by simp [hc], by rw [Nat.min_eq_right h, he]⟩

theorem le_maxTag (bs : List (Nat × Nat)) : ∀ b ∈ bs, b.1 ≤ maxTag bs := by
  induction bs with
  | nil => simp
  | cons b bs ih =>
    obtain ⟨t, o⟩ := b
    intro c hc
    rw [maxTag]
    rcases List.mem_cons.1 hc with rfl | hc
    · exact Nat.le_max_left _ _
    · exact Nat.le_trans (ih c hc) (Nat.le_max_right _ _)

theorem maxTag_le (bs : List (Nat × Nat)) (hi : Nat) (h : ∀ b ∈ bs, b.1 ≤ hi) : maxTag bs ≤ hi := by
  induction bs with
  | nil => simp [maxTag]
  | cons b bs ih =>
    obtain ⟨t, o⟩ := b
    rw [maxTag]
    exact Nat.max_le.2 ⟨h (t, o) (by simp), ih fun b hb => h b (by simp [hb])⟩

theorem lastOff_mem {bs : List (Nat × Nat)} {tag o : Nat} (h : lastOff bs tag = some o) : (tag, o) ∈ bs := by
  induction bs with
  | nil => simp [lastOff] at h
  | cons b bs ih =>
    obtain ⟨t, o'⟩ := b
    rw [lastOff] at h
    cases h1 : lastOff bs tag with
    | some x =>
      rw [h1] at h; simp at h; subst h
      exact List.mem_cons_of_mem _ (ih h1)
    | none =>
      rw [h1] at h
      by_cases ht : t = tag
      · simp [ht] at h; simp [ht, h]
      · simp [ht] at h

/-- The entries of a table as the machine sees them. -/
def entries (es : List Nat) : List (Option Nat) := es.map fun e => if e = noBranch then none else some e

/-- The table written for branches. -/
def tableOf : List (Nat × Nat) → Nat × List Nat
  | [] => (0, [])
  | bs => (minTag bs, fillTable (minTag bs) bs (List.replicate (maxTag bs - minTag bs + 1) noBranch))

/-- Selecting from the table is finding the last branch for the tag. -/
theorem selectEntry_tableOf (bs : List (Nat × Nat)) (ho : ∀ b ∈ bs, b.2 < noBranch) (tag : Nat) :
    selectEntry (tableOf bs).1 (entries (tableOf bs).2) tag = lastOff bs tag := by
  cases bs with
  | nil => simp [tableOf, selectEntry, entries, lastOff]
  | cons b bs' =>
    generalize hbs : b :: bs' = bs at ho
    have hne : bs ≠ [] := by rw [← hbs]; simp
    have ht : tableOf bs = (minTag bs, fillTable (minTag bs) bs (List.replicate (maxTag bs - minTag bs + 1) noBranch)) := by
      rw [← hbs]; rfl
    rw [ht]
    have hno : tag < minTag bs ∨ maxTag bs < tag → lastOff bs tag = none := by
      intro h
      cases hl : lastOff bs tag with
      | none => rfl
      | some o =>
        have hm := lastOff_mem hl
        have h1 := minTag_le bs _ hm
        have h2 := le_maxTag bs _ hm
        simp only at h1 h2
        omega
    unfold selectEntry
    by_cases h1 : tag < minTag bs
    · rw [if_pos h1, hno (.inl h1)]
    · rw [if_neg h1]
      simp only [entries, List.getElem?_map]
      have hmm : minTag bs ≤ maxTag bs := by
        obtain ⟨b, hb, he⟩ := minTag_mem bs hne
        rw [he]; exact le_maxTag bs b hb
      by_cases h2 : maxTag bs < tag
      · rw [hno (.inr h2), List.getElem?_eq_none]
        · rfl
        · rw [fillTable_length, List.length_replicate]; omega
      · rw [fillTable_get _ _ _ (minTag_le bs) _ (by rw [List.length_replicate]; omega),
          show minTag bs + (tag - minTag bs) = tag by omega]
        cases hl : lastOff bs tag with
        | some o =>
          have := ho _ (lastOff_mem hl)
          simp only at this
          simp [Nat.ne_of_lt this]
        | none =>
          rw [Option.none_or, List.getElem?_replicate, if_pos (by omega)]
          simp

/-! ## The tree -/

theorem grow {e f g : Enc K} (o : Op) (h : e.Le f) (h' : (f.op o).Le g) : e.code.length < g.code.length := by
  have h1 := h.length
  have h2 := h'.length
  simp [Enc.op, Enc.u8] at h2
  omega

/-- A node takes at least its opcode. -/
theorem node_grows (e : Enc K) (t : Syn K) : e.code.length < (e.node t).1.code.length := by
  cases t <;> rw [Enc.node]
  case atom r => exact grow .atom (.refl _) (le_ref _ _)
  case case scr bs fb =>
    have h := (le_node e scr).trans <| (le_branches _ bs).trans (le_fallback _ fb)
    dsimp only
    split
    · exact grow .case h ((le_u32 _ _).trans <| (le_table _ _).trans <| (le_u8 _ _).trans (le_u32 _ _))
    · exact grow .case h ((le_u32 _ _).trans <| (le_table _ _).trans <| le_u8 _ _)
  case cons => exact grow .cons (le_atoms e _) ((le_u8 _ _).trans (le_args _ _))
  case app => exact grow .app (le_atoms e _) ((le_u8 _ _).trans <| (le_ref _ _).trans (le_args _ _))
  case dapp =>
    exact grow .directApp (le_atoms e _) ((le_u8 _ _).trans <| (le_u32 _ _).trans <| (le_ref _ _).trans (le_args _ _))
  case «bif» => exact grow .bif (le_atoms e _) ((le_u8 _ _).trans (le_args _ _))
  case let_ =>
    exact grow .let_ ((le_bodies e _).trans (le_node _ _)) ((le_u32 _ _).trans <| (le_headers _ _ _).trans (le_u32 _ _))
  case letrec =>
    exact grow .letRec ((le_bodies e _).trans (le_node _ _)) ((le_u32 _ _).trans <| (le_headers _ _ _).trans (le_u32 _ _))
  case ann => exact grow .ann (le_node e _) ((le_u32 _ _).trans (le_u32 _ _))
  case metaOf => exact grow .metaOf ((le_atom e _).trans (le_atom _ _)) ((le_u32 _ _).trans (le_u32 _ _))
  case demeta =>
    exact grow .deMeta ((le_node e _).trans <| (le_node _ _).trans (le_node _ _))
      ((le_u32 _ _).trans <| (le_u32 _ _).trans (le_u32 _ _))
  case seq => exact grow .seq ((le_node e _).trans (le_node _ _)) ((le_u32 _ _).trans (le_u32 _ _))
  case lookup =>
    exact grow .lookupLit (le_atom e _) ((le_u32 _ _).trans <| (le_ref _ _).trans <| (le_ref _ _).trans (le_u32 _ _))
  case fused =>
    exact grow .fusedPrimop ((le_atom e _).trans (le_atom _ _)) ((le_u8 _ _).trans <| (le_u32 _ _).trans (le_u32 _ _))
  case hole => exact grow .blackHole (.refl _) (.refl _)

theorem bodies_grow (e : Enc K) : (fs : Forms K) → e.code.length + fs.count ≤ (e.bodies fs).1.code.length
  | .nil => by rw [Enc.bodies]; simp [Forms.count]
  | .cons h body fs => by
    rw [Enc.bodies, Forms.count]
    have h1 := node_grows e body
    have h2 := bodies_grow (e.node body).1 fs
    dsimp only; omega

theorem branches_tags (e : Enc K) : (bs : Brs K) → (lo hi : Nat) → bs.within lo hi →
    ∀ b ∈ (e.branches bs).2, lo ≤ b.1 ∧ b.1 ≤ hi
  | .nil, lo, hi, h => by rw [Enc.branches]; simp
  | .cons tag body bs, lo, hi, h => by
    rw [Brs.within] at h
    rw [Enc.branches]
    intro b hb
    rcases List.mem_cons.1 hb with rfl | hb
    · exact ⟨h.1, h.2.1⟩
    · exact branches_tags _ bs lo hi h.2.2 b hb

theorem branches_has (e : Enc K) : (bs : Brs K) → (tag : Nat) → (lastOff (e.branches bs).2 tag ≠ none ↔ bs.has tag)
  | .nil, tag => by rw [Enc.branches]; simp [lastOff, Brs.has]
  | .cons t body bs, tag => by
    rw [Enc.branches, Brs.has]
    have ih := branches_has (e.node body).1 bs tag
    simp only [lastOff]
    by_cases h : t = tag
    · simp [h]
    · simp only [h, if_false, false_or, ← ih, Option.or_none]

theorem bodies_length (e : Enc K) : (fs : Forms K) → (e.bodies fs).2.length = fs.count
  | .nil => by rw [Enc.bodies]; rfl
  | .cons h body fs => by rw [Enc.bodies, Forms.count]; simp [bodies_length]

theorem readsBrs_mono {code : List Nat} {ks : List K} {sel sel' : Nat → Option Nat}
    (hs : ∀ t o, sel t = some o → sel' t = some o) : (bs : Brs K) → ReadsBrs code ks sel bs → ReadsBrs code ks sel' bs
  | .nil, h => by rw [ReadsBrs]; trivial
  | .cons tag body bs, h => by
    rw [ReadsBrs] at h ⊢
    refine ⟨fun hn => ?_, readsBrs_mono hs bs h.2⟩
    obtain ⟨o, h1, h2⟩ := h.1 hn
    exact ⟨o, hs _ _ h1, h2⟩

/-- The table is read back. -/
theorem table_at {e F : Enc K} {bs : List (Nat × Nat)} (h : (e.table bs).Le F) {lo : Nat}
    (ht : ∀ b ∈ bs, lo ≤ b.1 ∧ b.1 ≤ lo + 254) (h8 : ∀ b ∈ bs, b.1 < 256) (ho : ∀ b ∈ bs, b.2 < noBranch) :
    ∃ p1 p2, readU8 F.code e.code.length = some ((tableOf bs).1, p1) ∧
      readU8 F.code p1 = some ((tableOf bs).2.length, p2) ∧
      readU32s F.code (tableOf bs).2.length p2 = some ((tableOf bs).2, (e.table bs).code.length) := by
  cases bs with
  | nil =>
    have h1 := readU8_at (e := e) ((le_u8 _ 0).trans h) (by decide)
    have h2 := readU8_at (e := e.u8 0) h (by decide)
    exact ⟨_, _, h1, h2, rfl⟩
  | cons b bs' =>
    generalize hbs : b :: bs' = bs at *
    have hne : bs ≠ [] := by rw [← hbs]; simp
    have htab : tableOf bs = (minTag bs, fillTable (minTag bs) bs (List.replicate (maxTag bs - minTag bs + 1) noBranch)) := by
      rw [← hbs]; rfl
    have he : e.table bs = ((e.u8 (minTag bs)).u8 (maxTag bs - minTag bs + 1)).u32s (tableOf bs).2 := by
      rw [htab, ← hbs]; rfl
    rw [he] at h ⊢
    have hlen : (tableOf bs).2.length = maxTag bs - minTag bs + 1 := by rw [htab, fillTable_length, List.length_replicate]
    obtain ⟨b0, hb0, hm⟩ := minTag_mem bs hne
    have hmax : maxTag bs ≤ lo + 254 := maxTag_le bs _ fun b hb => (ht b hb).2
    have hl8 : maxTag bs - minTag bs + 1 < 256 := by have := (ht b0 hb0).1; omega
    have h1 := readU8_at (e := e) (v := minTag bs) ((le_u8 _ _).trans ((le_u32s _ _).trans h)) (by rw [hm]; exact h8 b0 hb0)
    have h2 := readU8_at (e := e.u8 (minTag bs)) ((le_u32s _ _).trans h) hl8
    have h3 := readU32s_at h (by
      intro x hx
      rw [htab] at hx
      obtain ⟨i, hi, rfl⟩ := List.getElem_of_mem hx
      simp only at hi
      have hg := fillTable_get (minTag bs) bs (List.replicate (maxTag bs - minTag bs + 1) noBranch) (minTag_le bs) i
        (by rw [fillTable_length] at hi; exact hi)
      rw [List.getElem?_eq_getElem hi] at hg
      cases hlo : lastOff bs (minTag bs + i) with
      | some o =>
        have h4 := ho _ (lastOff_mem hlo)
        rw [hlo] at hg; simp only [Option.some_or, Option.some.injEq] at hg
        simp only [hg]
        simp only [noBranch] at h4; omega
      | none =>
        rw [hlo, Option.none_or, List.getElem?_replicate] at hg
        split at hg
        · simp only [Option.some.injEq] at hg
          rw [hg]; decide
        · simp at hg)
    refine ⟨_, _, h1.trans (by rw [htab]), h2.trans (by rw [hlen]), ?_⟩
    exact h3

/-- The offset of a node is in range when its encoding is. -/
theorem node_off_lt {F : Enc K} (hF : Fin F) {o : Nat} {t : Syn K} (h : Reads F.code F.consts o t) : o < noBranch := by
  have h1 := reads_lt h
  have h2 := hF.code
  unfold noBranch; omega

theorem off_lt {F : Enc K} (hF : Fin F) {o : Nat} {t : Syn K} (h : Reads F.code F.consts o t) : o < u32 :=
  Nat.lt_trans (reads_lt h) hF.code

theorem argIs_lt {F : Enc K} (hF : Fin F) {o : Nat} {r : Ref K} (h : ArgIs F.code F.consts o r) : o < u32 :=
  off_lt hF (t := .atom r) (by rw [Reads]; exact h)

theorem fused_reads {e F : Enc K} (hF : Fin F) (id : Nat) (l r : Ref K) (hid : id < 256) (hl : l.Fits) (hr : r.Fits)
    (hle : (e.fused id l r).1.Le F) : Reads F.code F.consts (e.fused id l r).2 (.fused id l r) := by
  rw [Reads]
  let e1 := (e.atom l).1
  let e2 := (e1.atom r).1
  have l4 : ((((e2.op .fusedPrimop).u8 id).u32 (e.atom l).2).u32 (e1.atom r).2).Le F := hle
  have l3 := (le_u32 _ _).trans l4
  have l2 := (le_u32 _ _).trans l3
  have l1 := (le_u8 _ _).trans l2
  have l0 : e2.Le F := (le_op _ _).trans l1
  have a1 := arg_at hF ((le_atom _ _).trans l0) hl
  have a2 := arg_at hF l0 hr
  refine ⟨_, _, ?_, a1, a2⟩
  show readNode F.code e2.here = _
  rw [here_eq hF l0, readNode_at l1]
  simp [readOperands, readU8_at l2 hid, readU32_at l3 (argIs_lt hF a1), readU32_at l4 (argIs_lt hF a2)]

/-- The end of a case. -/
def Enc.fbTail (e : Enc K) : Option Nat → Enc K
  | some o => (e.u8 1).u32 o
  | none => e.u8 0

mutual
theorem node_reads {e F : Enc K} (hF : Fin F) : (t : Syn K) → t.Fits → (e.node t).1.Le F → Reads F.code F.consts (e.node t).2 t
  | .atom r, hf, hle => by
    rw [Syn.Fits] at hf; rw [Enc.node] at *; rw [Reads]; exact arg_at hF hle hf
  | .case scr bs fb, hf, hle => by
    rw [Syn.Fits] at hf
    obtain ⟨f1, f2, ⟨lo, f3, f3'⟩, f4⟩ := hf
    rw [Reads]
    generalize h1 : e.node scr = r1 at *
    obtain ⟨e1, so⟩ := r1
    generalize h2 : e1.branches bs = r2 at *
    obtain ⟨e2, bos⟩ := r2
    generalize h3 : e2.fallback fb = r3 at *
    obtain ⟨e3, fo⟩ := r3
    have hn : e.node (.case scr bs fb) = ((((e3.op .case).u32 so).table bos).fbTail fo, e3.here) := by
      rw [Enc.node]; simp only [h1, h2, h3]; cases fo <;> rfl
    rw [hn] at hle ⊢
    have k2 : (((e3.op .case).u32 so).table bos).Le F := by
      cases fo with
      | none => exact (le_u8 _ _).trans hle
      | some o => exact (le_u8 _ _).trans ((le_u32 _ _).trans hle)
    have k1 := (le_table _ _).trans k2
    have k0 := (le_u32 _ _).trans k1
    have k : e3.Le F := (le_op _ _).trans k0
    have q3 := le_fallback e2 fb; rw [h3] at q3
    have q2 := le_branches e1 bs; rw [h2] at q2
    have r1 := node_reads hF (e := e) scr f1 (by rw [h1]; exact q2.trans (q3.trans k))
    rw [h1] at r1
    have r2 := branches_reads hF (e := e1) bs f2 (by rw [h2]; exact q3.trans k)
    rw [h2] at r2
    have r3 := fallback_reads hF (e := e2) fb f4 (by rw [h3]; exact k)
    rw [h3] at r3
    have t1 := branches_tags e1 bs lo (lo + 254) f3; rw [h2] at t1
    have t2 := branches_tags e1 bs 0 255 f3'; rw [h2] at t2
    have t3 := branches_has e1 bs; rw [h2] at t3
    obtain ⟨p1, p2, g1, g2, g3⟩ := table_at k2 t1 (fun b hb => by have := (t2 b hb).2; omega) r2.2
    have hsel := selectEntry_tableOf bos r2.2
    have hfun : selectEntry (tableOf bos).1 (entries (tableOf bos).2) = lastOff bos := funext hsel
    refine ⟨so, (tableOf bos).1, entries (tableOf bos).2, fo, ?_, r1, ?_, ?_, r3⟩
    · refine (congrArg (readNode F.code) (here_eq hF k)).trans ?_
      rw [readNode_at k0]
      simp only [readOperands, readU32_at k1 (off_lt hF r1), Option.bind_eq_bind, Option.bind_some, g1, g2, g3]
      cases fo with
      | none =>
        simp only [readU8_at hle (by decide), Option.bind_some, show ¬ ((0 : Nat) = 1) by decide, if_false]
        rfl
      | some o =>
        have ho : o < u32 := by
          cases fb with
          | none => rw [ReadsFb] at r3; exact r3.elim; all_goals simp
          | some b => rw [ReadsFb] at r3; exact off_lt hF r3
        have k3 := (le_u32 _ _).trans hle
        simp only [readU8_at k3 (by decide), Option.bind_some, if_true, readU32_at hle ho]
        rfl
    · intro tag h
      rw [hfun] at h
      exact (t3 tag).1 h
    · rw [hfun]; exact r2.1
  | .cons tag args, hf, hle => by
    rw [Syn.Fits] at hf
    rw [Enc.node] at *
    rw [Reads]
    have k2 := (le_args _ _).trans hle
    have k1 := (le_u8 _ _).trans k2
    have k := (le_op _ _).trans k1
    obtain ⟨a1, a2, a3⟩ := atoms_at hF k hf.2.2
    refine ⟨_, ?_, a1⟩
    refine (congrArg (readNode F.code) (here_eq hF k)).trans ?_
    rw [readNode_at k1]
    have hl : (e.atoms args).2.length < 256 := by rw [a3]; exact hf.2.1
    simp [readOperands, readU8_at k2 hf.1, readArgs_at hle hl a2]
  | .app f args eager, hf, hle => by
    rw [Syn.Fits] at hf
    rw [Enc.node] at *
    rw [Reads]
    have k3 := (le_args _ _).trans hle
    have k2 := (le_ref _ _).trans k3
    have k1 := (le_u8 _ _).trans k2
    have k := (le_op _ _).trans k1
    obtain ⟨a1, a2, a3⟩ := atoms_at hF k hf.2.2
    obtain ⟨d, d1, d2⟩ := readRef_at hF k3 hf.1
    refine ⟨d, _, ?_, d2, a1⟩
    refine (congrArg (readNode F.code) (here_eq hF k)).trans ?_
    rw [readNode_at k1]
    have hl : (e.atoms args).2.length < 256 := by rw [a3]; exact hf.2.1
    have hfl : eagerFlag eager < 256 := by cases eager <;> decide
    simp only [readOperands, readU8_at k2 hfl, d1, readArgs_at hle hl a2, Option.bind_eq_bind, Option.bind_some]
    cases eager <;> rfl
  | .dapp smid f args eager, hf, hle => by
    rw [Syn.Fits] at hf
    rw [Enc.node] at *
    rw [Reads]
    have k4 := (le_args _ _).trans hle
    have k3 := (le_ref _ _).trans k4
    have k2 := (le_u32 _ _).trans k3
    have k1 := (le_u8 _ _).trans k2
    have k := (le_op _ _).trans k1
    obtain ⟨a1, a2, a3⟩ := atoms_at hF k hf.2.2.2
    obtain ⟨d, d1, d2⟩ := readRef_at hF k4 hf.2.1
    refine ⟨d, _, ?_, d2, a1⟩
    refine (congrArg (readNode F.code) (here_eq hF k)).trans ?_
    rw [readNode_at k1]
    have hl : (e.atoms args).2.length < 256 := by rw [a3]; exact hf.2.2.1
    have hfl : eagerFlag eager < 256 := by cases eager <;> decide
    simp only [readOperands, readU8_at k2 hfl, readU32_at k3 hf.1, d1, readArgs_at hle hl a2, Option.bind_eq_bind,
      Option.bind_some]
    cases eager <;> rfl
  | .bif i args, hf, hle => by
    rw [Syn.Fits] at hf
    rw [Enc.node] at *
    rw [Reads]
    have k2 := (le_args _ _).trans hle
    have k1 := (le_u8 _ _).trans k2
    have k := (le_op _ _).trans k1
    obtain ⟨a1, a2, a3⟩ := atoms_at hF k hf.2.2
    refine ⟨_, ?_, a1⟩
    refine (congrArg (readNode F.code) (here_eq hF k)).trans ?_
    rw [readNode_at k1]
    have hl : (e.atoms args).2.length < 256 := by rw [a3]; exact hf.2.1
    simp [readOperands, readU8_at k2 hf.1, readArgs_at hle hl a2]
  | .let_ fs body, hf, hle => by
    rw [Syn.Fits] at hf
    rw [Enc.node] at *
    rw [Reads]
    have k2 := (le_u32 _ _).trans hle
    have k1 := (le_headers _ _ _).trans k2
    have k0 := (le_u32 _ _).trans k1
    have k := (le_op _ _).trans k0
    have r1 := bodies_reads hF fs hf.1 ((le_node _ body).trans k)
    have r2 := node_reads hF body hf.2 k
    refine ⟨_, _, ?_, r1.1, r2⟩
    have hl := bodies_length e fs
    refine (congrArg (readNode F.code) (here_eq hF k)).trans ?_
    rw [readNode_at k0]
    have hcount : (e.bodies fs).2.length < u32 := by
      have g1 := bodies_grow e fs
      have g2 := ((le_node _ body).trans k).length
      have g3 := hF.code
      omega
    simp [readOperands, readU32_at k1 hcount, readHeaders_at k2 hf.1 hl r1.2, readU32_at hle (off_lt hF r2)]
  | .letrec fs body, hf, hle => by
    rw [Syn.Fits] at hf
    rw [Enc.node] at *
    rw [Reads]
    have k2 := (le_u32 _ _).trans hle
    have k1 := (le_headers _ _ _).trans k2
    have k0 := (le_u32 _ _).trans k1
    have k := (le_op _ _).trans k0
    have r1 := bodies_reads hF fs hf.1 ((le_node _ body).trans k)
    have r2 := node_reads hF body hf.2 k
    refine ⟨_, _, ?_, r1.1, r2⟩
    have hl := bodies_length e fs
    refine (congrArg (readNode F.code) (here_eq hF k)).trans ?_
    rw [readNode_at k0]
    have hcount : (e.bodies fs).2.length < u32 := by
      have g1 := bodies_grow e fs
      have g2 := ((le_node _ body).trans k).length
      have g3 := hF.code
      omega
    simp [readOperands, readU32_at k1 hcount, readHeaders_at k2 hf.1 hl r1.2, readU32_at hle (off_lt hF r2)]
  | .ann smid body, hf, hle => by
    rw [Syn.Fits] at hf
    rw [Enc.node] at *
    rw [Reads]
    have k1 := (le_u32 _ _).trans hle
    have k0 := (le_u32 _ _).trans k1
    have k := (le_op _ _).trans k0
    have r := node_reads hF body hf.2 k
    refine ⟨_, ?_, r⟩
    refine (congrArg (readNode F.code) (here_eq hF k)).trans ?_
    rw [readNode_at k0]
    simp [readOperands, readU32_at k1 hf.1, readU32_at hle (off_lt hF r)]
  | .metaOf m b, hf, hle => by
    rw [Syn.Fits] at hf
    rw [Enc.node] at *
    rw [Reads]
    have k1 := (le_u32 _ _).trans hle
    have k0 := (le_u32 _ _).trans k1
    have k := (le_op _ _).trans k0
    have a1 := arg_at hF ((le_atom _ _).trans k) hf.1
    have a2 := arg_at hF k hf.2
    refine ⟨_, _, ?_, a1, a2⟩
    refine (congrArg (readNode F.code) (here_eq hF k)).trans ?_
    rw [readNode_at k0]
    simp [readOperands, readU32_at k1 (argIs_lt hF a1), readU32_at hle (argIs_lt hF a2)]
  | .demeta scr handler orElse, hf, hle => by
    rw [Syn.Fits] at hf
    rw [Enc.node] at *
    rw [Reads]
    have k2 := (le_u32 _ _).trans hle
    have k1 := (le_u32 _ _).trans k2
    have k0 := (le_u32 _ _).trans k1
    have k := (le_op _ _).trans k0
    have r3 := node_reads hF orElse hf.2.2 k
    have k' := (le_node _ _).trans k
    have r2 := node_reads hF handler hf.2.1 k'
    have r1 := node_reads hF scr hf.1 ((le_node _ _).trans k')
    refine ⟨_, _, _, ?_, r1, r2, r3⟩
    refine (congrArg (readNode F.code) (here_eq hF k)).trans ?_
    rw [readNode_at k0]
    simp [readOperands, readU32_at k1 (off_lt hF r1), readU32_at k2 (off_lt hF r2), readU32_at hle (off_lt hF r3)]
  | .seq scr body, hf, hle => by
    rw [Syn.Fits] at hf
    rw [Enc.node] at *
    rw [Reads]
    have k1 := (le_u32 _ _).trans hle
    have k0 := (le_u32 _ _).trans k1
    have k := (le_op _ _).trans k0
    have r2 := node_reads hF body hf.2 k
    have r1 := node_reads hF scr hf.1 ((le_node _ _).trans k)
    refine ⟨_, _, ?_, r1, r2⟩
    refine (congrArg (readNode F.code) (here_eq hF k)).trans ?_
    rw [readNode_at k0]
    simp [readOperands, readU32_at k1 (off_lt hF r1), readU32_at hle (off_lt hF r2)]
  | .lookup smid key obj dflt, hf, hle => by
    rw [Syn.Fits] at hf
    rw [Enc.node] at *
    rw [Reads]
    have k3 := (le_u32 _ _).trans hle
    have k2 := (le_ref _ _).trans k3
    have k1 := (le_ref _ _).trans k2
    have k0 := (le_u32 _ _).trans k1
    have k := (le_op _ _).trans k0
    have a := arg_at hF k hf.2.2.2
    obtain ⟨d1, x1, y1⟩ := readRef_at hF k2 hf.2.1
    obtain ⟨d2, x2, y2⟩ := readRef_at hF k3 hf.2.2.1
    refine ⟨d1, d2, _, ?_, y1, y2, a⟩
    refine (congrArg (readNode F.code) (here_eq hF k)).trans ?_
    rw [readNode_at k0]
    simp [readOperands, readU32_at k1 hf.1, x1, x2, readU32_at hle (argIs_lt hF a)]
  | .fused id left right, hf, hle => by
    rw [Syn.Fits] at hf
    rw [Enc.node] at *
    exact fused_reads hF id left right hf.1 hf.2.1 hf.2.2 hle
  | .hole, hf, hle => by
    rw [Enc.node] at *
    rw [Reads, here_eq hF ((le_op _ _).trans hle), readNode_at hle]
    rfl
theorem branches_reads {e F : Enc K} (hF : Fin F) : (bs : Brs K) → bs.Fits → (e.branches bs).1.Le F →
    ReadsBrs F.code F.consts (lastOff (e.branches bs).2) bs ∧ ∀ b ∈ (e.branches bs).2, b.2 < noBranch
  | .nil, hf, hle => by rw [Enc.branches, ReadsBrs]; simp
  | .cons tag body bs, hf, hle => by
    rw [Brs.Fits] at hf
    have hh := branches_has (e.node body).1 bs tag
    rw [Enc.branches] at *
    have r1 := node_reads hF body hf.1 ((le_branches _ bs).trans hle)
    obtain ⟨r2, r3⟩ := branches_reads hF bs hf.2 hle
    rw [ReadsBrs]
    refine ⟨⟨fun hn => ⟨_, ?_, r1⟩, readsBrs_mono ?_ bs r2⟩, ?_⟩
    · have : lastOff ((e.node body).1.branches bs).2 tag = none := by
        cases h : lastOff ((e.node body).1.branches bs).2 tag with
        | none => rfl
        | some o => exact absurd (hh.1 (by rw [h]; simp)) hn
      simp [lastOff, this]
    · intro t o h
      simp [lastOff, h]
    · intro b hb
      rcases List.mem_cons.1 hb with rfl | hb
      · exact node_off_lt hF r1
      · exact r3 b hb
theorem fallback_reads {e F : Enc K} (hF : Fin F) : (fb : Fb K) → fb.Fits → (e.fallback fb).1.Le F →
    ReadsFb F.code F.consts (e.fallback fb).2 fb
  | .none, hf, hle => by rw [Enc.fallback, ReadsFb]; trivial
  | .some body, hf, hle => by
    rw [Fb.Fits] at hf
    rw [Enc.fallback] at *
    rw [ReadsFb]
    exact node_reads hF body hf hle
theorem bodies_reads {e F : Enc K} (hF : Fin F) : (fs : Forms K) → fs.Fits → (e.bodies fs).1.Le F →
    ReadsForms F.code F.consts (headersFor fs (e.bodies fs).2) fs ∧ ∀ o ∈ (e.bodies fs).2, o < u32
  | .nil, hf, hle => by rw [Enc.bodies, headersFor, ReadsForms] <;> simp
  | .cons h body fs, hf, hle => by
    rw [Forms.Fits] at hf
    rw [Enc.bodies] at *
    have r1 := node_reads hF body hf.2.1 ((le_bodies _ fs).trans hle)
    obtain ⟨r2, r3⟩ := bodies_reads hF fs hf.2.2 hle
    rw [headersFor, ReadsForms]
    refine ⟨⟨headerFor_head _ _, r1, r2⟩, ?_⟩
    intro o ho
    rcases List.mem_cons.1 ho with rfl | ho
    · exact off_lt hF r1
    · exact r3 o ho
end

/-! ## The size of the code -/

mutual
/-- An upper bound for the bytes a tree takes. -/
def Syn.bytes : Syn K → Nat
  | .atom _ => 6
  | .case scr bs fb => scr.bytes + bs.bytes + fb.bytes + 12 + 4 * (bs.top + 1)
  | .cons _ args => 10 * args.length + 3
  | .app _ args _ => 10 * args.length + 8
  | .dapp _ _ args _ => 10 * args.length + 12
  | .bif _ args => 10 * args.length + 3
  | .let_ fs body => fs.bytes + body.bytes + 9
  | .letrec fs body => fs.bytes + body.bytes + 9
  | .ann _ body => body.bytes + 9
  | .metaOf _ _ => 21
  | .demeta scr handler orElse => scr.bytes + handler.bytes + orElse.bytes + 13
  | .seq scr body => scr.bytes + body.bytes + 9
  | .lookup _ _ _ _ => 25
  | .fused _ _ _ => 22
  | .hole => 1
def Brs.bytes : Brs K → Nat
  | .nil => 0
  | .cons _ body bs => body.bytes + bs.bytes
/-- The highest tag. -/
def Brs.top : Brs K → Nat
  | .nil => 0
  | .cons t _ bs => max t bs.top
def Fb.bytes : Fb K → Nat
  | .none => 0
  | .some body => body.bytes
def Forms.bytes : Forms K → Nat
  | .nil => 0
  | .cons _ body fs => body.bytes + fs.bytes + 10
end

theorem len_u8 (e : Enc K) (v : Nat) : (e.u8 v).code.length = e.code.length + 1 := by simp [Enc.u8]
theorem len_u32 (e : Enc K) (v : Nat) : (e.u32 v).code.length = e.code.length + 4 := by simp [Enc.u32, le4]
theorem len_op (e : Enc K) (o : Op) : (e.op o).code.length = e.code.length + 1 := len_u8 _ _
theorem len_ref (e : Enc K) (r : Ref K) : (e.ref r).code.length = e.code.length + 5 := by
  cases r <;> simp [Enc.ref, Enc.u8, Enc.u32, le4]
theorem len_atom (e : Enc K) (r : Ref K) : (e.atom r).1.code.length = e.code.length + 6 := by
  simp [Enc.atom, len_ref, len_op]
theorem len_atoms (e : Enc K) (rs : List (Ref K)) : (e.atoms rs).1.code.length = e.code.length + 6 * rs.length ∧
    (e.atoms rs).2.length = rs.length := by
  induction rs generalizing e with
  | nil => simp [Enc.atoms]
  | cons r rs ih =>
    have := ih (e.atom r).1
    have h6 := len_atom e r
    simp only [Enc.atoms, List.length_cons]; omega
theorem len_u32s (e : Enc K) (os : List Nat) : (e.u32s os).code.length = e.code.length + 4 * os.length := by
  induction os generalizing e with
  | nil => simp [Enc.u32s]
  | cons o os ih => simp only [Enc.u32s, ih, len_u32, List.length_cons]; omega
theorem len_args (e : Enc K) (os : List Nat) : (e.args os).code.length = e.code.length + 1 + 4 * os.length := by
  simp [Enc.args, len_u32s, len_u8]
theorem len_headers (e : Enc K) (fs : Forms K) (os : List Nat) : (e.headers fs os).code.length ≤ e.code.length + 10 * os.length := by
  induction os generalizing e fs with
  | nil => cases fs <;> simp [Enc.headers]
  | cons o os ih =>
    cases fs with
    | nil => simp [Enc.headers]
    | cons h b fs =>
      have := ih (e.header h o) fs
      simp only [Enc.headers, List.length_cons]
      simp only [Enc.header, len_u32, len_u8] at this ⊢
      omega
theorem len_table (e : Enc K) (bs : List (Nat × Nat)) : (e.table bs).code.length ≤ e.code.length + 2 + 4 * (maxTag bs + 1) := by
  cases bs with
  | nil => simp [Enc.table, len_u8]
  | cons b bs =>
    simp only [Enc.table, len_u32s, len_u8, fillTable_length, List.length_replicate]
    omega

theorem branches_top (e : Enc K) : (bs : Brs K) → maxTag (e.branches bs).2 = bs.top
  | .nil => by rw [Enc.branches, Brs.top]; rfl
  | .cons t body bs => by rw [Enc.branches, Brs.top]; simp only [maxTag, branches_top]

mutual
theorem len_node (e : Enc K) : (t : Syn K) → (e.node t).1.code.length ≤ e.code.length + t.bytes
  | .atom r => by rw [Enc.node, Syn.bytes, len_atom]; omega
  | .case scr bs fb => by
    rw [Enc.node, Syn.bytes]
    have h1 := len_node e scr
    have h2 := len_branches (e.node scr).1 bs
    have h3 := len_fallback ((e.node scr).1.branches bs).1 fb
    have h4 := len_table (((((e.node scr).1.branches bs).1.fallback fb).1.op .case).u32 (e.node scr).2) ((e.node scr).1.branches bs).2
    rw [branches_top] at h4
    simp only [len_u32, len_op] at h4
    dsimp only
    split <;> simp only [len_u32, len_u8] <;> omega
  | .cons tag args => by
    rw [Enc.node, Syn.bytes]; have := len_atoms e args; simp only [len_args, len_u8, len_op]; omega
  | .app f args eager => by
    rw [Enc.node, Syn.bytes]; have := len_atoms e args; simp only [len_args, len_u8, len_op, len_ref]; omega
  | .dapp smid f args eager => by
    rw [Enc.node, Syn.bytes]; have := len_atoms e args; simp only [len_args, len_u8, len_op, len_ref, len_u32]; omega
  | .bif i args => by
    rw [Enc.node, Syn.bytes]; have := len_atoms e args; simp only [len_args, len_u8, len_op]; omega
  | .let_ fs body => by
    rw [Enc.node, Syn.bytes]
    have h1 := len_bodies e fs
    have h2 := len_node (e.bodies fs).1 body
    have h3 := len_headers ((((e.bodies fs).1.node body).1.op .let_).u32 (e.bodies fs).2.length) fs (e.bodies fs).2
    simp only [len_u32, len_op] at h3 ⊢
    omega
  | .letrec fs body => by
    rw [Enc.node, Syn.bytes]
    have h1 := len_bodies e fs
    have h2 := len_node (e.bodies fs).1 body
    have h3 := len_headers ((((e.bodies fs).1.node body).1.op .letRec).u32 (e.bodies fs).2.length) fs (e.bodies fs).2
    simp only [len_u32, len_op] at h3 ⊢
    omega
  | .ann smid body => by
    rw [Enc.node, Syn.bytes]; have := len_node e body; simp only [len_u32, len_op]; omega
  | .metaOf m b => by rw [Enc.node, Syn.bytes]; simp only [len_u32, len_op, len_atom]; omega
  | .demeta scr handler orElse => by
    rw [Enc.node, Syn.bytes]
    have h1 := len_node e scr
    have h2 := len_node (e.node scr).1 handler
    have h3 := len_node ((e.node scr).1.node handler).1 orElse
    simp only [len_u32, len_op]; omega
  | .seq scr body => by
    rw [Enc.node, Syn.bytes]
    have h1 := len_node e scr
    have h2 := len_node (e.node scr).1 body
    simp only [len_u32, len_op]; omega
  | .lookup smid key obj dflt => by rw [Enc.node, Syn.bytes]; simp only [len_u32, len_op, len_atom, len_ref]; omega
  | .fused id left right => by
    rw [Enc.node, Syn.bytes]; simp only [Enc.fused, len_u32, len_op, len_atom, len_u8]; omega
  | .hole => by rw [Enc.node, Syn.bytes, len_op]; omega
theorem len_branches (e : Enc K) : (bs : Brs K) → (e.branches bs).1.code.length ≤ e.code.length + bs.bytes
  | .nil => by rw [Enc.branches, Brs.bytes]; simp
  | .cons tag body bs => by
    rw [Enc.branches, Brs.bytes]
    have h1 := len_node e body
    have h2 := len_branches (e.node body).1 bs
    dsimp only; omega
theorem len_fallback (e : Enc K) : (fb : Fb K) → (e.fallback fb).1.code.length ≤ e.code.length + fb.bytes
  | .none => by rw [Enc.fallback, Fb.bytes]; simp
  | .some body => by rw [Enc.fallback, Fb.bytes]; exact len_node e body
theorem len_bodies (e : Enc K) : (fs : Forms K) →
    (e.bodies fs).1.code.length + 10 * (e.bodies fs).2.length ≤ e.code.length + fs.bytes
  | .nil => by rw [Enc.bodies, Forms.bytes]; simp
  | .cons h body fs => by
    rw [Enc.bodies, Forms.bytes]
    have h1 := len_node e body
    have h2 := len_bodies (e.node body).1 fs
    simp only [List.length_cons]; omega
end

theorem len_nodes (e : Enc K) (ts : List (Syn K)) : (e.nodes ts).1.code.length ≤ e.code.length + (ts.map Syn.bytes).sum := by
  induction ts generalizing e with
  | nil => simp [Enc.nodes]
  | cons t ts ih =>
    have h1 := len_node e t
    have h2 := ih (e.node t).1
    simp only [Enc.nodes, List.map_cons, List.sum_cons]; omega

end Verif.Bc
