import Verif.EngDecode
import Verif.BcProps

/-!
# Decoding a program once changes nothing that execution reads
-/

namespace Verif.Eng
open Verif.Bc
variable {K : Type}

/-! ## The encoder writes bytes -/

theorem bytes_u8 {e : Enc K} (v : Nat) (h : Bytes e.code) : Bytes (e.u8 v).code := by
  intro b hb
  rcases List.mem_append.1 hb with hb | hb
  · exact h b hb
  · cases List.mem_singleton.1 hb; exact Nat.mod_lt _ (by decide)
theorem bytes_u32 {e : Enc K} (v : Nat) (h : Bytes e.code) : Bytes (e.u32 v).code := by
  intro b hb
  rcases List.mem_append.1 hb with hb | hb
  · exact h b hb
  · simp only [le4, List.mem_cons, List.not_mem_nil, or_false] at hb
    rcases hb with rfl | rfl | rfl | rfl <;> exact Nat.mod_lt _ (by decide)
theorem bytes_op {e : Enc K} (o : Op) (h : Bytes e.code) : Bytes (e.op o).code := bytes_u8 _ h
theorem bytes_ref {e : Enc K} (r : Ref K) (h : Bytes e.code) : Bytes (e.ref r).code := by
  cases r with
  | l i => exact bytes_u32 _ (bytes_u8 _ h)
  | g i => exact bytes_u32 _ (bytes_u8 _ h)
  | v n =>
    exact bytes_u32 (e := { (e.u8 2) with consts := (e.u8 2).consts ++ [n] }) _ (bytes_u8 2 h)
theorem bytes_atom {e : Enc K} (r : Ref K) (h : Bytes e.code) : Bytes (e.atom r).1.code := bytes_ref _ (bytes_op _ h)
theorem bytes_atoms {e : Enc K} (rs : List (Ref K)) (h : Bytes e.code) : Bytes (e.atoms rs).1.code := by
  induction rs generalizing e with
  | nil => exact h
  | cons r rs ih => exact ih (bytes_atom r h)
theorem bytes_u32s {e : Enc K} (os : List Nat) (h : Bytes e.code) : Bytes (e.u32s os).code := by
  induction os generalizing e with
  | nil => exact h
  | cons r rs ih => exact ih (bytes_u32 r h)
theorem bytes_args {e : Enc K} (os : List Nat) (h : Bytes e.code) : Bytes (e.args os).code := bytes_u32s _ (bytes_u8 _ h)
theorem bytes_fused {e : Enc K} (id : Nat) (l r : Ref K) (h : Bytes e.code) : Bytes (e.fused id l r).1.code :=
  bytes_u32 _ <| bytes_u32 _ <| bytes_u8 _ <| bytes_op _ <| bytes_atom r <| bytes_atom l h
theorem bytes_header {e : Enc K} (hd : Head) (b : Nat) (h : Bytes e.code) : Bytes (e.header hd b).code :=
  bytes_u32 _ <| bytes_u32 _ <| bytes_u8 _ <| bytes_u8 _ h
theorem bytes_headers {e : Enc K} (fs : Forms K) (os : List Nat) (h : Bytes e.code) : Bytes (e.headers fs os).code := by
  induction os generalizing e fs with
  | nil => cases fs <;> exact h
  | cons o os ih =>
    cases fs with
    | nil => exact h
    | cons hd b fs => exact ih _ (bytes_header hd o h)
theorem bytes_table {e : Enc K} (bs : List (Nat × Nat)) (h : Bytes e.code) : Bytes (e.table bs).code := by
  cases bs with
  | nil => exact bytes_u8 _ (bytes_u8 _ h)
  | cons b bs => exact bytes_u32s _ <| bytes_u8 _ <| bytes_u8 _ h

mutual
theorem bytes_node {e : Enc K} (h : Bytes e.code) : (t : Syn K) → Bytes (e.node t).1.code
  | .atom r => by rw [Enc.node]; exact bytes_atom r h
  | .case scr bs fb => by
    rw [Enc.node]
    have h := bytes_fallback (bytes_branches (bytes_node h scr) bs) fb
    dsimp only
    have h := bytes_table (e.node scr |>.1.branches bs).2 <| bytes_u32 (e.node scr).2 <| bytes_op .case h
    split
    · exact bytes_u32 _ <| bytes_u8 _ h
    · exact bytes_u8 _ h
  | .cons tag args => by rw [Enc.node]; exact bytes_args _ <| bytes_u8 _ <| bytes_op _ <| bytes_atoms args h
  | .app f args eager => by rw [Enc.node]; exact bytes_args _ <| bytes_ref _ <| bytes_u8 _ <| bytes_op _ <| bytes_atoms args h
  | .dapp smid f args eager => by
    rw [Enc.node]; exact bytes_args _ <| bytes_ref _ <| bytes_u32 _ <| bytes_u8 _ <| bytes_op _ <| bytes_atoms args h
  | .bif i args => by rw [Enc.node]; exact bytes_args _ <| bytes_u8 _ <| bytes_op _ <| bytes_atoms args h
  | .let_ fs body => by
    rw [Enc.node]; exact bytes_u32 _ <| bytes_headers _ _ <| bytes_u32 _ <| bytes_op _ <| bytes_node (bytes_bodies h fs) body
  | .letrec fs body => by
    rw [Enc.node]; exact bytes_u32 _ <| bytes_headers _ _ <| bytes_u32 _ <| bytes_op _ <| bytes_node (bytes_bodies h fs) body
  | .ann smid body => by rw [Enc.node]; exact bytes_u32 _ <| bytes_u32 _ <| bytes_op _ <| bytes_node h body
  | .metaOf m b => by rw [Enc.node]; exact bytes_u32 _ <| bytes_u32 _ <| bytes_op _ <| bytes_atom b <| bytes_atom m h
  | .demeta scr handler orElse => by
    rw [Enc.node]
    exact bytes_u32 _ <| bytes_u32 _ <| bytes_u32 _ <| bytes_op _ <| bytes_node (bytes_node (bytes_node h scr) handler) orElse
  | .seq scr body => by rw [Enc.node]; exact bytes_u32 _ <| bytes_u32 _ <| bytes_op _ <| bytes_node (bytes_node h scr) body
  | .lookup smid key obj dflt => by
    rw [Enc.node]; exact bytes_u32 _ <| bytes_ref _ <| bytes_ref _ <| bytes_u32 _ <| bytes_op _ <| bytes_atom dflt h
  | .fused id left right => by rw [Enc.node]; exact bytes_fused _ _ _ h
  | .hole => by rw [Enc.node]; exact bytes_op _ h
theorem bytes_branches {e : Enc K} (h : Bytes e.code) : (bs : Brs K) → Bytes (e.branches bs).1.code
  | .nil => by rw [Enc.branches]; exact h
  | .cons tag body bs => by rw [Enc.branches]; exact bytes_branches (bytes_node h body) bs
theorem bytes_fallback {e : Enc K} (h : Bytes e.code) : (fb : Fb K) → Bytes (e.fallback fb).1.code
  | .none => by rw [Enc.fallback]; exact h
  | .some body => by rw [Enc.fallback]; exact bytes_node h body
theorem bytes_bodies {e : Enc K} (h : Bytes e.code) : (fs : Forms K) → Bytes (e.bodies fs).1.code
  | .nil => by rw [Enc.bodies]; exact h
  | .cons hd body fs => by rw [Enc.bodies]; exact bytes_bodies (bytes_node h body) fs
end

theorem bytes_nodes {e : Enc K} (ts : List (Syn K)) (h : Bytes e.code) : Bytes (e.nodes ts).1.code := by
  induction ts generalizing e with
  | nil => exact h
  | cons t ts ih => exact ih (bytes_node h t)


theorem bytes_globals {e : Enc K} (fusible : Nat → Bool) (i : Nat) (fs : List (Form K)) (h : Bytes e.code) :
    Bytes (e.globals fusible i fs).1.code := by
  induction fs generalizing e i with
  | nil => exact h
  | cons f fs ih =>
    rw [globals_cons]
    refine ih _ ?_
    unfold Enc.global; split
    · exact bytes_fused _ _ _ h
    · exact bytes_node h _

theorem bytes_encode (pn : Nat) (fusible : Nat → Bool) (root : Syn K) (globals : List (Form K)) :
    Bytes (encode pn fusible root globals).1.code := by
  unfold encode
  generalize (fixtureTrees pn : List (Syn K)) = ts
  exact bytes_node (bytes_globals fusible 0 globals (bytes_nodes (e := Enc.mk [] []) ts (by intro b hb; cases hb))) root

theorem bytes_root_onto (base : Prog K) (root : Syn K) (h : Bytes base.code) : Bytes (encodeRootOnto base root).1.code :=
  bytes_node (e := Enc.mk base.code base.consts) h root

theorem bytes_overrides {e : Enc K} (hs : List Header) (os : List (Nat × Form K)) (h : Bytes e.code) :
    Bytes (e.overrides hs os).1.code := by
  induction os generalizing e hs with
  | nil => exact h
  | cons o os ih =>
    obtain ⟨s, f⟩ := o
    exact ih _ (bytes_node h _)

theorem bytes_overrides_and_root (base : Prog K) (os : List (Nat × Form K)) (root : Syn K) (h : Bytes base.code) :
    Bytes (encodeOverridesAndRoot base os root).1.code :=
  bytes_node (bytes_overrides (e := Enc.mk base.code base.consts) base.globals os h) root

/-! ## Enough fuel -/

theorem enough_fuel (code : List Nat) (ks : List K) : ∃ m, ∀ fuel, m ≤ fuel → Enough code ks fuel := by
  have key : ∀ L, ∃ m, ∀ o n c, o < L → Peels code n o c → n < m := by
    intro L
    induction L with
    | zero => exact ⟨0, fun o n c h => by omega⟩
    | succ L ih =>
      obtain ⟨m, hm⟩ := ih
      by_cases h : ∃ n c, Peels code n L c
      · obtain ⟨n, c, hp⟩ := h
        refine ⟨max m (n + 1), fun o n' c' ho hp' => ?_⟩
        rcases Nat.lt_succ_iff_lt_or_eq.1 ho with ho | rfl
        · have := hm o n' c' ho hp'; omega
        · obtain ⟨rfl, _⟩ := hp.unique hp'; omega
      · refine ⟨m, fun o n' c' ho hp' => ?_⟩
        rcases Nat.lt_succ_iff_lt_or_eq.1 ho with ho | rfl
        · exact hm o n' c' ho hp'
        · exact (h ⟨n', c', hp'⟩).elim
  obtain ⟨m, hm⟩ := key code.length
  refine ⟨m, fun fuel hf o n c hg hp => ?_⟩
  have := hm o n c (good_lt hg) hp
  omega

/-! ## The theorems -/

/-- The tree of a global slot: its form, or the fused instruction of a fusible intrinsic, unless the program replaces it. -/
def slotTree (fusible : Nat → Bool) (globals : List (Form K)) (os : List (Nat × Form K)) (i : Nat) : Option (Syn K) :=
  match globals[i]?, overrideFor os i with
  | none, _ => none
  | some _, some g => some g.body
  | some f, none => some (if fusible i && fusibleShape f then .fused i (.l 0) (.l 1) else f.body)

/-- A program whose bytes stand for these trees: its entry, its global slots and its fixed code. -/
structure ImageIs (p : Prog K) (entry : Nat) (root : Syn K) (slot : Nat → Option (Syn K)) (fixed : List (Syn K)) : Prop where
  root : Reads p.code p.consts entry root
  globals : ∀ (i : Nat) (h : Header), p.globals[i]? = some h → ∃ t, slot i = some t ∧ Reads p.code p.consts h.body t
  fixtures : ReadsAll p.code p.consts p.fixtures fixed

/-- A decoded program whose instructions stand for these trees. -/
structure DecodedIs (q : Decoded) (p : Prog K) (root : Syn K) (slot : Nat → Option (Syn K)) (fixed : List (Syn K)) : Prop where
  root : Shows (decodedEngine q) p.consts q.root root
  count : q.globals.length = p.globals.length
  globals : ∀ (i k : Nat), q.globals[i]? = some k → ∃ t, slot i = some t ∧ Shows (decodedEngine q) p.consts k t
  fixtures : ShowsAll (decodedEngine q) p.consts q.fixtures fixed
  /-- the map from byte offsets keeps what they stand for -/
  offsets : ∀ o k t, q.ordOf o = some k → Reads p.code p.consts o t → Shows (decodedEngine q) p.consts k t
  /-- the two maps are inverse on instructions -/
  back : ∀ k : Nat, k < q.instrs.length → ∃ c, q.offOf[k]? = some c ∧ q.ordOf c = some k

theorem Final.all {code : List Nat} {ks : List K} {p : Decoded} (h : Final code p) :
    ∀ {os ns : List Nat} {ts : List (Syn K)}, ReadsAll code ks os ts → mapAll p.ordOf os = some ns →
    ShowsAll (decodedEngine p) ks ns ts
  | [], ns, [], _, e => by cases e; trivial
  | o :: os, ns, t :: ts, hr, e => by
    simp only [mapAll, Option.bind_eq_bind, Option.bind_eq_some_iff] at e
    obtain ⟨k, h1, ks', h2, h3⟩ := e
    cases h3
    exact ⟨h.showsAt t o k hr.1 h1, h.all hr.2 h2⟩
  | [], _, _ :: _, hr, _ => hr.elim
  | _ :: _, _, [], hr, _ => hr.elim

theorem readsAll_good {code : List Nat} {ks : List K} : ∀ {os : List Nat} {ts : List (Syn K)}, ReadsAll code ks os ts →
    ∀ o ∈ os, Good code ks o
  | [], _, _ => by simp
  | o :: os, t :: ts, h => by
    intro x hx
    rcases List.mem_cons.1 hx with rfl | hx
    · exact ⟨t, h.1⟩
    · exact readsAll_good h.2 x hx
  | _ :: _, [], h => h.elim

theorem mapAll_length {α β : Type} {f : α → Option β} : ∀ {as : List α} {bs : List β}, mapAll f as = some bs →
    bs.length = as.length
  | [], bs, h => by cases h; rfl
  | a :: as, bs, h => by
    simp only [mapAll, Option.bind_eq_bind, Option.bind_eq_some_iff] at h
    obtain ⟨b, h1, bs', h2, h3⟩ := h
    cases h3
    rw [List.length_cons, List.length_cons, mapAll_length h2]

theorem new_inv (code : List Nat) (ks : List K) : Inv code ks (fun _ => False) Dec.new :=
  ⟨fun _ _ h => (by cases h), fun _ h => (by cases h), fun _ h => (by cases h), fun _ _ h => (by cases h), rfl,
    fun _ _ h => (by cases h), fun _ h => (by cases h), fun _ _ h => (by cases h)⟩

/-- **C49.**  Decoding succeeds on every program whose bytes can be read, and the instructions show what the bytes say: the
entry the root expression, every global slot its tree, and the fixed code the trees the machine expects. -/
theorem decode_keeps_program {p : Prog K} {entry : Nat} {root : Syn K} {slot : Nat → Option (Syn K)} {fixed : List (Syn K)}
    (hp : ImageIs p entry root slot fixed) (hb : Bytes p.code) (hl : codeFits p = true) :
    ∃ m, ∀ fuel n, m ≤ fuel → p.code.length < n →
      ∃ q, decodeProgram fuel n p entry = some q ∧ DecodedIs q p root slot fixed := by
  obtain ⟨m, hm⟩ := enough_fuel p.code p.consts
  refine ⟨m, fun fuel n hf hn => ?_⟩
  have hF := hm fuel hf
  have hl : p.code.length ≤ noBranch := by simpa [codeFits, noBranch] using hl
  have hgg : ∀ o ∈ p.globals.map (·.body), Good p.code p.consts o := by
    intro o ho
    obtain ⟨h, hh, rfl⟩ := List.mem_map.1 ho
    obtain ⟨i, hi⟩ := List.mem_iff_getElem?.1 hh
    obtain ⟨t, _, ht⟩ := hp.globals i h hi
    exact ⟨t, ht⟩
  obtain ⟨d1, r, a1, a2, a3, _, a5⟩ := ordinal_ok hF ⟨root, hp.root⟩ (new_inv p.code p.consts)
  obtain ⟨d2, gs, b1, b2, b3, _, b5, b6⟩ := ordinals_ok hF hgg a2
  obtain ⟨d3, fs, c1, c2, c3, _, c5, c6⟩ := ordinals_ok hF (readsAll_good hp.fixtures) b2
  have hcount : d3.queue.length = d3.offOf.length := by
    have h1 := ((a3.trans b3).trans c3).count
    simpa [Dec.new] using h1
  obtain ⟨d4, e1, e2, e3, e4⟩ := drain_ok hF hl hb c2 (n := n) (by have := c2.bound; omega)
  obtain ⟨is, i1, i2⟩ := allSome_ok (is := d4.instrs) fun k e => by
    rcases e2.pend k e with h | ⟨o, h⟩
    · exact h
    · rw [e4] at h; cases h
  have hfin : Final p.code ⟨d4.toPools, is, r, gs, fs, d4.offOf, d4.ordOf⟩ := by
    refine ⟨e2.dom, fun k c hk => ?_⟩
    have hk : d4.offOf[k]? = some c := hk
    have hlt : k < d4.instrs.length := by rw [← e2.len]; exact (List.getElem?_eq_some_iff.1 hk).1
    have hget := List.getElem?_eq_getElem hlt
    cases hx : d4.instrs[k] with
    | none =>
      rw [hx] at hget
      rcases e2.pend k hget with h | ⟨o, h⟩
      · exact h.elim
      · rw [e4] at h; cases h
    | some i =>
      rw [hx] at hget
      obtain ⟨c', g1, g2⟩ := e2.done k i hget
      rw [hk] at g1; cases g1
      refine ⟨i, ?_, g2⟩
      show is[k]? = some i
      rw [i2, hget]; rfl
  have hs1 : Sub d1.ordOf d4.ordOf := fun _ _ e => e3 _ _ (c3.ord _ _ (b3.ord _ _ e))
  have hs2 : Sub d2.ordOf d4.ordOf := fun _ _ e => e3 _ _ (c3.ord _ _ e)
  refine ⟨⟨d4.toPools, is, r, gs, fs, d4.offOf, d4.ordOf⟩, ?_, ?_⟩
  · simp [decodeProgram, a1, b1, c1, e1, i1]
  · refine ⟨hfin.showsAt root entry r hp.root (hs1 _ _ a5), ?_, ?_, hfin.all hp.fixtures (mapAll_sub e3 _ _ c5),
      fun o k t hk ht => hfin.showsAt t o k ht hk, ?_⟩
    · show gs.length = p.globals.length
      rw [b6, List.length_map]
    · intro i k hi
      rcases mapAll_get (mapAll_sub hs2 _ _ b5) i with ⟨_, n1⟩ | ⟨a, b, n1, n2, n3⟩
      · have hi : gs[i]? = some k := hi
        rw [hi] at n1; cases n1
      · have hi : gs[i]? = some k := hi
        rw [hi] at n2; cases n2
        rw [List.getElem?_map] at n1
        obtain ⟨h, g1, g2⟩ := Option.map_eq_some_iff.1 n1
        subst g2
        obtain ⟨t, t1, t2⟩ := hp.globals i h g1
        exact ⟨t, t1, hfin.showsAt t h.body k t2 n3⟩
    · intro k hk
      have hk : k < is.length := hk
      have h1 := i2 k
      rw [List.getElem?_eq_getElem hk] at h1
      have h2 : k < d4.offOf.length := by
        rw [e2.len]
        cases hx : d4.instrs[k]? with
        | none => rw [hx] at h1; cases h1
        | some y => exact (List.getElem?_eq_some_iff.1 hx).1
      exact ⟨_, List.getElem?_eq_getElem h2, e2.back k _ (List.getElem?_eq_getElem h2)⟩

theorem encode_image (pn : Nat) (fusible : Nat → Bool) (root : Syn K) (globals : List (Form K))
    (hl : Limits pn fusible root globals) (hfit : codeFits (encode pn fusible root globals).1 = true) :
    ImageIs (encode pn fusible root globals).1 (encode pn fusible root globals).2 root (slotTree fusible globals [])
      (fixtureTrees pn) := by
  have h := encode_means_program pn fusible root globals hl hfit
  generalize encode pn fusible root globals = x at *
  refine ⟨h.root, fun i hd hi => ?_, h.fixtures⟩
  have hlt : i < globals.length := by rw [← h.count]; exact (List.getElem?_eq_some_iff.1 hi).1
  obtain ⟨h', e1, _, e3⟩ := h.globals i _ (List.getElem?_eq_getElem hlt)
  rw [hi] at e1; cases e1
  refine ⟨_, ?_, e3⟩
  simp [slotTree, hlt, overrideFor]

theorem overrides_image (pn : Nat) (fusible : Nat → Bool) (root : Syn K) (globals : List (Form K))
    (os : List (Nat × Form K)) (hl : Limits pn fusible root globals) (hos : ∀ o ∈ os, o.2.Fits)
    (p : Prog K) (entry : Nat) (hp : encodeOverridesAndRoot (encodePrelude pn fusible globals) os root = (p, entry))
    (hfit : codeFits p = true) : ImageIs p entry root (slotTree fusible globals os) (fixtureTrees pn) := by
  obtain ⟨h1, h2, h3, h4⟩ := overrides_mean_program pn fusible root globals os hl hos p entry hp hfit
  refine ⟨h1, fun i hd hi => ?_, h4⟩
  have hlt : i < globals.length := by rw [← h2]; exact (List.getElem?_eq_some_iff.1 hi).1
  have h5 := h3 i _ (List.getElem?_eq_getElem hlt)
  unfold slotTree
  rw [List.getElem?_eq_getElem hlt]
  cases ho : overrideFor os i with
  | some g =>
    rw [ho] at h5
    obtain ⟨h', e1, _, e3⟩ := h5
    rw [hi] at e1; cases e1
    exact ⟨_, rfl, e3⟩
  | none =>
    rw [ho] at h5
    obtain ⟨h', e1, _, e3⟩ := h5
    rw [hi] at e1; cases e1
    exact ⟨_, rfl, e3⟩

/-- **C49.**  From the trees of a program, through its bytes, to the instructions the machine runs: encoding and decoding
give the same trees back, whenever the parts are within the format's limits and the code passes the driver's size check. -/
theorem encode_decode_program (pn : Nat) (fusible : Nat → Bool) (root : Syn K) (globals : List (Form K))
    (hl : Limits pn fusible root globals) (hfit : codeFits (encode pn fusible root globals).1 = true) :
    ∃ m, ∀ fuel n, m ≤ fuel → (encode pn fusible root globals).1.code.length < n →
      ∃ q, decodeProgram fuel n (encode pn fusible root globals).1 (encode pn fusible root globals).2 = some q ∧
        DecodedIs q (encode pn fusible root globals).1 root (slotTree fusible globals []) (fixtureTrees pn) :=
  decode_keeps_program (encode_image pn fusible root globals hl hfit) (bytes_encode pn fusible root globals) hfit

theorem bytes_prelude (pn : Nat) (fusible : Nat → Bool) (globals : List (Form K)) :
    Bytes (encodePrelude pn fusible globals).code := by
  unfold encodePrelude
  generalize (fixtureTrees pn : List (Syn K)) = ts
  exact bytes_globals fusible 0 globals (bytes_nodes (e := Enc.mk [] []) ts (by intro b hb; cases hb))

/-- **C49, the form the driver uses.**  The same for a prelude image with some slots replaced and the program's root
appended. -/
theorem overrides_decode_program (pn : Nat) (fusible : Nat → Bool) (root : Syn K) (globals : List (Form K))
    (os : List (Nat × Form K)) (hl : Limits pn fusible root globals) (hos : ∀ o ∈ os, o.2.Fits)
    (p : Prog K) (entry : Nat) (hp : encodeOverridesAndRoot (encodePrelude pn fusible globals) os root = (p, entry))
    (hfit : codeFits p = true) :
    ∃ m, ∀ fuel n, m ≤ fuel → p.code.length < n →
      ∃ q, decodeProgram fuel n p entry = some q ∧ DecodedIs q p root (slotTree fusible globals os) (fixtureTrees pn) := by
  refine decode_keeps_program (overrides_image pn fusible root globals os hl hos p entry hp hfit) ?_ hfit
  have h := bytes_overrides_and_root (encodePrelude pn fusible globals) os root (bytes_prelude pn fusible globals)
  rw [hp] at h
  exact h

theorem readsAll_shows {code : List Nat} {ks : List K} : ∀ {os : List Nat} {ts : List (Syn K)}, ReadsAll code ks os ts →
    ShowsAll (byteEngine code) ks os ts
  | [], [], _ => trivial
  | _ :: _, _ :: _, h => ⟨reads_shows _ _ h.1, readsAll_shows h.2⟩
  | [], _ :: _, h => h.elim
  | _ :: _, [], h => h.elim

/-- **C49.**  Execution from the bytes reads the same trees: the two ways of running a program see the same program. -/
theorem bytes_show_program {p : Prog K} {entry : Nat} {root : Syn K} {slot : Nat → Option (Syn K)} {fixed : List (Syn K)}
    (hp : ImageIs p entry root slot fixed) :
    Shows (byteEngine p.code) p.consts entry root ∧
    (∀ (i : Nat) (h : Header), p.globals[i]? = some h → ∃ t, slot i = some t ∧ Shows (byteEngine p.code) p.consts h.body t) ∧
    ShowsAll (byteEngine p.code) p.consts p.fixtures fixed := by
  refine ⟨reads_shows root entry hp.root, fun i h hi => ?_, readsAll_shows hp.fixtures⟩
  obtain ⟨t, t1, t2⟩ := hp.globals i h hi
  exact ⟨t, t1, reads_shows t h.body t2⟩

/-! ## Examples -/

example : ∃ m, ∀ fuel n, m ≤ fuel → (encode 77 (fun i => i = 0) sampleRoot sampleGlobals).1.code.length < n →
    ∃ q, decodeProgram fuel n (encode 77 (fun i => i = 0) sampleRoot sampleGlobals).1
        (encode 77 (fun i => i = 0) sampleRoot sampleGlobals).2 = some q ∧
      DecodedIs q (encode 77 (fun i => i = 0) sampleRoot sampleGlobals).1 sampleRoot
        (slotTree (fun i => i = 0) sampleGlobals []) (fixtureTrees 77) :=
  encode_decode_program _ _ _ _ sample_limits sample_fits

example (p : Prog Nat) (entry : Nat) (h : encode 77 (fun i => i = 0) sampleRoot sampleGlobals = (p, entry)) :
    ∃ m, ∀ fuel n, m ≤ fuel → p.code.length < n → ∃ q, decodeProgram fuel n p entry = some q ∧
      DecodedIs q p sampleRoot (slotTree (fun i => i = 0) sampleGlobals []) (fixtureTrees 77) :=
  overrides_decode_program 77 (fun i => i = 0) sampleRoot sampleGlobals [] sample_limits (by simp) p entry
    ((no_overrides _ _).trans ((append_is_encode _ _ _ _).trans h))
    (by have := sample_fits; rw [h] at this; exact this)

example : Shows (byteEngine (encode 77 (fun i => i = 0) sampleRoot sampleGlobals).1.code)
    (encode 77 (fun i => i = 0) sampleRoot sampleGlobals).1.consts
    (encode 77 (fun i => i = 0) sampleRoot sampleGlobals).2 sampleRoot :=
  (bytes_show_program (encode_image _ _ _ _ sample_limits sample_fits)).1

end Verif.Eng
