import Verif.EngLemmas

/-!
# Decoding keeps every node
-/

namespace Verif.Eng
open Verif.Bc
variable {K : Type}

/-! ## Reading -/

theorem ofByte_eq {b : Nat} {op : Op} (h : Op.ofByte b = some op) : b = op.byte := by
  by_cases hb : b < 16
  · revert h
    match b, hb with
    | 0, _ | 1, _ | 2, _ | 3, _ | 4, _ | 5, _ | 6, _ | 7, _ | 8, _ | 9, _ | 10, _ | 11, _ | 12, _ | 13, _ | 14, _
    | 15, _ => cases op <;> decide
    | n + 16, h => omega
  · unfold Op.ofByte at h
    rw [if_neg (by omega), if_neg (by omega), if_neg (by omega), if_neg (by omega), if_neg (by omega), if_neg (by omega),
      if_neg (by omega), if_neg (by omega), if_neg (by omega), if_neg (by omega), if_neg (by omega), if_neg (by omega),
      if_neg (by omega), if_neg (by omega), if_neg (by omega)] at h
    cases h

theorem readNode_op {code : List Nat} {o : Nat} {n : Node} (h : readNode code o = some n) :
    ∃ op, code[o]? = some op.byte ∧ readOperands code (o + 1) op = some n := by
  unfold readNode readU8 at h
  cases hc : code[o]? with
  | none => simp [hc] at h
  | some b =>
    simp only [hc, Option.map_some, Option.bind_eq_bind, Option.bind_some] at h
    cases ho : Op.ofByte b with
    | none => simp [ho] at h
    | some op =>
      rw [ho] at h
      exact ⟨op, by rw [ofByte_eq ho], h⟩

theorem readNode_ann {code : List Nat} {o s b : Nat} (h : readNode code o = some (.ann s b)) :
    code[o]? = some Op.ann.byte ∧ ∃ pc pc', readU32 code (o + 1) = some (s, pc) ∧ readU32 code pc = some (b, pc') := by
  obtain ⟨op, h1, h2⟩ := readNode_op h
  cases op with
  | ann =>
    refine ⟨h1, ?_⟩
    simp only [readOperands, Option.bind_eq_bind] at h2
    cases e1 : readU32 code (o + 1) with
    | none => simp [e1] at h2
    | some x =>
      obtain ⟨x, pc⟩ := x
      simp only [e1, Option.bind_some] at h2
      cases e2 : readU32 code pc with
      | none => simp [e2] at h2
      | some y =>
        obtain ⟨y, pc'⟩ := y
        simp [e2] at h2
        obtain ⟨rfl, rfl⟩ := h2
        exact ⟨pc, pc', rfl, e2⟩
  | case =>
    simp only [readOperands, Option.bind_eq_bind, Option.bind_eq_some_iff] at h2
    obtain ⟨_, _, _, _, _, _, _, _, _, _, h2⟩ := h2
    split at h2
    · simp only [Option.bind_eq_some_iff] at h2
      obtain ⟨_, _, h2⟩ := h2
      cases h2
    · cases h2
  | _ =>
    simp only [readOperands, Option.bind_eq_bind, Option.bind_eq_some_iff] at h2
    grind

theorem readNode_not {code : List Nat} {o : Nat} {n : Node} (h : readNode code o = some n) (hn : ∀ s b, n ≠ .ann s b) :
    ∃ b, code[o]? = some b ∧ b ≠ Op.ann.byte := by
  obtain ⟨op, h1, h2⟩ := readNode_op h
  refine ⟨_, h1, fun e => ?_⟩
  have : op = .ann := by cases op <;> first | rfl | (revert e; decide)
  subst this
  simp only [readOperands, Option.bind_eq_bind, Option.bind_eq_some_iff] at h2
  obtain ⟨⟨s, pc⟩, _, ⟨b, pc'⟩, _, h2⟩ := h2
  cases h2
  exact hn _ _ rfl

theorem readU32s_length {code : List Nat} : ∀ {n pc : Nat} {xs : List Nat} {pc' : Nat},
    readU32s code n pc = some (xs, pc') → xs.length = n
  | 0, pc, xs, pc', h => by cases h; rfl
  | n + 1, pc, xs, pc', h => by
    simp only [readU32s, Option.bind_eq_bind, Option.bind_eq_some_iff] at h
    obtain ⟨⟨x, p1⟩, _, ⟨ys, p2⟩, h2, h3⟩ := h
    cases h3
    rw [List.length_cons, readU32s_length h2]

/-- Every byte of the code is one. -/
def Bytes (code : List Nat) : Prop := ∀ b ∈ code, b < 256

theorem readU8_byte {code : List Nat} {pc x pc' : Nat} (hb : Bytes code) (h : readU8 code pc = some (x, pc')) : x < 256 := by
  unfold readU8 at h
  cases hc : code[pc]? with
  | none => rw [hc] at h; cases h
  | some b =>
    rw [hc] at h; cases h
    exact hb _ (List.mem_of_getElem? hc)

theorem readArgs_small {code : List Nat} {pc : Nat} {xs : List Nat} {pc' : Nat} (hb : Bytes code)
    (h : readArgs code pc = some (xs, pc')) : xs.length < 256 := by
  simp only [readArgs, Option.bind_eq_bind, Option.bind_eq_some_iff] at h
  obtain ⟨⟨n, p1⟩, h1, h2⟩ := h
  rw [readU32s_length h2]
  exact readU8_byte hb h1

/-- The counts and numbers of a node that must fit their fields. -/
def Small : Node → Prop
  | .case _ _ table _ => table.length < 256
  | .cons tag args => tag < 256 ∧ args.length < 256
  | .app _ _ args => args.length < 256
  | .dapp _ _ _ args => args.length < 256
  | .bif i args => i < 256 ∧ args.length < 256
  | _ => True

theorem readNode_small {code : List Nat} {o : Nat} {n : Node} (hb : Bytes code) (h : readNode code o = some n) : Small n := by
  obtain ⟨op, _, h⟩ := readNode_op h
  cases op with
  | case =>
    simp only [readOperands, Option.bind_eq_bind, Option.bind_eq_some_iff] at h
    obtain ⟨_, _, _, _, ⟨len, p⟩, h3, ⟨es, p4⟩, h4, _, _, h⟩ := h
    have hl : es.length < 256 := by rw [readU32s_length h4]; exact readU8_byte hb h3
    split at h
    · simp only [Option.bind_eq_some_iff] at h
      obtain ⟨_, _, h⟩ := h
      cases h
      simpa [Small] using hl
    · cases h
      simpa [Small] using hl
  | cons =>
    simp only [readOperands, Option.bind_eq_bind, Option.bind_eq_some_iff] at h
    obtain ⟨⟨tag, p⟩, h1, ⟨args, p'⟩, h2, h⟩ := h
    cases h
    exact ⟨readU8_byte hb h1, readArgs_small hb h2⟩
  | «bif» =>
    simp only [readOperands, Option.bind_eq_bind, Option.bind_eq_some_iff] at h
    obtain ⟨⟨tag, p⟩, h1, ⟨args, p'⟩, h2, h⟩ := h
    cases h
    exact ⟨readU8_byte hb h1, readArgs_small hb h2⟩
  | app =>
    simp only [readOperands, Option.bind_eq_bind, Option.bind_eq_some_iff] at h
    obtain ⟨_, _, _, _, ⟨args, p'⟩, h2, h⟩ := h
    cases h
    exact readArgs_small hb h2
  | directApp =>
    simp only [readOperands, Option.bind_eq_bind, Option.bind_eq_some_iff] at h
    obtain ⟨_, _, _, _, _, _, ⟨args, p'⟩, h2, h⟩ := h
    cases h
    exact readArgs_small hb h2
  | _ =>
    simp only [readOperands, Option.bind_eq_bind, Option.bind_eq_some_iff] at h
    grind [Small]

/-! ## Renaming the children of a view -/

def mapAll {α β : Type} (f : α → Option β) : List α → Option (List β)
  | [] => some []
  | a :: as => do
    let b ← f a
    let bs ← mapAll f as
    some (b :: bs)

def mapOpt (f : Nat → Option Nat) : Option Nat → Option (Option Nat)
  | none => some none
  | some o => (f o).map some

def mapBind (f : Nat → Option Nat) (b : Bind Nat) : Option (Bind Nat) := (f b.body).map fun k => { b with body := k }

def mapView (f : Nat → Option Nat) : View Nat → Option (View Nat)
  | .atom r => some (.atom r)
  | .case scr lo table fb => do some (.case (← f scr) lo (← mapAll (mapOpt f) table) (← mapOpt f fb))
  | .cons tag args => some (.cons tag args)
  | .app eager g args => do some (.app eager g (← mapAll f args))
  | .dapp eager g args => do some (.dapp eager g (← mapAll f args))
  | .bif i args => some (.bif i args)
  | .let_ hs body => do some (.let_ (← mapAll (mapBind f) hs) (← f body))
  | .letrec hs body => do some (.letrec (← mapAll (mapBind f) hs) (← f body))
  | .ann body => do some (.ann (← f body))
  | .metaOf m b => some (.metaOf m b)
  | .demeta s h o => do some (.demeta (← f s) (← f h) (← f o))
  | .seq s b => do some (.seq (← f s) (← f b))
  | .lookup key obj dflt => do some (.lookup key obj (← f dflt))
  | .fused id l r => do some (.fused id (← f l) (← f r))
  | .hole => some .hole

/-- One map defined wherever another is, with the same values. -/
def Sub {α β : Type} (f g : α → Option β) : Prop := ∀ a b, f a = some b → g a = some b

theorem mapAll_sub {α β : Type} {f g : α → Option β} (h : Sub f g) : Sub (mapAll f) (mapAll g)
  | [], b, e => e
  | a :: as, b, e => by
    simp only [mapAll, Option.bind_eq_bind, Option.bind_eq_some_iff] at e ⊢
    obtain ⟨x, h1, ys, h2, h3⟩ := e
    exact ⟨x, h _ _ h1, ys, mapAll_sub h _ _ h2, h3⟩

theorem mapOpt_sub {f g : Nat → Option Nat} (h : Sub f g) : Sub (mapOpt f) (mapOpt g)
  | none, b, e => e
  | some o, b, e => by
    simp only [mapOpt, Option.map_eq_some_iff] at e ⊢
    obtain ⟨x, h1, h2⟩ := e
    exact ⟨x, h _ _ h1, h2⟩

theorem mapBind_sub {f g : Nat → Option Nat} (h : Sub f g) : Sub (mapBind f) (mapBind g) := by
  intro a b e
  simp only [mapBind, Option.map_eq_some_iff] at e ⊢
  obtain ⟨x, h1, h2⟩ := e
  exact ⟨x, h _ _ h1, h2⟩

theorem mapView_sub {f g : Nat → Option Nat} (h : Sub f g) : Sub (mapView f) (mapView g) := by
  intro v v' e
  cases v with
  | atom r => exact e
  | cons tag args => exact e
  | «bif» i args => exact e
  | metaOf m b => exact e
  | hole => exact e
  | case scr lo table fb =>
    simp only [mapView, Option.bind_eq_bind, Option.bind_eq_some_iff] at e ⊢
    obtain ⟨x, h1, y, h2, z, h3, h4⟩ := e
    exact ⟨x, h _ _ h1, y, mapAll_sub (mapOpt_sub h) _ _ h2, z, mapOpt_sub h _ _ h3, h4⟩
  | app eager r args =>
    simp only [mapView, Option.bind_eq_bind, Option.bind_eq_some_iff] at e ⊢
    obtain ⟨x, h1, h4⟩ := e
    exact ⟨x, mapAll_sub h _ _ h1, h4⟩
  | dapp eager r args =>
    simp only [mapView, Option.bind_eq_bind, Option.bind_eq_some_iff] at e ⊢
    obtain ⟨x, h1, h4⟩ := e
    exact ⟨x, mapAll_sub h _ _ h1, h4⟩
  | let_ hs body =>
    simp only [mapView, Option.bind_eq_bind, Option.bind_eq_some_iff] at e ⊢
    obtain ⟨x, h1, y, h2, h4⟩ := e
    exact ⟨x, mapAll_sub (mapBind_sub h) _ _ h1, y, h _ _ h2, h4⟩
  | letrec hs body =>
    simp only [mapView, Option.bind_eq_bind, Option.bind_eq_some_iff] at e ⊢
    obtain ⟨x, h1, y, h2, h4⟩ := e
    exact ⟨x, mapAll_sub (mapBind_sub h) _ _ h1, y, h _ _ h2, h4⟩
  | ann body =>
    simp only [mapView, Option.bind_eq_bind, Option.bind_eq_some_iff] at e ⊢
    obtain ⟨x, h1, h4⟩ := e
    exact ⟨x, h _ _ h1, h4⟩
  | demeta s hd o =>
    simp only [mapView, Option.bind_eq_bind, Option.bind_eq_some_iff] at e ⊢
    obtain ⟨x, h1, y, h2, z, h3, h4⟩ := e
    exact ⟨x, h _ _ h1, y, h _ _ h2, z, h _ _ h3, h4⟩
  | seq s b =>
    simp only [mapView, Option.bind_eq_bind, Option.bind_eq_some_iff] at e ⊢
    obtain ⟨x, h1, y, h2, h4⟩ := e
    exact ⟨x, h _ _ h1, y, h _ _ h2, h4⟩
  | lookup k ob d =>
    simp only [mapView, Option.bind_eq_bind, Option.bind_eq_some_iff] at e ⊢
    obtain ⟨x, h1, h4⟩ := e
    exact ⟨x, h _ _ h1, h4⟩
  | fused id l r =>
    simp only [mapView, Option.bind_eq_bind, Option.bind_eq_some_iff] at e ⊢
    obtain ⟨x, h1, y, h2, h4⟩ := e
    exact ⟨x, h _ _ h1, y, h _ _ h2, h4⟩

/-! ## Pools grow -/

structure Pools.Le (p q : Pools) : Prop where
  refs : p.refs <+: q.refs
  offsets : p.offsets <+: q.offsets
  headers : p.headers <+: q.headers
  branches : p.branches <+: q.branches

theorem Pools.Le.refl (p : Pools) : p.Le p := ⟨List.prefix_refl _, List.prefix_refl _, List.prefix_refl _, List.prefix_refl _⟩
theorem Pools.Le.trans {p q r : Pools} (h : p.Le q) (h' : q.Le r) : p.Le r :=
  ⟨h.1.trans h'.1, h.2.trans h'.2, h.3.trans h'.3, h.4.trans h'.4⟩

theorem run_le {α : Type} {p q : List α} (h : p <+: q) {s n : Nat} {xs : List α} (e : run p s n = some xs) :
    run q s n = some xs := by
  obtain ⟨r, rfl⟩ := h
  unfold run at e ⊢
  split at e
  · rename_i hl
    rw [if_pos (by rw [List.length_append]; omega)]
    cases e
    congr 1
    rw [List.drop_append_of_le_length (by omega), List.take_append_of_le_length (by rw [List.length_drop]; omega)]
  · cases e

theorem run_append {α : Type} (p xs : List α) : run (p ++ xs) p.length xs.length = some xs := by
  unfold run
  rw [if_pos (by simp)]
  simp

theorem ofInstr_le {p q : Pools} (h : p.Le q) {i : Instr} {v : View Nat} (e : ofInstr p i = some v) : ofInstr q i = some v := by
  unfold ofInstr at e ⊢
  split at e <;> rename_i ho <;> simp only [ho] at *
  all_goals first
    | exact e
    | (simp only [Option.bind_eq_bind, Option.bind_eq_some_iff] at e ⊢
       obtain ⟨x, h1, h2⟩ := e
       first
         | exact ⟨x, run_le h.1 h1, h2⟩
         | exact ⟨x, run_le h.2 h1, h2⟩
         | exact ⟨x, run_le h.3 h1, h2⟩
         | exact ⟨x, run_le h.4 h1, h2⟩)

/-! ## The invariant of the decoder -/

/-- `k` stands for the node at which the annotations from `o` end. -/
def At (code : List Nat) (offOf : List Nat) (o k : Nat) : Prop := ∃ n c, Peels code n o c ∧ offOf[k]? = some c

/-- A decoded instruction carries the node it stands for. -/
def Carries (code : List Nat) (p : Pools) (f : Nat → Option Nat) (c : Nat) (i : Instr) : Prop :=
  ∃ n v v', readNode code c = some n ∧ ofNode code n = some v ∧ mapView f v = some v' ∧ ofInstr p i = some v'

/-- The invariant; `x` are the ordinals being decoded. -/
structure Inv (code : List Nat) (ks : List K) (x : Nat → Prop) (d : Dec) : Prop where
  dom : ∀ o k : Nat, d.ordOf o = some k → At code d.offOf o k
  good : ∀ c ∈ d.offOf, Good code ks c
  core : ∀ c ∈ d.offOf, Peels code 0 c c
  back : ∀ (k c : Nat), d.offOf[k]? = some c → d.ordOf c = some k
  len : d.offOf.length = d.instrs.length
  done : ∀ (k : Nat) (i : Instr), d.instrs[k]? = some (some i) → ∃ c, d.offOf[k]? = some c ∧ Carries code d.toPools d.ordOf c i
  pend : ∀ k : Nat, d.instrs[k]? = some none → x k ∨ ∃ off, (off, k) ∈ d.queue
  queue : ∀ off k : Nat, (off, k) ∈ d.queue → d.offOf[k]? = some off

/-- How the decoder moves on. -/
structure Ext (d d' : Dec) : Prop where
  ord : Sub d.ordOf d'.ordOf
  off : d.offOf <+: d'.offOf
  ins : d.instrs <+: d'.instrs
  pools : d.toPools.Le d'.toPools
  queue : d.queue <:+ d'.queue
  count : d'.queue.length + d.offOf.length = d.queue.length + d'.offOf.length

theorem Ext.refl (d : Dec) : Ext d d :=
  ⟨fun _ _ h => h, List.prefix_refl _, List.prefix_refl _, Pools.Le.refl _, List.suffix_refl _, rfl⟩

theorem Ext.trans {a b c : Dec} (h : Ext a b) (h' : Ext b c) : Ext a c :=
  ⟨fun _ _ e => h'.1 _ _ (h.1 _ _ e), h.2.trans h'.2, h.3.trans h'.3, h.4.trans h'.4, h.5.trans h'.5, by
    have := h.6; have := h'.6; omega⟩

theorem getElem?_prefix {α : Type} {a b : List α} (h : a <+: b) {i : Nat} {x : α} (e : a[i]? = some x) : b[i]? = some x := by
  obtain ⟨r, rfl⟩ := h
  rw [List.getElem?_append_left]
  · exact e
  · exact (List.getElem?_eq_some_iff.1 e).1

theorem Carries.mono {code : List Nat} {p q : Pools} {f g : Nat → Option Nat} {c : Nat} {i : Instr} (h : Carries code p f c i)
    (hp : p.Le q) (hf : Sub f g) : Carries code q g c i := by
  obtain ⟨n, v, v', h1, h2, h3, h4⟩ := h
  exact ⟨n, v, v', h1, h2, mapView_sub hf _ _ h3, ofInstr_le hp h4⟩

theorem At.mono {code l l' : List Nat} {o k : Nat} (h : At code l o k) (hl : l <+: l') : At code l' o k := by
  obtain ⟨n, c, h1, h2⟩ := h
  exact ⟨n, c, h1, getElem?_prefix hl h2⟩

theorem good_lt {code : List Nat} {ks : List K} {o : Nat} (h : Good code ks o) : o < code.length := by
  obtain ⟨t, h⟩ := h
  exact reads_lt h

theorem Inv.nodup {code : List Nat} {ks : List K} {x : Nat → Prop} {d : Dec} (h : Inv code ks x d) : d.offOf.Nodup := by
  rw [List.Nodup, List.pairwise_iff_getElem]
  intro i j hi hj hij e
  have e1 := h.back i _ (List.getElem?_eq_getElem hi)
  have e2 := h.back j _ (List.getElem?_eq_getElem hj)
  rw [e, e2] at e1
  injection e1 with e1
  omega

theorem Inv.bound {code : List Nat} {ks : List K} {x : Nat → Prop} {d : Dec} (h : Inv code ks x d) :
    d.offOf.length ≤ code.length :=
  Import.nodup_length_le h.nodup fun c hc => good_lt (h.good c hc)

theorem Inv.ord_lt {code : List Nat} {ks : List K} {x : Nat → Prop} {d : Dec} (h : Inv code ks x d) {o k : Nat}
    (e : d.ordOf o = some k) : k < code.length := by
  obtain ⟨n, c, _, h2⟩ := h.dom o k e
  have := (List.getElem?_eq_some_iff.1 h2).1
  have := h.bound
  omega

/-- A new name for an ordinal. -/
theorem Inv.alias {code : List Nat} {ks : List K} {x : Nat → Prop} {d : Dec} (h : Inv code ks x d) {o k : Nat}
    (hn : d.ordOf o = none) (ha : At code d.offOf o k) : Inv code ks x (d.alias o k) ∧ Ext d (d.alias o k) := by
  have hs : Sub d.ordOf (d.alias o k).ordOf := by
    intro a b e
    show (if a = o then some k else d.ordOf a) = some b
    rw [if_neg]
    · exact e
    · intro he; rw [he, hn] at e; cases e
  refine ⟨⟨?_, h.good, h.core, fun k' c e => hs _ _ (h.back k' c e), h.len, ?_, h.pend, h.queue⟩,
    ⟨hs, List.prefix_refl _, List.prefix_refl _, Pools.Le.refl _, List.suffix_refl _, rfl⟩⟩
  · intro o' k' e
    have e : (if o' = o then some k else d.ordOf o') = some k' := e
    by_cases ho : o' = o
    · rw [if_pos ho] at e; cases e; rw [ho]; exact ha
    · rw [if_neg ho] at e; exact h.dom o' k' e
  · intro k' i e
    obtain ⟨c, h1, h2⟩ := h.done k' i e
    exact ⟨c, h1, h2.mono (Pools.Le.refl _) hs⟩

/-- A new ordinal. -/
theorem Inv.assign {code : List Nat} {ks : List K} {x : Nat → Prop} {d : Dec} (h : Inv code ks x d) {o : Nat}
    (hn : d.ordOf o = none) (hg : Good code ks o) (hp : Peels code 0 o o) :
    Inv code ks x (d.assign o).1 ∧ Ext d (d.assign o).1 ∧ (d.assign o).1.ordOf o = some (d.assign o).2 := by
  have hs : Sub d.ordOf (d.assign o).1.ordOf := by
    intro a b e
    show (if a = o then some d.instrs.length else d.ordOf a) = some b
    rw [if_neg]
    · exact e
    · intro he; rw [he, hn] at e; cases e
  have hlast : (d.offOf ++ [o])[d.instrs.length]? = some o := by rw [← h.len]; simp
  refine ⟨⟨?_, ?_, ?_, ?_, ?_, ?_, ?_, ?_⟩, ⟨hs, List.prefix_append _ _, List.prefix_append _ _, Pools.Le.refl _,
    List.suffix_cons _ _, ?_⟩, ?_⟩
  · intro o' k' e
    have e : (if o' = o then some d.instrs.length else d.ordOf o') = some k' := e
    by_cases ho : o' = o
    · rw [if_pos ho] at e; cases e; rw [ho]
      exact ⟨0, o, hp, hlast⟩
    · rw [if_neg ho] at e; exact (h.dom o' k' e).mono (List.prefix_append _ _)
  · intro c hc
    rcases List.mem_append.1 hc with hc | hc
    · exact h.good c hc
    · cases List.mem_singleton.1 hc; exact hg
  · intro c hc
    rcases List.mem_append.1 hc with hc | hc
    · exact h.core c hc
    · cases List.mem_singleton.1 hc; exact hp
  · intro k' c e
    have e : (d.offOf ++ [o])[k']? = some c := e
    rcases Nat.lt_or_ge k' d.offOf.length with hk | hk
    · rw [List.getElem?_append_left hk] at e
      exact hs _ _ (h.back k' c e)
    · have hk2 := (List.getElem?_eq_some_iff.1 e).1
      rw [List.length_append, List.length_singleton] at hk2
      have hk3 : k' = d.instrs.length := by have := h.len; omega
      rw [hk3, hlast] at e; cases e
      show (if o = o then some d.instrs.length else d.ordOf o) = some k'
      rw [if_pos rfl, hk3]
  · show (d.offOf ++ [o]).length = (d.instrs ++ [none]).length
    simp [h.len]
  · intro k' i e
    have e : (d.instrs ++ [none])[k']? = some (some i) := e
    rcases Nat.lt_or_ge k' d.instrs.length with hk | hk
    · rw [List.getElem?_append_left hk] at e
      obtain ⟨c, h1, h2⟩ := h.done k' i e
      exact ⟨c, getElem?_prefix (List.prefix_append _ _) h1, h2.mono (Pools.Le.refl _) hs⟩
    · rw [List.getElem?_append_right hk] at e
      have := (List.getElem?_eq_some_iff.1 e).1
      rw [List.length_singleton] at this
      have hk3 : k' - d.instrs.length = 0 := by omega
      rw [hk3] at e; cases e
  · intro k' e
    have e : (d.instrs ++ [none])[k']? = some none := e
    rcases Nat.lt_or_ge k' d.instrs.length with hk | hk
    · rw [List.getElem?_append_left hk] at e
      rcases h.pend k' e with hx | ⟨off, ho⟩
      · exact .inl hx
      · exact .inr ⟨off, List.mem_cons_of_mem _ ho⟩
    · have := (List.getElem?_eq_some_iff.1 e).1
      rw [List.length_append, List.length_singleton] at this
      have hk3 : k' = d.instrs.length := by omega
      rw [hk3]
      exact .inr ⟨o, List.mem_cons_self⟩
  · intro off k' e
    have e : (off, k') ∈ (o, d.instrs.length) :: d.queue := e
    rcases List.mem_cons.1 e with e | e
    · cases e; exact hlast
    · exact getElem?_prefix (List.prefix_append _ _) (h.queue off k' e)
  · show ((o, d.instrs.length) :: d.queue).length + d.offOf.length = d.queue.length + (d.offOf ++ [o]).length
    simp; omega
  · show (if o = o then some d.instrs.length else d.ordOf o) = some d.instrs.length
    rw [if_pos rfl]

/-- Every annotation chain is shorter than the fuel. -/
def Enough (code : List Nat) (ks : List K) (fuel : Nat) : Prop := ∀ o n c, Good code ks o → Peels code n o c → n < fuel

theorem ordinalFor_ok {code : List Nat} {ks : List K} {x : Nat → Prop} : ∀ {n o c : Nat}, Peels code n o c →
    ∀ {fuel : Nat} {d : Dec}, n < fuel → Good code ks o → Inv code ks x d →
    ∃ d' k, ordinalFor code fuel d o = some (d', k) ∧ Inv code ks x d' ∧ Ext d d' ∧ d'.toPools = d.toPools ∧
      d'.ordOf o = some k ∧ d'.offOf[k]? = some c := by
  intro n o c hp
  induction hp with
  | @here o nd h hn =>
    intro fuel d hf hg hi
    obtain ⟨fuel, rfl⟩ := Nat.exists_eq_succ_of_ne_zero (Nat.ne_of_gt (Nat.lt_of_le_of_lt (Nat.zero_le _) hf))
    rw [ordinalFor]
    cases ho : d.ordOf o with
    | some k =>
      obtain ⟨n', c', h1, h2⟩ := hi.dom o k ho
      obtain ⟨_, rfl⟩ := h1.unique (.here h hn)
      exact ⟨d, k, rfl, hi, Ext.refl _, rfl, ho, h2⟩
    | none =>
      obtain ⟨b, h1, h2⟩ := readNode_not h hn
      simp only [h1, if_neg h2]
      obtain ⟨g1, g2, g3⟩ := hi.assign ho hg (.here h hn)
      refine ⟨_, _, rfl, g1, g2, rfl, g3, ?_⟩
      show (d.offOf ++ [o])[d.instrs.length]? = some o
      rw [← hi.len]; simp
  | @ann n o b c s h hp ih =>
    intro fuel d hf hg hi
    obtain ⟨fuel, rfl⟩ := Nat.exists_eq_succ_of_ne_zero (Nat.ne_of_gt (Nat.lt_of_le_of_lt (Nat.zero_le _) hf))
    rw [ordinalFor]
    cases ho : d.ordOf o with
    | some k =>
      obtain ⟨n', c', h1, h2⟩ := hi.dom o k ho
      obtain ⟨_, rfl⟩ := h1.unique (.ann h hp)
      exact ⟨d, k, rfl, hi, Ext.refl _, rfl, ho, h2⟩
    | none =>
      obtain ⟨h1, pc, pc', h2, h3⟩ := readNode_ann h
      obtain ⟨nd, _, h4, _, h5⟩ := good_node hg
      rw [h] at h4; cases h4
      obtain ⟨d', k, g1, g2, g3, g4, g5, g6⟩ := ih (d := d) (Nat.lt_of_succ_lt_succ hf) (h5 b (List.mem_singleton.2 rfl)) hi
      simp only [h1, if_true, h2, h3, g1]
      cases ho' : d'.ordOf o with
      | none =>
        obtain ⟨a1, a2⟩ := g2.alias ho' ⟨n + 1, c, .ann h hp, g6⟩
        refine ⟨_, _, rfl, a1, g3.trans a2, g4, ?_, g6⟩
        show (if o = o then some k else d'.ordOf o) = some k
        rw [if_pos rfl]
      | some k2 =>
        have hk : k2 = k := by
          obtain ⟨n', c', q1, q2⟩ := g2.dom o k2 ho'
          obtain ⟨_, rfl⟩ := q1.unique (.ann h hp)
          have e1 := g2.back _ _ q2
          have e2 := g2.back _ _ g6
          rw [e1] at e2; injection e2
        subst hk
        have hd : d'.alias o k2 = d' := by
          unfold Dec.alias
          have : (fun o' => if o' = o then some k2 else d'.ordOf o') = d'.ordOf := by
            funext o'
            split
            · rename_i e; rw [e, ho']
            · rfl
          rw [this]
        rw [hd]
        exact ⟨_, _, rfl, g2, g3, g4, ho', g6⟩

theorem ordinal_ok {code : List Nat} {ks : List K} {x : Nat → Prop} {fuel : Nat} (hF : Enough code ks fuel) {d : Dec} {o : Nat}
    (hg : Good code ks o) (hi : Inv code ks x d) :
    ∃ d' k, ordinalFor code fuel d o = some (d', k) ∧ Inv code ks x d' ∧ Ext d d' ∧ d'.toPools = d.toPools ∧
      d'.ordOf o = some k := by
  obtain ⟨t, ht⟩ := hg
  obtain ⟨n, c, hp⟩ := peels_of_reads t o ht
  obtain ⟨d', k, h1, h2, h3, h4, h5, _⟩ := ordinalFor_ok hp (hF o n c ⟨t, ht⟩ hp) ⟨t, ht⟩ hi
  exact ⟨d', k, h1, h2, h3, h4, h5⟩

theorem ordinals_ok {code : List Nat} {ks : List K} {x : Nat → Prop} {fuel : Nat} (hF : Enough code ks fuel) :
    ∀ {os : List Nat} {d : Dec}, (∀ o ∈ os, Good code ks o) → Inv code ks x d →
    ∃ d' ns, ordinalsFor code fuel d os = some (d', ns) ∧ Inv code ks x d' ∧ Ext d d' ∧ d'.toPools = d.toPools ∧
      mapAll d'.ordOf os = some ns ∧ ns.length = os.length
  | [], d, _, hi => ⟨d, [], rfl, hi, Ext.refl _, rfl, rfl, rfl⟩
  | o :: os, d, hg, hi => by
    obtain ⟨d1, k, a1, a2, a3, a4, a5⟩ := ordinal_ok hF (hg o List.mem_cons_self) hi
    obtain ⟨d2, ns, b1, b2, b3, b4, b5, b6⟩ := ordinals_ok hF (fun o ho => hg o (List.mem_cons_of_mem _ ho)) a2
    refine ⟨d2, k :: ns, by simp [ordinalsFor, a1, b1], b2, a3.trans b3, b4.trans a4, ?_, by simp [b6]⟩
    simp [mapAll, b3.ord _ _ a5, b5]

theorem entry_eq {k : Nat} (h : k < noBranch) : entry k = some k := by
  unfold entry; rw [if_neg (by omega)]

theorem branches_ok {code : List Nat} {ks : List K} {x : Nat → Prop} {fuel : Nat} (hF : Enough code ks fuel)
    (hl : code.length ≤ noBranch) :
    ∀ {es : List (Option Nat)} {d : Dec}, (∀ o ∈ es.filterMap id, Good code ks o) → Inv code ks x d →
    ∃ d' ns, branchesFor code fuel d es = some (d', ns) ∧ Inv code ks x d' ∧ Ext d d' ∧ d'.toPools = d.toPools ∧
      mapAll (mapOpt d'.ordOf) es = some (ns.map entry) ∧ ns.length = es.length
  | [], d, _, hi => ⟨d, [], rfl, hi, Ext.refl _, rfl, rfl, rfl⟩
  | none :: es, d, hg, hi => by
    obtain ⟨d2, ns, b1, b2, b3, b4, b5, b6⟩ := branches_ok hF hl (es := es) (fun o ho => hg o (by simpa using ho)) hi
    refine ⟨d2, noBranch :: ns, by simp [branchesFor, b1], b2, b3, b4, ?_, by simp [b6]⟩
    simp [mapAll, mapOpt, b5, entry]
  | some o :: es, d, hg, hi => by
    obtain ⟨d1, k, a1, a2, a3, a4, a5⟩ := ordinal_ok hF (hg o (by simp)) hi
    obtain ⟨d2, ns, b1, b2, b3, b4, b5, b6⟩ := branches_ok hF hl (es := es)
      (fun o ho => hg o (by simp only [List.filterMap_cons, id]; exact List.mem_cons_of_mem _ ho)) a2
    refine ⟨d2, k :: ns, by simp [branchesFor, a1, b1], b2, a3.trans b3, b4.trans a4, ?_, by simp [b6]⟩
    have hk : k < noBranch := Nat.lt_of_lt_of_le (a2.ord_lt a5) hl
    simp [mapAll, mapOpt, b3.ord _ _ a5, b5, entry_eq hk]

theorem mapBind_formInfo {f : Nat → Option Nat} {h : Header} {k : Nat} (e : f h.body = some k) :
    mapBind f (formInfo h) = some (formInfo { h with body := k }) := by
  unfold mapBind formInfo
  by_cases h1 : h.kind = 0x01
  · simp [h1, e]
  · by_cases h2 : h.kind = 0x00
    · simp [h2, e]
    · simp [h1, h2, e]

theorem headers_ok {code : List Nat} {ks : List K} {x : Nat → Prop} {fuel : Nat} (hF : Enough code ks fuel) :
    ∀ {hs : List Header} {d : Dec}, (∀ o ∈ hs.map (·.body), Good code ks o) → Inv code ks x d →
    ∃ d' ns, headersFor code fuel d hs = some (d', ns) ∧ Inv code ks x d' ∧ Ext d d' ∧ d'.toPools = d.toPools ∧
      mapAll (mapBind d'.ordOf) (hs.map formInfo) = some (ns.map formInfo) ∧ ns.length = hs.length
  | [], d, _, hi => ⟨d, [], rfl, hi, Ext.refl _, rfl, rfl, rfl⟩
  | h :: hs, d, hg, hi => by
    obtain ⟨d1, k, a1, a2, a3, a4, a5⟩ := ordinal_ok hF (hg h.body (by simp)) hi
    obtain ⟨d2, ns, b1, b2, b3, b4, b5, b6⟩ := headers_ok hF (hs := hs)
      (fun o ho => hg o (by rw [List.map_cons]; exact List.mem_cons_of_mem _ ho)) a2
    refine ⟨d2, { h with body := k } :: ns, by simp [headersFor, a1, b1], b2, a3.trans b3, b4.trans a4, ?_, by simp [b6]⟩
    simp [mapAll, mapBind_formInfo (b3.ord _ _ a5), b5]

/-- Pools may grow. -/
theorem Inv.grow {code : List Nat} {ks : List K} {x : Nat → Prop} {d : Dec} (h : Inv code ks x d) {p : Pools}
    (hp : d.toPools.Le p) : Inv code ks x { d with toPools := p } ∧ Ext d { d with toPools := p } := by
  refine ⟨⟨h.dom, h.good, h.core, h.back, h.len, ?_, h.pend, h.queue⟩, ⟨fun _ _ e => e, List.prefix_refl _, List.prefix_refl _,
    hp, List.suffix_refl _, rfl⟩⟩
  intro k i e
  obtain ⟨c, h1, h2⟩ := h.done k i e
  exact ⟨c, h1, h2.mono hp (fun _ _ e => e)⟩

/-! ## One node -/

theorem refTag_lt (r : DRef) : refTag r < 4 := by cases r <;> simp [refTag]

theorem makeRef_ref {t : Nat} (r : DRef) (h : t % 4 = refTag r) : makeRef t (refPayload r) = r := by
  unfold makeRef
  rw [h]
  cases r <;> rfl

theorem argRefs_length {code : List Nat} : ∀ {os : List Nat} {ds : List DRef}, argRefs code os = some ds → ds.length = os.length
  | [], ds, h => by cases h; rfl
  | o :: os, ds, h => by
    simp only [argRefs, Option.bind_eq_bind, Option.bind_eq_some_iff] at h
    obtain ⟨x, _, ys, h2, h3⟩ := h
    cases h3
    rw [List.length_cons, List.length_cons, argRefs_length h2]

theorem decodeNode_ok {code : List Nat} {ks : List K} {x : Nat → Prop} {fuel : Nat} (hF : Enough code ks fuel)
    (hl : code.length ≤ noBranch) {d : Dec} (hi : Inv code ks x d) {n : Node} {v : View Nat} (hv : ofNode code n = some v)
    (hg : ∀ c ∈ kids n, Good code ks c) (hs : Small n) (hn : ∀ s b, n ≠ .ann s b) :
    ∃ d' i v', decodeNode code fuel d n = some (d', i) ∧ Inv code ks x d' ∧ Ext d d' ∧ mapView d'.ordOf v = some v' ∧
      ofInstr d'.toPools i = some v' := by
  cases n with
  | atom r =>
    cases hv
    refine ⟨d, _, _, rfl, hi, Ext.refl _, rfl, ?_⟩
    show some (View.atom (makeRef (refTag r) (refPayload r))) = _
    rw [makeRef_ref r (Nat.mod_eq_of_lt (refTag_lt r))]
  | hole => cases hv; exact ⟨d, _, _, rfl, hi, Ext.refl _, rfl, rfl⟩
  | ann s b => exact (hn _ _ rfl).elim
  | metaOf m b =>
    simp only [ofNode, Option.bind_eq_bind, Option.bind_eq_some_iff] at hv
    obtain ⟨mr, h1, br, h2, h3⟩ := hv
    cases h3
    refine ⟨d, _, _, by simp [decodeNode, h1, h2]; rfl, hi, Ext.refl _, rfl, ?_⟩
    show some (View.metaOf (makeRef (refTag mr + 4 * refTag br) (refPayload mr))
      (makeRef ((refTag mr + 4 * refTag br) / 4) (refPayload br))) = _
    have := refTag_lt mr; have := refTag_lt br
    rw [makeRef_ref mr (by omega), makeRef_ref br (by omega)]
  | cons tag args =>
    simp only [ofNode, Option.bind_eq_bind, Option.bind_eq_some_iff] at hv
    obtain ⟨ds, h1, h2⟩ := hv
    cases h2
    have hp : d.toPools.Le { d.toPools with refs := d.refs ++ ds } :=
      ⟨List.prefix_append _ _, List.prefix_refl _, List.prefix_refl _, List.prefix_refl _⟩
    obtain ⟨g1, g2⟩ := hi.grow hp
    refine ⟨_, _, _, by simp [decodeNode, pushRefs, h1]; rfl, g1, g2, rfl, ?_⟩
    have e : args.length % 65536 = ds.length := by
      have := argRefs_length h1; have := hs.2; omega
    have e2 : tag % 256 = tag := Nat.mod_eq_of_lt hs.1
    simp [ofInstr, Instr.tagByte, e, e2, run_append]
  | «bif» tag args =>
    simp only [ofNode, Option.bind_eq_bind, Option.bind_eq_some_iff] at hv
    obtain ⟨ds, h1, h2⟩ := hv
    cases h2
    have hp : d.toPools.Le { d.toPools with refs := d.refs ++ ds } :=
      ⟨List.prefix_append _ _, List.prefix_refl _, List.prefix_refl _, List.prefix_refl _⟩
    obtain ⟨g1, g2⟩ := hi.grow hp
    refine ⟨_, _, _, by simp [decodeNode, pushRefs, h1]; rfl, g1, g2, rfl, ?_⟩
    have e : args.length % 65536 = ds.length := by
      have := argRefs_length h1; have := hs.2; omega
    have e2 : tag % 256 = tag := Nat.mod_eq_of_lt hs.1
    simp [ofInstr, Instr.tagByte, e, e2, run_append]
  | app eager f args =>
    cases hv
    obtain ⟨d1, ns, a1, a2, a3, a4, a5, a6⟩ := ordinals_ok hF (os := args) hg hi
    have hp : d1.toPools.Le { d1.toPools with offsets := d1.offsets ++ ns } :=
      ⟨List.prefix_refl _, List.prefix_append _ _, List.prefix_refl _, List.prefix_refl _⟩
    obtain ⟨g1, g2⟩ := a2.grow hp
    refine ⟨_, _, _, by simp [decodeNode, pushOffsets, a1]; rfl, g1, a3.trans g2, by simp [mapView, a5]; rfl, ?_⟩
    have e : args.length % 65536 = ns.length := by
      have h2 : args.length < 256 := hs
      omega
    have e3 : d.offsets = d1.offsets := by rw [a4]
    have e4 := refTag_lt f
    have e5 : makeRef ((eager.toNat + 2 * refTag f) / 2) (refPayload f) = f :=
      makeRef_ref f (by cases eager <;> simp [Bool.toNat] <;> omega)
    have e6 : (decide ((eager.toNat + 2 * refTag f) % 2 = 1)) = eager := by
      cases eager <;> simp [Bool.toNat]
    simp only [ofInstr, Instr.eager, Instr.callableRef, e, e3, e5, e6, run_append, Option.bind_eq_bind, Option.bind_some]
  | dapp eager smid f args =>
    cases hv
    obtain ⟨d1, ns, a1, a2, a3, a4, a5, a6⟩ := ordinals_ok hF (os := args) hg hi
    have hp : d1.toPools.Le { d1.toPools with offsets := d1.offsets ++ ns } :=
      ⟨List.prefix_refl _, List.prefix_append _ _, List.prefix_refl _, List.prefix_refl _⟩
    obtain ⟨g1, g2⟩ := a2.grow hp
    refine ⟨_, _, _, by simp [decodeNode, pushOffsets, a1]; rfl, g1, a3.trans g2, by simp [mapView, a5]; rfl, ?_⟩
    have e : args.length % 65536 = ns.length := by
      have h2 : args.length < 256 := hs
      omega
    have e3 : d.offsets = d1.offsets := by rw [a4]
    have e4 := refTag_lt f
    have e5 : makeRef ((eager.toNat + 2 * refTag f) / 2) (refPayload f) = f :=
      makeRef_ref f (by cases eager <;> simp [Bool.toNat] <;> omega)
    have e6 : (decide ((eager.toNat + 2 * refTag f) % 2 = 1)) = eager := by
      cases eager <;> simp [Bool.toNat]
    simp only [ofInstr, Instr.eager, Instr.callableRef, e, e3, e5, e6, run_append, Option.bind_eq_bind, Option.bind_some]
  | case scr lo table fb =>
    cases hv
    obtain ⟨d1, s, a1, a2, a3, a4, a5⟩ := ordinal_ok hF (hg scr (by simp [kids])) hi
    obtain ⟨d2, ns, b1, b2, b3, b4, b5, b6⟩ := branches_ok hF hl (es := table)
      (fun o ho => hg o (by simp only [kids]; exact List.mem_cons_of_mem _ (List.mem_append_left _ ho))) a2
    have hp : d2.toPools.Le { d2.toPools with branches := d2.branches ++ ns } :=
      ⟨List.prefix_refl _, List.prefix_refl _, List.prefix_refl _, List.prefix_append _ _⟩
    obtain ⟨g1, g2⟩ := b2.grow hp
    have e : table.length % 65536 = ns.length := by
      have h2 : table.length < 256 := hs
      omega
    have e3 : d1.branches = d2.branches := by rw [b4]
    cases fb with
    | none =>
      refine ⟨_, _, _, by simp [decodeNode, fallbackFor, a1, b1]; rfl, g1, (a3.trans b3).trans g2,
        by simp [mapView, mapOpt, b3.ord _ _ a5, b5]; rfl, ?_⟩
      simp [ofInstr, e, e3, run_append, entry]
    | some o =>
      obtain ⟨d3, f, c1, c2, c3, c4, c5⟩ := ordinal_ok hF (hg o (by simp [kids])) g1
      have c3' : Ext d2 d3 := g2.trans c3
      refine ⟨_, _, _, by simp [decodeNode, fallbackFor, a1, b1, c1]; rfl, c2, (a3.trans b3).trans c3',
        by simp [mapView, mapOpt, c3'.ord _ _ (b3.ord _ _ a5), mapAll_sub (mapOpt_sub c3'.ord) _ _ b5, c5]; rfl, ?_⟩
      have hk : entry f = some f := entry_eq (Nat.lt_of_lt_of_le (c2.ord_lt c5) hl)
      have e4 : d3.branches = d2.branches ++ ns := by rw [c4]
      simp [ofInstr, e, e3, e4, run_append, hk]
  | let_ hs' body =>
    cases hv
    obtain ⟨d1, ns, a1, a2, a3, a4, a5, a6⟩ := headers_ok hF (hs := hs')
      (fun o ho => hg o (by simp only [kids]; exact List.mem_append_left _ ho)) hi
    have hp : d1.toPools.Le { d1.toPools with headers := d1.headers ++ ns } :=
      ⟨List.prefix_refl _, List.prefix_refl _, List.prefix_append _ _, List.prefix_refl _⟩
    obtain ⟨g1, g2⟩ := a2.grow hp
    obtain ⟨d2, b, b1, b2, b3, b4, b5⟩ := ordinal_ok hF (hg body (by simp [kids])) g1
    have b3' : Ext d1 d2 := g2.trans b3
    refine ⟨_, _, _, by simp [decodeNode, a1, b1]; rfl, b2, a3.trans b3',
      by simp only [mapView, mapAll_sub (mapBind_sub b3'.ord) _ _ a5, b5, Option.bind_eq_bind, Option.bind_some]; rfl, ?_⟩
    have e3 : d.headers = d1.headers := by rw [a4]
    have e4 : d2.headers = d1.headers ++ ns := by rw [b4]
    simp [ofInstr, e3, e4, ← a6, run_append]
  | letrec hs' body =>
    cases hv
    obtain ⟨d1, ns, a1, a2, a3, a4, a5, a6⟩ := headers_ok hF (hs := hs')
      (fun o ho => hg o (by simp only [kids]; exact List.mem_append_left _ ho)) hi
    have hp : d1.toPools.Le { d1.toPools with headers := d1.headers ++ ns } :=
      ⟨List.prefix_refl _, List.prefix_refl _, List.prefix_append _ _, List.prefix_refl _⟩
    obtain ⟨g1, g2⟩ := a2.grow hp
    obtain ⟨d2, b, b1, b2, b3, b4, b5⟩ := ordinal_ok hF (hg body (by simp [kids])) g1
    have b3' : Ext d1 d2 := g2.trans b3
    refine ⟨_, _, _, by simp [decodeNode, a1, b1]; rfl, b2, a3.trans b3',
      by simp only [mapView, mapAll_sub (mapBind_sub b3'.ord) _ _ a5, b5, Option.bind_eq_bind, Option.bind_some]; rfl, ?_⟩
    have e3 : d.headers = d1.headers := by rw [a4]
    have e4 : d2.headers = d1.headers ++ ns := by rw [b4]
    simp [ofInstr, e3, e4, ← a6, run_append]
  | demeta s h o =>
    cases hv
    obtain ⟨d1, k1, a1, a2, a3, a4, a5⟩ := ordinal_ok hF (hg s (by simp [kids])) hi
    obtain ⟨d2, k2, b1, b2, b3, b4, b5⟩ := ordinal_ok hF (hg h (by simp [kids])) a2
    obtain ⟨d3, k3, c1, c2, c3, c4, c5⟩ := ordinal_ok hF (hg o (by simp [kids])) b2
    exact ⟨_, _, _, by simp [decodeNode, a1, b1, c1]; rfl, c2, (a3.trans b3).trans c3,
      by simp [mapView, c3.ord _ _ (b3.ord _ _ a5), c3.ord _ _ b5, c5]; rfl, rfl⟩
  | seq s b =>
    cases hv
    obtain ⟨d1, k1, a1, a2, a3, a4, a5⟩ := ordinal_ok hF (hg s (by simp [kids])) hi
    obtain ⟨d2, k2, b1, b2, b3, b4, b5⟩ := ordinal_ok hF (hg b (by simp [kids])) a2
    exact ⟨_, _, _, by simp [decodeNode, a1, b1]; rfl, b2, a3.trans b3,
      by simp [mapView, b3.ord _ _ a5, b5]; rfl, rfl⟩
  | fused id l r =>
    cases hv
    obtain ⟨d1, k1, a1, a2, a3, a4, a5⟩ := ordinal_ok hF (hg l (by simp [kids])) hi
    obtain ⟨d2, k2, b1, b2, b3, b4, b5⟩ := ordinal_ok hF (hg r (by simp [kids])) a2
    exact ⟨_, _, _, by simp [decodeNode, a1, b1]; rfl, b2, a3.trans b3,
      by simp [mapView, b3.ord _ _ a5, b5]; rfl, rfl⟩
  | lookup smid key obj dflt =>
    cases hv
    obtain ⟨d1, k1, a1, a2, a3, a4, a5⟩ := ordinal_ok hF (hg dflt (by simp [kids])) hi
    refine ⟨_, _, _, by simp [decodeNode, a1]; rfl, a2, a3, by simp [mapView, a5]; rfl, ?_⟩
    show some (View.lookup (makeRef (refTag key + 4 * refTag obj) (refPayload key))
      (makeRef ((refTag key + 4 * refTag obj) / 4) (refPayload obj)) k1) = _
    have := refTag_lt key; have := refTag_lt obj
    rw [makeRef_ref key (by omega), makeRef_ref obj (by omega)]

/-! ## The whole worklist -/

theorem step_ok {code : List Nat} {ks : List K} {fuel : Nat} (hF : Enough code ks fuel) (hl : code.length ≤ noBranch)
    (hb : Bytes code) {d : Dec} {off ord : Nat} {q : List (Nat × Nat)} (hi : Inv code ks (fun _ => False) d)
    (hq : d.queue = (off, ord) :: q) :
    ∃ d', decodeStep code fuel { d with queue := q } off ord = some d' ∧ Inv code ks (fun _ => False) d' ∧
      Sub d.ordOf d'.ordOf ∧
      d'.queue.length + (code.length - d'.offOf.length) + 1 = d.queue.length + (code.length - d.offOf.length) := by
  have hmem : (off, ord) ∈ d.queue := by rw [hq]; exact List.mem_cons_self
  have ho := hi.queue off ord hmem
  have hoff : off ∈ d.offOf := List.mem_of_getElem? ho
  obtain ⟨n, v, h1, h2, h3⟩ := good_node (hi.good off hoff)
  have hn : ∀ s b, n ≠ .ann s b := by
    intro s b e
    cases hi.core off hoff with
    | here h' hn' => rw [h1] at h'; cases h'; exact hn' s b e
  have hi' : Inv code ks (fun k => k = ord) { d with queue := q } := by
    refine ⟨hi.dom, hi.good, hi.core, hi.back, hi.len, hi.done, ?_, fun o k e => hi.queue o k (by rw [hq]; exact List.mem_cons_of_mem _ e)⟩
    intro k e
    rcases hi.pend k e with hf | ⟨o, ho'⟩
    · exact hf.elim
    · rw [hq] at ho'
      rcases List.mem_cons.1 ho' with e' | e'
      · cases e'; exact .inl rfl
      · exact .inr ⟨o, e'⟩
  obtain ⟨d', i, v', g1, g2, g3, g4, g5⟩ := decodeNode_ok hF hl hi' h2 h3 (readNode_small hb h1) hn
  have hlt : ord < d'.instrs.length := by
    have h4 := (List.getElem?_eq_some_iff.1 ho).1
    have h5 : d.offOf.length ≤ d'.offOf.length := g3.off.length_le
    have := g2.len; omega
  unfold decodeStep
  simp only [h1, g1, if_pos hlt]
  refine ⟨_, rfl, ⟨g2.dom, g2.good, g2.core, g2.back, by simp [g2.len], ?_, ?_, g2.queue⟩, g3.ord, ?_⟩
  · intro k i' e
    have e : (d'.instrs.set ord (some i))[k]? = some (some i') := e
    by_cases hk : ord = k
    · subst hk
      rw [List.getElem?_set_self hlt] at e
      cases e
      exact ⟨off, getElem?_prefix g3.off ho, n, v, v', h1, h2, g4, g5⟩
    · rw [List.getElem?_set_ne hk] at e
      exact g2.done k i' e
  · intro k e
    have e : (d'.instrs.set ord (some i))[k]? = some none := e
    by_cases hk : ord = k
    · subst hk
      rw [List.getElem?_set_self hlt] at e
      cases e
    · rw [List.getElem?_set_ne hk] at e
      rcases g2.pend k e with hf | hq'
      · exact (hk hf.symm).elim
      · exact .inr hq'
  · have c := g3.count
    have b := g2.bound
    have c' : d'.queue.length + d.offOf.length = q.length + d'.offOf.length := c
    have : d.queue.length = q.length + 1 := by rw [hq]; rfl
    have b' : d.offOf.length ≤ d'.offOf.length := g3.off.length_le
    show d'.queue.length + (code.length - d'.offOf.length) + 1 = _
    omega

theorem drain_ok {code : List Nat} {ks : List K} {fuel : Nat} (hF : Enough code ks fuel) (hl : code.length ≤ noBranch)
    (hb : Bytes code) : ∀ {n : Nat} {d : Dec}, Inv code ks (fun _ => False) d →
    d.queue.length + (code.length - d.offOf.length) < n →
    ∃ d', drain code fuel n d = some d' ∧ Inv code ks (fun _ => False) d' ∧ Sub d.ordOf d'.ordOf ∧ d'.queue = []
  | 0, d, _, h => by omega
  | n + 1, d, hi, h => by
    rw [drain]
    cases hq : d.queue with
    | nil => exact ⟨d, rfl, hi, fun _ _ e => e, hq⟩
    | cons x q =>
      obtain ⟨off, ord⟩ := x
      obtain ⟨d', g1, g2, g3, g4⟩ := step_ok hF hl hb hi hq
      simp only [g1]
      obtain ⟨d2, k1, k2, k3, k4⟩ := drain_ok hF hl hb g2 (n := n) (by omega)
      exact ⟨d2, k1, k2, fun _ _ e => k3 _ _ (g3 _ _ e), k4⟩

theorem allSome_ok : ∀ {is : List (Option Instr)}, (∀ k : Nat, is[k]? ≠ some none) →
    ∃ js, allSome is = some js ∧ ∀ k : Nat, js[k]? = (is[k]?).join
  | [], _ => ⟨[], rfl, by simp⟩
  | none :: is, h => (h 0 rfl).elim
  | some i :: is, h => by
    obtain ⟨js, h1, h2⟩ := allSome_ok (is := is) fun k => by have := h (k + 1); simpa using this
    refine ⟨i :: js, by simp [allSome, h1], fun k => ?_⟩
    cases k with
    | zero => rfl
    | succ k => simpa using h2 k

/-! ## What a decoded program shows -/

theorem ofInstr_atom {p : Pools} {i : Instr} {r : DRef} (h : ofInstr p i = some (.atom r)) : i.atomRef = r := by
  unfold ofInstr at h
  split at h
  all_goals first
    | (simp only [Option.bind_eq_bind, Option.bind_eq_some_iff] at h; obtain ⟨_, _, h⟩ := h; cases h; done)
    | (cases h; done)
    | (cases h; rfl)

/-- Every numbered offset is decoded. -/
structure Final (code : List Nat) (p : Decoded) : Prop where
  dom : ∀ o k : Nat, p.ordOf o = some k → At code p.offOf o k
  node : ∀ k c : Nat, p.offOf[k]? = some c → ∃ i, p.instrs[k]? = some i ∧ Carries code p.toPools p.ordOf c i

theorem Final.view {code : List Nat} {p : Decoded} (h : Final code p) {k c : Nat} {n : Node} {v : View Nat}
    (hk : p.offOf[k]? = some c) (hr : readNode code c = some n) (hv : ofNode code n = some v) :
    ∃ v', (decodedEngine p).view k = some v' ∧ mapView p.ordOf v = some v' := by
  obtain ⟨i, h1, n', v1, v', h2, h3, h4, h5⟩ := h.node k c hk
  rw [hr] at h2; cases h2
  rw [hv] at h3; cases h3
  exact ⟨v', by simp [decodedEngine, h1, h5], h4⟩

theorem Final.arg {code : List Nat} {ks : List K} {p : Decoded} (h : Final code p) {o k c n : Nat} {r : Ref K}
    (ha : ArgIs code ks o r) (hp : Peels code n o c) (hk : p.offOf[k]? = some c) : ShowsArg (decodedEngine p) ks k r := by
  obtain ⟨d, h1, h2, h3⟩ := ha
  obtain ⟨_, rfl⟩ := hp.unique (.here h1 (by simp))
  obtain ⟨i, g1, n', v1, v', g2, g3, g4, g5⟩ := h.node k _ hk
  rw [h1] at g2; cases g2
  cases g3
  cases g4
  exact ⟨d, by simp [decodedEngine, g1, g5], by simp [decodedEngine, g1, ofInstr_atom g5], h3⟩

theorem Final.argOf {code : List Nat} {ks : List K} {p : Decoded} (h : Final code p) {o k : Nat} {r : Ref K}
    (ha : ArgIs code ks o r) (hk : p.ordOf o = some k) : ShowsArg (decodedEngine p) ks k r := by
  obtain ⟨n, c, h1, h2⟩ := h.dom o k hk
  exact h.arg ha h1 h2

theorem Final.argsOf {code : List Nat} {ks : List K} {p : Decoded} (h : Final code p) :
    ∀ {os ns : List Nat} {rs : List (Ref K)}, ArgsAre code ks os rs → mapAll p.ordOf os = some ns →
    ShowsArgs (decodedEngine p) ks ns rs
  | [], ns, [], _, e => by cases e; trivial
  | o :: os, ns, r :: rs, ha, e => by
    simp only [mapAll, Option.bind_eq_bind, Option.bind_eq_some_iff] at e
    obtain ⟨k, h1, ks', h2, h3⟩ := e
    cases h3
    exact ⟨h.argOf ha.1 h1, h.argsOf ha.2 h2⟩
  | [], _, _ :: _, ha, _ => ha.elim
  | _ :: _, _, [], ha, _ => ha.elim

theorem mapAll_get {α β : Type} {f : α → Option β} : ∀ {as : List α} {bs : List β}, mapAll f as = some bs → ∀ i : Nat,
    (as[i]? = none ∧ bs[i]? = none) ∨ ∃ a b, as[i]? = some a ∧ bs[i]? = some b ∧ f a = some b
  | [], bs, h, i => by cases h; exact .inl ⟨by simp, by simp⟩
  | a :: as, bs, h, i => by
    simp only [mapAll, Option.bind_eq_bind, Option.bind_eq_some_iff] at h
    obtain ⟨b, h1, bs', h2, h3⟩ := h
    cases h3
    cases i with
    | zero => exact .inr ⟨a, b, rfl, rfl, h1⟩
    | succ i => simpa using mapAll_get h2 i

/-- Branch selection commutes with renaming. -/
theorem select_map {f : Nat → Option Nat} {lo : Nat} {t t' : List (Option Nat)} (h : mapAll (mapOpt f) t = some t') (tag : Nat) :
    (selectEntry lo t tag = none ∧ select lo t' tag = none) ∨
      ∃ o k, selectEntry lo t tag = some o ∧ select lo t' tag = some k ∧ f o = some k := by
  unfold selectEntry select
  by_cases hl : tag < lo
  · simp [hl]
  · rw [if_neg hl, if_neg hl]
    rcases mapAll_get h (tag - lo) with ⟨h1, h2⟩ | ⟨a, b, h1, h2, h3⟩
    · left; rw [h1, h2]; exact ⟨rfl, rfl⟩
    · rw [h1, h2]
      cases a with
      | none => cases h3; left; exact ⟨rfl, rfl⟩
      | some o =>
        simp only [mapOpt, Option.map_eq_some_iff] at h3
        obtain ⟨k, h3, h4⟩ := h3
        subst h4
        exact .inr ⟨o, k, rfl, rfl, h3⟩

theorem mapBind_body {f : Nat → Option Nat} {b b' : Bind Nat} (h : mapBind f b = some b') :
    b'.upd = b.upd ∧ b'.arity = b.arity ∧ f b.body = some b'.body := by
  simp only [mapBind, Option.map_eq_some_iff] at h
  obtain ⟨k, h1, h2⟩ := h
  subst h2
  exact ⟨rfl, rfl, h1⟩

mutual
/-- The tree read from the bytes at an offset is shown by the instruction it was decoded to. -/
theorem Final.shows {code : List Nat} {ks : List K} {p : Decoded} (h : Final code p) : (t : Syn K) → (o k c n : Nat) →
    Reads code ks o t → Peels code n o c → p.offOf[k]? = some c → Shows (decodedEngine p) ks k t
  | .ann s b, o, k, c, n, hr, hp, hk => by
    rw [Reads] at hr; rw [Shows]
    obtain ⟨bo, h1, h2⟩ := hr
    cases hp with
    | here h' hn => rw [h1] at h'; cases h'; exact (hn _ _ rfl).elim
    | ann h' hp' =>
      rw [h1] at h'; cases h'
      exact .inr (h.shows b bo k c _ h2 hp' hk)
  | .atom r, o, k, c, n, hr, hp, hk => by
    rw [Reads] at hr; rw [Shows]
    exact h.arg hr hp hk
  | .case scr bs fb, o, k, c, n, hr, hp, hk => by
    rw [Reads] at hr; rw [Shows]
    obtain ⟨so, lo, table, fo, h1, h2, h3, h4, h5⟩ := hr
    obtain ⟨_, rfl⟩ := hp.unique (.here h1 (by simp))
    obtain ⟨v', g1, g2⟩ := h.view hk h1 rfl
    simp only [mapView, Option.bind_eq_bind, Option.bind_eq_some_iff] at g2
    obtain ⟨s', m1, t', m2, f', m3, m4⟩ := g2
    cases m4
    refine ⟨s', lo, t', f', g1, h.showsAt scr so s' h2 m1, ?_, h.showsBrs bs lo table t' m2 h4, h.showsFb fb fo f' h5 m3⟩
    intro tag ht
    apply h3 tag
    rcases select_map m2 (lo := lo) tag with ⟨_, e⟩ | ⟨x, y, e, _⟩
    · exact (ht e).elim
    · rw [e]; simp
  | .cons tag args, o, k, c, n, hr, hp, hk => by
    rw [Reads] at hr; rw [Shows]
    obtain ⟨os, h1, h2⟩ := hr
    obtain ⟨_, rfl⟩ := hp.unique (.here h1 (by simp))
    obtain ⟨ds, g1, g2⟩ := argsAre_refs h2
    obtain ⟨v', q1, q2⟩ := h.view hk h1 (by simp [ofNode, g1]; rfl)
    cases q2
    exact ⟨ds, q1, g2⟩
  | .bif tag args, o, k, c, n, hr, hp, hk => by
    rw [Reads] at hr; rw [Shows]
    obtain ⟨os, h1, h2⟩ := hr
    obtain ⟨_, rfl⟩ := hp.unique (.here h1 (by simp))
    obtain ⟨ds, g1, g2⟩ := argsAre_refs h2
    obtain ⟨v', q1, q2⟩ := h.view hk h1 (by simp [ofNode, g1]; rfl)
    cases q2
    exact ⟨ds, q1, g2⟩
  | .app f args eager, o, k, c, n, hr, hp, hk => by
    rw [Reads] at hr; rw [Shows]
    obtain ⟨d, os, h1, h2, h3⟩ := hr
    obtain ⟨_, rfl⟩ := hp.unique (.here h1 (by simp))
    obtain ⟨v', g1, g2⟩ := h.view hk h1 rfl
    simp only [mapView, Option.bind_eq_bind, Option.bind_eq_some_iff] at g2
    obtain ⟨ns, m1, m2⟩ := g2
    cases m2
    exact ⟨d, ns, g1, h2, h.argsOf h3 m1⟩
  | .dapp smid f args eager, o, k, c, n, hr, hp, hk => by
    rw [Reads] at hr; rw [Shows]
    obtain ⟨d, os, h1, h2, h3⟩ := hr
    obtain ⟨_, rfl⟩ := hp.unique (.here h1 (by simp))
    obtain ⟨v', g1, g2⟩ := h.view hk h1 rfl
    simp only [mapView, Option.bind_eq_bind, Option.bind_eq_some_iff] at g2
    obtain ⟨ns, m1, m2⟩ := g2
    cases m2
    exact ⟨d, ns, g1, h2, h.argsOf h3 m1⟩
  | .let_ fs body, o, k, c, n, hr, hp, hk => by
    rw [Reads] at hr; rw [Shows]
    obtain ⟨hs, bo, h1, h2, h3⟩ := hr
    obtain ⟨_, rfl⟩ := hp.unique (.here h1 (by simp))
    obtain ⟨v', g1, g2⟩ := h.view hk h1 rfl
    simp only [mapView, Option.bind_eq_bind, Option.bind_eq_some_iff] at g2
    obtain ⟨ns, m1, b', m2, m3⟩ := g2
    cases m3
    exact ⟨ns, b', g1, h.showsForms fs hs ns h2 m1, h.showsAt body bo b' h3 m2⟩
  | .letrec fs body, o, k, c, n, hr, hp, hk => by
    rw [Reads] at hr; rw [Shows]
    obtain ⟨hs, bo, h1, h2, h3⟩ := hr
    obtain ⟨_, rfl⟩ := hp.unique (.here h1 (by simp))
    obtain ⟨v', g1, g2⟩ := h.view hk h1 rfl
    simp only [mapView, Option.bind_eq_bind, Option.bind_eq_some_iff] at g2
    obtain ⟨ns, m1, b', m2, m3⟩ := g2
    cases m3
    exact ⟨ns, b', g1, h.showsForms fs hs ns h2 m1, h.showsAt body bo b' h3 m2⟩
  | .metaOf m b, o, k, c, n, hr, hp, hk => by
    rw [Reads] at hr; rw [Shows]
    obtain ⟨mo, bo, h1, ⟨dm, _, h2, h3⟩, ⟨db, _, h4, h5⟩⟩ := hr
    obtain ⟨_, rfl⟩ := hp.unique (.here h1 (by simp))
    obtain ⟨v', q1, q2⟩ := h.view hk h1 (by simp [ofNode, h2, h4]; rfl)
    cases q2
    exact ⟨dm, db, q1, h3, h5⟩
  | .demeta s hd oe, o, k, c, n, hr, hp, hk => by
    rw [Reads] at hr; rw [Shows]
    obtain ⟨so, ho, oo, h1, h2, h3, h4⟩ := hr
    obtain ⟨_, rfl⟩ := hp.unique (.here h1 (by simp))
    obtain ⟨v', g1, g2⟩ := h.view hk h1 rfl
    simp only [mapView, Option.bind_eq_bind, Option.bind_eq_some_iff] at g2
    obtain ⟨x1, m1, x2, m2, x3, m3, m4⟩ := g2
    cases m4
    exact ⟨x1, x2, x3, g1, h.showsAt s so x1 h2 m1, h.showsAt hd ho x2 h3 m2, h.showsAt oe oo x3 h4 m3⟩
  | .seq s b, o, k, c, n, hr, hp, hk => by
    rw [Reads] at hr; rw [Shows]
    obtain ⟨so, bo, h1, h2, h3⟩ := hr
    obtain ⟨_, rfl⟩ := hp.unique (.here h1 (by simp))
    obtain ⟨v', g1, g2⟩ := h.view hk h1 rfl
    simp only [mapView, Option.bind_eq_bind, Option.bind_eq_some_iff] at g2
    obtain ⟨x1, m1, x2, m2, m4⟩ := g2
    cases m4
    exact ⟨x1, x2, g1, h.showsAt s so x1 h2 m1, h.showsAt b bo x2 h3 m2⟩
  | .lookup smid key obj dflt, o, k, c, n, hr, hp, hk => by
    rw [Reads] at hr; rw [Shows]
    obtain ⟨dk, d, oo, h1, h2, h3, h4⟩ := hr
    obtain ⟨_, rfl⟩ := hp.unique (.here h1 (by simp))
    obtain ⟨v', g1, g2⟩ := h.view hk h1 rfl
    simp only [mapView, Option.bind_eq_bind, Option.bind_eq_some_iff] at g2
    obtain ⟨x1, m1, m4⟩ := g2
    cases m4
    exact ⟨dk, d, x1, g1, h2, h3, h.argOf h4 m1⟩
  | .fused id l r, o, k, c, n, hr, hp, hk => by
    rw [Reads] at hr; rw [Shows]
    obtain ⟨lo, ro, h1, h2, h3⟩ := hr
    obtain ⟨_, rfl⟩ := hp.unique (.here h1 (by simp))
    obtain ⟨v', g1, g2⟩ := h.view hk h1 rfl
    simp only [mapView, Option.bind_eq_bind, Option.bind_eq_some_iff] at g2
    obtain ⟨x1, m1, x2, m2, m4⟩ := g2
    cases m4
    exact ⟨x1, x2, g1, h.argOf h2 m1, h.argOf h3 m2⟩
  | .hole, o, k, c, n, hr, hp, hk => by
    rw [Reads] at hr; rw [Shows]
    obtain ⟨_, rfl⟩ := hp.unique (.here hr (by simp))
    obtain ⟨v', g1, g2⟩ := h.view hk hr rfl
    cases g2
    exact g1
theorem Final.showsAt {code : List Nat} {ks : List K} {p : Decoded} (h : Final code p) (t : Syn K) (o k : Nat)
    (hr : Reads code ks o t) (hk : p.ordOf o = some k) : Shows (decodedEngine p) ks k t := by
  obtain ⟨n, c, h1, h2⟩ := h.dom o k hk
  exact h.shows t o k c n hr h1 h2
theorem Final.showsBrs {code : List Nat} {ks : List K} {p : Decoded} (h : Final code p) : (bs : Brs K) → (lo : Nat) →
    (table t' : List (Option Nat)) → mapAll (mapOpt p.ordOf) table = some t' → ReadsBrs code ks (selectEntry lo table) bs →
    ShowsBrs (decodedEngine p) ks (select lo t') bs
  | .nil, _, _, _, _, _ => by rw [ShowsBrs]; trivial
  | .cons tag body bs, lo, table, t', hm, hb => by
    rw [ReadsBrs] at hb; rw [ShowsBrs]
    refine ⟨fun hn => ?_, h.showsBrs bs lo table t' hm hb.2⟩
    obtain ⟨o, h1, h2⟩ := hb.1 hn
    rcases select_map hm (lo := lo) tag with ⟨e, _⟩ | ⟨x, y, e1, e2, e3⟩
    · rw [h1] at e; cases e
    · rw [h1] at e1; cases e1
      exact ⟨y, e2, h.showsAt body o y h2 e3⟩
theorem Final.showsFb {code : List Nat} {ks : List K} {p : Decoded} (h : Final code p) : (fb : Fb K) → (fo f' : Option Nat) →
    ReadsFb code ks fo fb → mapOpt p.ordOf fo = some f' → ShowsFb (decodedEngine p) ks f' fb
  | .none, none, f', _, e => by cases e; rw [ShowsFb]; trivial
  | .some b, some o, f', hb, e => by
    rw [ReadsFb] at hb
    simp only [mapOpt, Option.map_eq_some_iff] at e
    obtain ⟨k, h1, h2⟩ := e
    subst h2
    rw [ShowsFb]
    exact h.showsAt b o k hb h1
  | .none, some o, _, hb, _ => by rw [ReadsFb] at hb; exact hb.elim; all_goals simp
  | .some b, none, _, hb, _ => by rw [ReadsFb] at hb; exact hb.elim; all_goals simp
theorem Final.showsForms {code : List Nat} {ks : List K} {p : Decoded} (h : Final code p) : (fs : Forms K) →
    (hs : List Header) → (ns : List (Bind Nat)) → ReadsForms code ks hs fs → mapAll (mapBind p.ordOf) (hs.map formInfo) = some ns →
    ShowsForms (decodedEngine p) ks ns fs
  | .nil, [], ns, _, e => by cases e; rw [ShowsForms]; trivial
  | .cons hd body fs, x :: hs, ns, hb, e => by
    rw [ReadsForms] at hb
    rw [List.map_cons] at e
    simp only [mapAll, Option.bind_eq_bind, Option.bind_eq_some_iff] at e
    obtain ⟨b', h1, ns', h2, h3⟩ := e
    cases h3
    obtain ⟨m1, m2, m3⟩ := mapBind_body h1
    obtain ⟨q1, q2, q3⟩ := formInfo_head hb.1
    rw [ShowsForms]
    exact ⟨m1.trans q1, m2.trans q2, h.showsAt body x.body b'.body hb.2.1 (by rw [← q3]; exact m3),
      h.showsForms fs hs ns' hb.2.2 h2⟩
  | .nil, x :: hs, _, hb, _ => by rw [ReadsForms] at hb; exact hb.elim; all_goals simp
  | .cons hd body fs, [], _, hb, _ => by rw [ReadsForms] at hb; exact hb.elim; all_goals simp
end

end Verif.Eng
