import Verif.BcModel

/-!
# What bytecode stands for

`Reads code ks off t`: following the offsets from `off`, the machine finds the tree `t`.
-/

namespace Verif.Bc
variable {K : Type}

/-- A reference as read and as written: constants are looked up in the pool `ks`. -/
def RefIs (ks : List K) : DRef → Ref K → Prop
  | .loc i, .l j => i = j
  | .glob i, .g j => i = j
  | .val k, .v n => ks[k]? = some n
  | _, _ => False

/-- An argument: the offset of an atom node, which the machine enters or looks into. -/
def ArgIs (code : List Nat) (ks : List K) (off : Nat) (r : Ref K) : Prop :=
  ∃ d, readNode code off = some (.atom d) ∧ argRef code off = some d ∧ RefIs ks d r

def ArgsAre (code : List Nat) (ks : List K) : List Nat → List (Ref K) → Prop
  | [], [] => True
  | o :: os, r :: rs => ArgIs code ks o r ∧ ArgsAre code ks os rs
  | _, _ => False

/-- What the machine makes of a header: `form_info`, machine.rs:1932-1938. -/
def Header.head (h : Header) : Head :=
  if h.kind = 0x01 then .thunk else if h.kind = 0x00 then .lambda h.arity h.smid else .value

/-- A lambda without parameters is a value. -/
def Head.norm : Head → Head
  | .lambda 0 _ => .value
  | h => h

/-- Is there a branch for this tag? -/
def Brs.has : Brs K → Nat → Prop
  | .nil, _ => False
  | .cons t _ bs, tag => t = tag ∨ bs.has tag

mutual
/-- The node at `off` is the tree. -/
def Reads (code : List Nat) (ks : List K) (off : Nat) : Syn K → Prop
  | .atom r => ArgIs code ks off r
  | .case scr bs fb => ∃ so lo table fo, readNode code off = some (.case so lo table fo) ∧ Reads code ks so scr ∧
      (∀ tag, selectEntry lo table tag ≠ none → bs.has tag) ∧ ReadsBrs code ks (selectEntry lo table) bs ∧
      ReadsFb code ks fo fb
  | .cons tag args => ∃ os, readNode code off = some (.cons tag os) ∧ ArgsAre code ks os args
  | .app f args eager => ∃ d os, readNode code off = some (.app eager d os) ∧ RefIs ks d f ∧ ArgsAre code ks os args
  | .dapp smid f args eager => ∃ d os, readNode code off = some (.dapp eager smid d os) ∧ RefIs ks d f ∧
      ArgsAre code ks os args
  | .bif i args => ∃ os, readNode code off = some (.bif i os) ∧ ArgsAre code ks os args
  | .let_ fs body => ∃ hs bo, readNode code off = some (.let_ hs bo) ∧ ReadsForms code ks hs fs ∧ Reads code ks bo body
  | .letrec fs body => ∃ hs bo, readNode code off = some (.letrec hs bo) ∧ ReadsForms code ks hs fs ∧
      Reads code ks bo body
  | .ann smid body => ∃ bo, readNode code off = some (.ann smid bo) ∧ Reads code ks bo body
  | .metaOf m b => ∃ mo bo, readNode code off = some (.metaOf mo bo) ∧ ArgIs code ks mo m ∧ ArgIs code ks bo b
  | .demeta scr handler orElse => ∃ so ho oo, readNode code off = some (.demeta so ho oo) ∧ Reads code ks so scr ∧
      Reads code ks ho handler ∧ Reads code ks oo orElse
  | .seq scr body => ∃ so bo, readNode code off = some (.seq so bo) ∧ Reads code ks so scr ∧ Reads code ks bo body
  | .lookup smid key obj dflt => ∃ dk d o, readNode code off = some (.lookup smid dk d o) ∧ RefIs ks dk key ∧
      RefIs ks d obj ∧ ArgIs code ks o dflt
  | .fused id left right => ∃ lo ro, readNode code off = some (.fused id lo ro) ∧ ArgIs code ks lo left ∧
      ArgIs code ks ro right
  | .hole => readNode code off = some .hole
/-- Each branch that no later branch for the same tag replaces is selected by its tag. -/
def ReadsBrs (code : List Nat) (ks : List K) (sel : Nat → Option Nat) : Brs K → Prop
  | .nil => True
  | .cons tag body bs => (¬ bs.has tag → ∃ o, sel tag = some o ∧ Reads code ks o body) ∧ ReadsBrs code ks sel bs
def ReadsFb (code : List Nat) (ks : List K) : Option Nat → Fb K → Prop
  | none, .none => True
  | some o, .some body => Reads code ks o body
  | _, _ => False
def ReadsForms (code : List Nat) (ks : List K) : List Header → Forms K → Prop
  | [], .nil => True
  | h :: hs, .cons hd body fs => h.head = hd.norm ∧ Reads code ks h.body body ∧ ReadsForms code ks hs fs
  | _, _ => False
end

/-! ## What the format can hold -/

/-- A `usize` index that fits the 32 bits of its field. -/
def Ref.Fits : Ref K → Prop
  | .l i => i < u32
  | .g i => i < u32
  | .v _ => True

/-- At most 255 arguments, in reach. -/
def argsFit (args : List (Ref K)) : Prop := args.length < 256 ∧ ∀ r ∈ args, r.Fits

/-- `bound` is an 8-bit number and `smid` a 32-bit one in the program. -/
def Head.Fits : Head → Prop
  | .lambda b s => b < 256 ∧ s < u32
  | _ => True

/-- All tags are between `lo` and `hi`. -/
def Brs.within (lo hi : Nat) : Brs K → Prop
  | .nil => True
  | .cons t _ bs => lo ≤ t ∧ t ≤ hi ∧ bs.within lo hi

mutual
/-- Tags, intrinsics and primops are 8-bit numbers and source locations 32-bit ones in the program; the tags of a case
span at most 255 values. -/
def Syn.Fits : Syn K → Prop
  | .atom r => r.Fits
  | .case scr bs fb => scr.Fits ∧ bs.Fits ∧ (∃ lo, bs.within lo (lo + 254) ∧ bs.within 0 255) ∧ fb.Fits
  | .cons tag args => tag < 256 ∧ argsFit args
  | .app f args _ => f.Fits ∧ argsFit args
  | .dapp smid f args _ => smid < u32 ∧ f.Fits ∧ argsFit args
  | .bif i args => i < 256 ∧ argsFit args
  | .let_ fs body => fs.Fits ∧ body.Fits
  | .letrec fs body => fs.Fits ∧ body.Fits
  | .ann smid body => smid < u32 ∧ body.Fits
  | .metaOf m b => m.Fits ∧ b.Fits
  | .demeta scr handler orElse => scr.Fits ∧ handler.Fits ∧ orElse.Fits
  | .seq scr body => scr.Fits ∧ body.Fits
  | .lookup smid key obj dflt => smid < u32 ∧ key.Fits ∧ obj.Fits ∧ dflt.Fits
  | .fused id left right => id < 256 ∧ left.Fits ∧ right.Fits
  | .hole => True
def Brs.Fits : Brs K → Prop
  | .nil => True
  | .cons _ body bs => body.Fits ∧ bs.Fits
def Fb.Fits : Fb K → Prop
  | .none => True
  | .some body => body.Fits
def Forms.Fits : Forms K → Prop
  | .nil => True
  | .cons h body fs => h.Fits ∧ body.Fits ∧ fs.Fits
end

def Form.Fits (f : Form K) : Prop := f.head.Fits ∧ f.body.Fits

/-- Several trees, each at its offset. -/
def ReadsAll (code : List Nat) (ks : List K) : List Nat → List (Syn K) → Prop
  | [], [] => True
  | o :: os, t :: ts => Reads code ks o t ∧ ReadsAll code ks os ts
  | _, _ => False

/-- What global slot `i` holds: a form, or, for a fusible intrinsic, the fused instruction on its two parameters. -/
def GlobalIs (p : Prog K) (fusible : Nat → Bool) (i : Nat) (f : Form K) : Prop :=
  ∃ h, p.globals[i]? = some h ∧ h.head = f.head.norm ∧
    Reads p.code p.consts h.body (if fusible i && fusibleShape f then .fused i (.l 0) (.l 1) else f.body)

/-- What a slot holds when its form is not fused. -/
def SlotIs (p : Prog K) (i : Nat) (f : Form K) : Prop :=
  ∃ h, p.globals[i]? = some h ∧ h.head = f.head.norm ∧ Reads p.code p.consts h.body f.body

/-- The override in force for a slot: the last one. -/
def overrideFor (os : List (Nat × Form K)) (i : Nat) : Option (Form K) :=
  ((os.filter fun o => o.1 = i).map (·.2)).getLast?

/-- A whole program: its entry, its globals and its fixed code. -/
structure ProgIs (p : Prog K) (entry : Nat) (pn : Nat) (fusible : Nat → Bool) (root : Syn K) (globals : List (Form K)) : Prop where
  root : Reads p.code p.consts entry root
  count : p.globals.length = globals.length
  globals : ∀ i f, globals[i]? = some f → GlobalIs p fusible i f
  fixtures : ReadsAll p.code p.consts p.fixtures (fixtureTrees pn)

/-- The limits of the format, for the parts of a program. -/
structure Limits (pn : Nat) (fusible : Nat → Bool) (root : Syn K) (globals : List (Form K)) : Prop where
  pn : pn < 256
  fusible : ∀ i, fusible i = true → i < 256
  root : root.Fits
  globals : ∀ f ∈ globals, f.Fits

end Verif.Bc
