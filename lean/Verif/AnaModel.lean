/-!
# Anaphora: `_`, `_0`, sections, and the functions they make

Models `/repo/src/core/anaphora.rs` (`to_binding_pattern`), the order on
`Anaphor` in `/repo/src/core/expr.rs`, and the part of
`/repo/src/core/cook/{mod,fill}.rs` that decides where a lambda is wrapped
around an expression and with which parameters.
-/

namespace Verif.Ana

/-- `ImplicitAnaphorSide`, expr.rs:177-182. -/
inductive Side
  | left | right
  deriving DecidableEq, Repr

/-- `Ord for ImplicitAnaphorSide`, expr.rs:190-204. -/
def Side.cmp (a b : Side) : Ordering :=
  if a = .left then
    if b = .right then .lt else .eq
  else if b = .left then .eq
  else .gt

/-- `Anaphor<Smid, i32>`, expr.rs:207-220.  A `Smid` is a number, zero being the
invalid one. -/
inductive Anaphor
  | anon (smid : Nat)
  | num (n : Int)
  | implicit (smid : Nat) (side : Side)
  deriving DecidableEq, Repr

/-- `Ord::cmp` for numbers and locations. -/
def natCmp (a b : Nat) : Ordering := if a < b then .lt else if a = b then .eq else .gt
/-- `Ord::cmp` for `i32`. -/
def intCmp (a b : Int) : Ordering := if a < b then .lt else if a = b then .eq else .gt

/-- `Ord for Anaphor`, expr.rs:240-257. -/
def Anaphor.cmp : Anaphor → Anaphor → Ordering
  | .num n, .num p => intCmp n p
  | .anon a, .anon b => natCmp a b
  | .implicit a sa, .implicit b sb =>
    match natCmp a b with
    | .eq => sa.cmp sb
    | r => r
  | .num _, _ => .lt
  | .implicit _ _, _ => .gt
  | _, .num _ => .gt
  | _, .implicit _ _ => .lt

/-- `PartialOrd::lt`, which is what `slice::sort` asks. -/
def Anaphor.lt (a b : Anaphor) : Bool := a.cmp b == .lt

/-- One step of a stable sort by `lt`. -/
def insertSorted (a : Anaphor) : List Anaphor → List Anaphor
  | [] => [a]
  | b :: bs => if a.lt b then a :: b :: bs else b :: insertSorted a bs

/-- `slice::sort`: a stable sort by `lt`.  The library's algorithm is not
modelled, only that it is a comparison sort. -/
def sort : List Anaphor → List Anaphor
  | [] => []
  | a :: as => insertSorted a (sort as)

def Anaphor.isAnon : Anaphor → Bool
  | .anon _ => true
  | _ => false
def Anaphor.isNum : Anaphor → Bool
  | .num _ => true
  | _ => false
def Anaphor.isImplicit : Anaphor → Bool
  | .implicit _ _ => true
  | _ => false

/-- `Anaphor::smid`, expr.rs:284-290. -/
def Anaphor.smid : Anaphor → Nat
  | .anon s => s
  | .implicit s _ => s
  | .num _ => 0

/-- `Anaphor::number`, expr.rs:227-232. -/
def Anaphor.number : Anaphor → Option Int
  | .num n => some n
  | _ => none

/-- `sort_anaphora`, anaphora.rs:66-91: numberless, numbered, section. -/
def sortAnaphora (as : List Anaphor) : List Anaphor × List Anaphor × List Anaphor :=
  (sort (as.filter Anaphor.isAnon), sort (as.filter Anaphor.isNum),
    sort (as.filter Anaphor.isImplicit))

/-- What `to_binding_pattern` does: names, `CoreError::MixedAnaphora`, or panic. -/
inductive Pattern (N : Type)
  | ok (names : List N)
  | mixed (smid : Nat)
  | panic
  deriving DecidableEq, Repr

/-- `numbers.iter().max()`, of a non-empty list. -/
def maxOf (n : Int) : List Int → Int
  | [] => n
  | m :: ms => maxOf (if n < m then m else n) ms

/-- The filling loop, anaphora.rs:48-51: `v[n as usize] = Some(…)`.  A negative
`n` becomes an index beyond any vector: `none` is the out-of-range panic. -/
def place {N} (get : Anaphor → Option N) : List Int → List (Option N) → Option (List (Option N))
  | [], v => some v
  | n :: ns, v =>
    match get (.num n) with
    | none => none
    | some x =>
      if 0 ≤ n ∧ n.toNat < v.length then place get ns (v.set n.toNat (some x)) else none

/-- `.enumerate().map(|(i, x)| x.unwrap_or_else(|| format!("_d{i}")))`. -/
def padFrom {N} (dummy : Nat → N) : Nat → List (Option N) → List N
  | _, [] => []
  | i, x :: xs => x.getD (dummy i) :: padFrom dummy (i + 1) xs

/-- `HashMap::get` on a map held as a list. -/
def getName {N} (m : List (Anaphor × N)) (a : Anaphor) : Option N :=
  match m with
  | [] => none
  | (k, v) :: m => if k = a then some v else getName m a

/-- `iter().map(|an| anaphora.get(an).unwrap().clone()).collect()`; `none` is
the `unwrap` panic. -/
def names {N} (m : List (Anaphor × N)) : List Anaphor → Option (List N)
  | [] => some []
  | a :: as =>
    match getName m a, names m as with
    | some x, some xs => some (x :: xs)
    | _, _ => none

/-- An `unwrap`. -/
def Pattern.ofOption {N} : Option (List N) → Pattern N
  | some xs => .ok xs
  | none => .panic

/-- `to_binding_pattern`, anaphora.rs:18-62.  The map is the list of its entries
in iteration order.  With a negative maximum `*max as usize + 1` overflows: a
panic in a debug build, an empty vector and an out-of-range panic otherwise. -/
def toBindingPattern {N} (dummy : Nat → N) (m : List (Anaphor × N)) : Pattern N :=
  match sortAnaphora (m.map Prod.fst) with
  | (numberless, numbered, sections) =>
    let types := (if numberless.isEmpty then 0 else 1) + (if numbered.isEmpty then 0 else 1)
      + (if sections.isEmpty then 0 else 1)
    if types > 1 then
      match numberless.head?.or sections.head? with
      | some a => .mixed a.smid
      | none => .panic
    else if !numberless.isEmpty then .ofOption (names m numberless)
    else if !sections.isEmpty then .ofOption (names m sections)
    else if !numbered.isEmpty then
      match numbered.filterMap Anaphor.number with
      | [] => .panic
      | n :: ns =>
        let mx := maxOf n ns
        if mx < 0 then .panic
        else
          match place (getName m) (n :: ns) (List.replicate (mx.toNat + 1) none) with
          | none => .panic
          | some v => .ok (padFrom dummy 0 v)
    else .panic

/-! ## Cooking: where the lambdas go -/

/-- `Fixity`, expr.rs:60-66. -/
inductive Fixity
  | nullary | prefix | postfix | infixLeft | infixRight
  deriving DecidableEq, Repr

/-- The part of `Expr` this concerns.  `op` is `Expr::Operator` with a leaf body
(a variable or intrinsic).  `letE` is `Expr::Let` with its binding values and
then its body as children; `node` is any other constructor, with the children
`try_walk_safe` visits. -/
inductive Ex
  | leaf (smid tag : Nat)
  | op (smid : Nat) (fixity : Fixity) (tag : Nat)
  | eana (smid : Nat) (a : Anaphor)
  | bana (smid : Nat) (a : Anaphor)
  | soup (smid : Nat) (xs : List Ex) (bracket : Bool)
  | letE (smid : Nat) (cs : List Ex)
  | node (smid tag : Nat) (cs : List Ex)
  deriving Repr

/-- `HasSmid`; anaphora report no location (expr.rs:652-655). -/
def Ex.smid : Ex → Nat
  | .leaf s _ | .op s _ _ | .soup s _ _ | .letE s _ | .node s _ _ => s
  | .eana _ _ | .bana _ _ => 0

/-- The names the cooker makes, mod.rs:184,193 and anaphora.rs:56: `_e…` and
`_b…` with the anaphor's own text, and `_d<i>` for an unused position. -/
inductive Name
  | expr (a : Anaphor)
  | block (a : Anaphor)
  | dummy (i : Nat)
  deriving DecidableEq, Repr

/-- Cooked expressions.  The result of shunting is kept as the list of its
atoms: how they are grouped is the subject of the shunting-yard model. -/
inductive Out
  | leaf (smid tag : Nat)
  | op (smid : Nat) (fixity : Fixity) (tag : Nat)
  | var (smid : Nat) (n : Name)
  | shunted (bracket : Bool) (xs : List Out)
  | letE (smid : Nat) (cs : List Out)
  | node (smid tag : Nat) (cs : List Out)
  | lam (params : List Name) (body : Out)
  deriving Repr

/-- Errors: `NoSmidForImplicitAnaphor`, `MixedAnaphora`, and a panic. -/
inductive Err
  | noSmid | mixed (smid : Nat) | panic
  deriving DecidableEq, Repr

/-- `bind_sides`, fill.rs:56-69; `true` is `OpLike`. -/
def bindSides : Option Ex → Bool × Bool
  | some (.op _ .nullary _) => (false, false)
  | some (.op _ .prefix _) => (false, true)
  | some (.op _ .postfix _) => (true, false)
  | some (.op _ _ _) => (true, true)
  | some _ => (false, false)
  | none => (true, true)

/-- The catenation operator, `core::cat`; tag 0 is reserved for it. -/
def cat : Ex := .op 0 .infixLeft 0

/-- `filler`, fill.rs:73-95.  The anaphor expression takes the same location
(expr.rs, `section_anaphor_left`). -/
def filler (l r : Option Ex) : Except Err (Option Ex) :=
  match (bindSides l).2, (bindSides r).1 with
  | false, false => .ok (some cat)
  | true, true =>
    let rs := (r.map Ex.smid).getD 0
    let ls := (l.map Ex.smid).getD 0
    if rs ≠ 0 then .ok (some (.eana rs (.implicit rs .left)))
    else if ls ≠ 0 then .ok (some (.eana ls (.implicit ls .right)))
    else .error .noSmid
  | _, _ => .ok none

/-- fill.rs:25-44: the windows and the suffix. -/
def fillFrom : List Ex → Except Err (List Ex)
  | [] => .ok []
  | x :: xs =>
    match filler (some x) xs.head? with
    | .error e => .error e
    | .ok f =>
      match fillFrom xs with
      | .error e => .error e
      | .ok ys => .ok (x :: (f.toList ++ ys))

/-- `fill_gaps`, fill.rs:12-46. -/
def fillGaps (xs : List Ex) : Except Err (List Ex) :=
  match xs with
  | [] => .ok []
  | x :: _ =>
    match filler none (some x) with
    | .error e => .error e
    | .ok f =>
      match fillFrom xs with
      | .error e => .error e
      | .ok ys => .ok (f.toList ++ ys)

/-- `naked_anaphora`, anaphora.rs:10-15. -/
def Ex.isAnaphor : Ex → Bool
  | .eana _ _ => true
  | _ => false

/-- `Cooker`, mod.rs:72-88; each pending map is the list of its keys, the name
of a key being determined by the key. -/
structure St where
  inScope : Bool
  pe : List Anaphor
  pb : List Anaphor
  deriving DecidableEq, Repr

/-- `entry(..).or_insert_with(..)`. -/
def record (a : Anaphor) (as : List Anaphor) : List Anaphor := if a ∈ as then as else a :: as

mutual
/-- Nesting, used only to show that cooking terminates: what gap filling inserts
has no nesting. -/
def Ex.depth : Ex → Nat
  | .leaf _ _ | .op _ _ _ | .eana _ _ | .bana _ _ => 0
  | .soup _ xs _ => depthAll xs + 1
  | .letE _ cs => depthAll cs + 1
  | .node _ _ cs => depthAll cs + 1
def depthAll : List Ex → Nat
  | [] => 0
  | x :: xs => x.depth + depthAll xs
end

theorem filler_depth {l r : Option Ex} {f : Ex} (h : filler l r = .ok (some f)) : f.depth = 0 := by
  unfold filler at h
  split at h
  · cases h; rfl
  · dsimp only at h
    split at h
    · cases h; rfl
    · split at h <;> cases h; rfl
  · cases h

theorem depthAll_append (xs ys : List Ex) : depthAll (xs ++ ys) = depthAll xs + depthAll ys := by
  induction xs with
  | nil => simp [depthAll]
  | cons x xs ih => simp only [List.cons_append, depthAll, ih]; omega

theorem fillerList_depth {l r : Option Ex} {f : Option Ex} (h : filler l r = .ok f) :
    depthAll f.toList = 0 := by
  cases f with
  | none => rfl
  | some f => simp [depthAll, filler_depth h]

theorem fillFrom_depth : ∀ (xs ys : List Ex), fillFrom xs = .ok ys → depthAll ys = depthAll xs
  | [], ys, h => by simp only [fillFrom, Except.ok.injEq] at h; rw [← h]
  | x :: xs, ys, h => by
    unfold fillFrom at h
    cases h1 : filler (some x) xs.head? with
    | error e => rw [h1] at h; cases h
    | ok f =>
      rw [h1] at h
      cases h2 : fillFrom xs with
      | error e => rw [h2] at h; cases h
      | ok zs =>
        rw [h2] at h
        cases h
        have h3 := fillFrom_depth xs zs h2
        have h4 := fillerList_depth h1
        simp only [depthAll, depthAll_append]
        omega

theorem fillGaps_depth {xs ys : List Ex} (h : fillGaps xs = .ok ys) : depthAll ys = depthAll xs := by
  unfold fillGaps at h
  cases xs with
  | nil => cases h; rfl
  | cons x xs =>
    dsimp only at h
    cases h1 : filler none (some x) with
    | error e => rw [h1] at h; cases h
    | ok f =>
      rw [h1] at h
      cases h2 : fillFrom (x :: xs) with
      | error e => rw [h2] at h; cases h
      | ok zs =>
        rw [h2] at h
        cases h
        have h3 := fillFrom_depth _ zs h2
        have h4 := fillerList_depth h1
        rw [depthAll_append]
        omega

/-- `process_expr_anaphora`, mod.rs:262-269, and `process_block_anaphora`,
mod.rs:281-331 (without the collapse of a block whose only definition is an
alias of the anaphor, which changes the shape of the lambda but not its
parameters). -/
def wrap (nm : Anaphor → Name) (as : List Anaphor) (body : Out) : Except Err Out :=
  match toBindingPattern Name.dummy (as.map fun a => (a, nm a)) with
  | .ok ns => .ok (.lam ns body)
  | .mixed s => .error (.mixed s)
  | .panic => .error .panic

mutual
/-- `cook_`, mod.rs:169-177. -/
def cook (st : St) : Ex → Except Err (Out × St)
  | .letE s cs =>
    -- `cook_let`, mod.rs:246-259
    match cookAll st cs with
    | .error e => .error e
    | .ok (os, st') =>
      if !st'.pb.isEmpty && !(!st.pb.isEmpty) then
        match wrap Name.block st'.pb (.letE s os) with
        | .error e => .error e
        | .ok o => .ok (o, { st' with pb := [] })
      else .ok (.letE s os, st')
  | .soup _ xs bracket =>
    -- `cook_soup`, mod.rs:205-243
    match _hfill : fillGaps xs with
    | .error e => .error e
    | .ok filled =>
      let wrapLambda := !st.inScope && filled.any Ex.isAnaphor
      let st1 := if wrapLambda then { st with inScope := true } else st
      match cookAll st1 filled with
      | .error e => .error e
      | .ok (atoms, st2) =>
        let st3 := { st2 with inScope := st1.inScope }
        if wrapLambda then
          match wrap Name.expr st3.pe (.shunted bracket atoms) with
          | .error e => .error e
          | .ok o => .ok (o, { st3 with inScope := false, pe := [] })
        else .ok (.shunted bracket atoms, st3)
  | .bana s a => .ok (.var s (.block a), { st with pb := record a st.pb })
  | .eana s a => .ok (.var s (.expr a), { st with pe := record a st.pe })
  | .leaf s t => .ok (.leaf s t, st)
  | .op s f t => .ok (.op s f t, st)
  | .node s t cs =>
    match cookAll st cs with
    | .error e => .error e
    | .ok (os, st') => .ok (.node s t os, st')
termination_by e => (e.depth, 0)
decreasing_by
  · simp only [Ex.depth]; left; omega
  · have := fillGaps_depth _hfill; simp only [Ex.depth]; left; omega
  · simp only [Ex.depth]; left; omega
/-- The children, in order. -/
def cookAll (st : St) : List Ex → Except Err (List Out × St)
  | [] => .ok ([], st)
  | x :: xs =>
    match cook st x with
    | .error e => .error e
    | .ok (o, st1) =>
      match cookAll st1 xs with
      | .error e => .error e
      | .ok (os, st2) => .ok (o :: os, st2)
termination_by xs => (depthAll xs, xs.length + 1)
decreasing_by
  · simp only [depthAll, List.length_cons]
    by_cases h : x.depth < x.depth + depthAll xs
    · left; exact h
    · have : x.depth = x.depth + depthAll xs := by omega
      rw [← this]; right; omega
  · simp only [depthAll, List.length_cons]
    by_cases h : depthAll xs < x.depth + depthAll xs
    · left; exact h
    · have : depthAll xs = x.depth + depthAll xs := by omega
      rw [← this]; right; omega
end

/-- The state `Cooker::new` makes, mod.rs:125-132. -/
def St.init : St := ⟨false, [], []⟩

end Verif.Ana
