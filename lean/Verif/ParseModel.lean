import Verif.LexModel

/-!
# The parser

Transcription of `src/syntax/rowan/parse.rs` (without its tests) and of the part of rowan's
`GreenNodeBuilder` it uses.

The parser is written as functions from the tokens not yet consumed to the calls made on the event sink
(`Op`) and the tokens left: the parser never looks into the sink, so a sink is an object that is sent a
sequence of calls.  `push_back` always undoes the `next` before it, so that `next`, test, `push_back` is a
look at the next token.  Errors recorded for the user are left out, and with them the byte offsets kept for
their ranges; the one place where computing a range panics is modelled (`nextRange`).  A token is its kind and
whether its text is `.`, the only text the parser looks at (the opening bracket's character is looked at, but
not used).
-/

namespace Verif.Parse

open Verif.Lex (Kind)

/-- A token as the parser sees it. -/
structure PTok where
  kind : Kind
  dot : Bool := false
  deriving DecidableEq, Repr

/-- `ParseEvent`, parse.rs:15-22. -/
inductive Ev where
  | start (k : Kind)
  | finish
  | token (k : Kind)
  deriving DecidableEq, Repr

/-- The calls of `EventSink`, parse.rs:1100-1121. -/
inductive Op where
  | start (k : Kind)
  | finish
  | token (k : Kind)
  | accept (es : List Ev)
  deriving DecidableEq, Repr

/-- Ways to panic. -/
inductive Crash where
  /-- `self.tokens[self.next_token]` past the end, parse.rs:87. -/
  | rangeAtEnd
  /-- The assertion of `build`, parse.rs:180-186. -/
  | tokensDiffer
  /-- `GreenNodeBuilder`: no open node to finish, or not exactly one node at the end. -/
  | unbalanced
  /-- `events.pop().unwrap()`, parse.rs:167. -/
  | noEvents
  deriving DecidableEq, Repr

/-- Outcomes; `fuel` when the bound on recursion is reached. -/
inductive Res (α : Type) where
  | ok (a : α)
  | crash (c : Crash)
  | fuel
  deriving DecidableEq, Repr

/-- A part of the parser. -/
def PM (α : Type) : Type := List PTok → Res (α × List Op × List PTok)

namespace PM
def pure {α : Type} (a : α) : PM α := fun ts => .ok (a, [], ts)
def bind {α β : Type} (m : PM α) (f : α → PM β) : PM β := fun ts =>
  match m ts with
  | .ok (a, o, ts') =>
    match f a ts' with
    | .ok (b, o', ts'') => .ok (b, o ++ o', ts'')
    | .crash c => .crash c
    | .fuel => .fuel
  | .crash c => .crash c
  | .fuel => .fuel
instance : Monad PM where
  pure := pure
  bind := bind
end PM

/-- A call on the sink. -/
def emit (o : Op) : PM Unit := fun ts => .ok ((), [o], ts)
/-- `peek`, parse.rs:884-886. -/
def peek : PM (Option PTok) := fun ts => .ok (ts.head?, [], ts)
/-- `next`, parse.rs:889-895, its result unused. -/
def advance : PM Unit := fun ts => .ok ((), [], ts.drop 1)
/-- The tokens left. -/
def look : PM (List PTok) := fun ts => .ok (ts, [], ts)
/-- Out of fuel. -/
def outOfFuel {α : Type} : PM α := fun _ => .fuel
/-- `next_range`, parse.rs:82-88: only whether it panics. -/
def nextRange : PM Unit := fun ts =>
  match ts with
  | [] => .crash .rangeAtEnd
  | _ :: _ => .ok ((), [], ts)

/-- `start_node(k)`, something, `finish_node()`. -/
def node {α : Type} (k : Kind) (m : PM α) : PM α := do
  emit (.start k)
  let a ← m
  emit .finish
  pure a

/-- The next token consumed and sent to the sink. -/
def take (k : Kind) : PM Unit := do
  advance
  emit (.token k)

/-- The next token in a node of its own. -/
def takeIn (n k : Kind) : PM Unit := node n (take k)

/-- `try_accept`, parse.rs:860-873, and `expect`, parse.rs:774-792 (the range taken on failure is that of a
token that is there). -/
def tryAccept (k : Kind) : PM Bool := do
  match ← peek with
  | some t => if t.kind = k then do take k; pure true else pure false
  | none => pure false

/-- `add_trivia`, parse.rs:897-907, on the tokens left. -/
def triviaLoop : List PTok → List Op × List PTok
  | [] => ([], [])
  | t :: ts =>
    if t.kind.isTrivial then ((.token t.kind) :: (triviaLoop ts).1, (triviaLoop ts).2) else ([], t :: ts)
/-- `add_trivia`. -/
def addTrivia : PM Unit := fun ts => .ok ((), (triviaLoop ts).1, (triviaLoop ts).2)

/-- The opening brackets, parse.rs:469-470, 823-833. -/
def isOpen (k : Kind) : Bool :=
  k = .openBrace || k = .openBraceApply || k = .openSquare || k = .openSquareApply || k = .openParen ||
  k = .openParenApply || k = .bracketOpen || k = .reservedOpen
/-- The closing brackets, parse.rs:472-485, 834-837. -/
def isClose (k : Kind) : Bool :=
  k = .closeBrace || k = .closeSquare || k = .closeParen || k = .bracketClose || k = .reservedClose

/-- `recover_to`, parse.rs:800-858. -/
def recoverLoop (close : Kind) (stopAt : List Kind) (opn : Kind) (depth : Nat) (has : Bool) :
    List PTok → List Op × List PTok
  | [] => (if has then [.finish] else [], [])
  | t :: ts =>
    let k := t.kind
    if k = close ∧ depth = 0 then ((if has then [.finish] else []) ++ [.token close], ts)
    else if k ∈ stopAt then (if has then [.finish] else [], t :: ts)
    else
      let depth' :=
        if k = opn ∨ isOpen k = true then depth + 1
        else if isClose k = true ∧ depth > 0 then depth - 1
        else depth
      let r := recoverLoop close stopAt opn depth' true ts
      ((if has then [] else [.start .errorStowaways]) ++ .token k :: r.1, r.2)
/-- `recover_to`. -/
def recoverTo (close : Kind) (stopAt : List Kind) (opn : Kind) : PM Unit := fun ts =>
  let r := recoverLoop close stopAt opn 0 false ts
  .ok ((), r.1, r.2)

/-! ## Strings -/

/-- The stray tokens of a malformed interpolation, parse.rs:976-1000, and the closing brace if it comes
at once, parse.rs:965-968. -/
def strayLoop (e : Kind) : List PTok → List Op × List PTok
  | [] => ([], [])
  | t :: ts =>
    let k := t.kind
    if k = .closeBrace then ([.token .closeBrace], ts)
    else if k = .stringLiteralContent ∨ k = .stringPatternEnd ∨ k = .cStringPatternEnd ∨
        k = .rawStringPatternEnd ∨ k = e then ([], t :: ts)
    else (.token k :: (strayLoop e ts).1, (strayLoop e ts).2)
/-- The loop. -/
def stray (e : Kind) : PM Unit := fun ts => .ok ((), (strayLoop e ts).1, (strayLoop e ts).2)

/-- "Alternating dots and targets", parse.rs:1046-1069; at most `fuel` of them (one token each is used up). -/
def dots : Nat → PM Unit
  | 0 => outOfFuel
  | fuel + 1 => do
    match ← peek with
    | some t =>
      if t.kind = .operatorIdentifier ∧ t.dot = true then do
        takeIn .name .operatorIdentifier
        match ← peek with
        | some u =>
          if u.kind = .stringInterpolationTarget then do
            takeIn .name .stringInterpolationTarget
            dots fuel
          else pure ()
        | none => pure ()
      else pure ()
    | none => pure ()

/-- The next token in a node of its own, if it is of the kind given: parse.rs:1037-1043, 1074-1080, 1089-1095. -/
def takeIfIn (n k : Kind) : PM Unit := do
  match ← peek with
  | some t => if t.kind = k then takeIn n k else pure ()
  | none => pure ()

/-- The expression of an interpolation, parse.rs:1024-1081. -/
def interpolationTarget : PM Unit := do
  let ts ← look
  let hasDots := (ts.takeWhile fun t => t.kind ≠ .closeBrace ∧ t.kind ≠ .colon).any
    fun t => t.kind = .operatorIdentifier
  if hasDots then
    node .soup do
      takeIfIn .name .stringInterpolationTarget
      dots (ts.length + 1)
  else takeIfIn .stringInterpolationTarget .stringInterpolationTarget

/-- The format of an interpolation, parse.rs:1083-1096. -/
def interpolationFormat : PM Unit := do
  if ← tryAccept .colon then takeIfIn .stringFormatSpec .stringFormatSpec else pure ()

/-- `parse_string_interpolation_content`, parse.rs:1023-1097. -/
def interpolationContent : PM Unit := do
  interpolationTarget
  interpolationFormat

/-- The loop of `parse_string_pattern`, parse.rs:927-1017. -/
def patternLoop (e : Kind) : Nat → PM Unit
  | 0 => outOfFuel
  | fuel + 1 => do
    match ← peek with
    | none => pure ()
    | some t =>
      if t.kind = e then take e
      else if t.kind = .stringLiteralContent then do
        takeIn .stringLiteralContent .stringLiteralContent
        patternLoop e fuel
      else if t.kind = .stringEscapedOpen then do
        takeIn .stringEscapedOpen .stringEscapedOpen
        patternLoop e fuel
      else if t.kind = .stringEscapedClose then do
        takeIn .stringEscapedClose .stringEscapedClose
        patternLoop e fuel
      else if t.kind = .openBrace then do
        node .stringInterpolation do
          take .openBrace
          interpolationContent
          stray e
        patternLoop e fuel
      else do
        advance
        patternLoop e fuel

/-- `parse_string_pattern`, parse.rs:916-1020; the opening token is consumed here. -/
def stringPattern (pat s e : Kind) : PM Unit :=
  node pat do
    take s
    let ts ← look
    patternLoop e (ts.length + 1)

/-! ## Expressions -/

/-- `try_parse_literal`, parse.rs:204-258. -/
def tryLiteral : PM Bool := do
  match ← peek with
  | none => pure false
  | some t =>
    if t.kind = .stringPatternStart then do
      stringPattern .stringPattern .stringPatternStart .stringPatternEnd
      pure true
    else if t.kind = .cStringPatternStart then do
      stringPattern .cStringPattern .cStringPatternStart .cStringPatternEnd
      pure true
    else if t.kind = .rawStringPatternStart then do
      stringPattern .rawStringPattern .rawStringPatternStart .rawStringPatternEnd
      pure true
    else if t.kind.isLiteralTerminal then do
      takeIn .literal t.kind
      pure true
    else pure false

/-- `try_parse_name`, parse.rs:261-275. -/
def tryName : PM Bool := do
  match ← peek with
  | none => pure false
  | some t =>
    if t.kind.isNameTerminal then do
      takeIn .name t.kind
      pure true
    else pure false

/-- `try_parse_atom`, parse.rs:278-280. -/
def tryAtom : PM Bool := do
  if ← tryLiteral then pure true else tryName

/-- `bracket_content_has_top_level_colon`, parse.rs:453-491, after the opening bracket. -/
def topColon : Nat → List PTok → Bool
  | _, [] => false
  | depth, t :: ts =>
    let k := t.kind
    if k.isTrivial then topColon depth ts
    else if isOpen k then topColon (depth + 1) ts
    else if isClose k then if depth = 0 then false else topColon (depth - 1) ts
    else if k = .colon ∧ depth = 0 then true
    else topColon depth ts
/-- `bracket_content_has_top_level_colon`. -/
def bracketHasColon : List PTok → Bool
  | t :: ts => if t.kind = .bracketOpen then topColon 0 ts else false
  | [] => false

/-! ## The sink of blocks -/

/-- `PendingDeclaration`, parse.rs:1176-1185. -/
structure Decl where
  md : Option (List Ev)
  head : List Ev
  colon : List Ev
  body : List Ev
  deriving DecidableEq, Repr

/-- `BlockEventSink`, parse.rs:1150-1174. -/
structure Sink where
  committed : List Ev := []
  blockMeta : List Ev := []
  buffer : List Ev := []
  decl : Option Decl := none
  depth : Nat := 0
  deriving DecidableEq, Repr

/-- A trivial token. -/
def Ev.trivial : Ev → Bool
  | .token k => k.isTrivial
  | _ => false

/-- `commit_meta`, parse.rs:1376-1398. -/
def commitMeta (s : Sink) : Sink :=
  if s.committed = [] then
    { s with
      committed := [.start .blockMeta, .start .soup] ++ s.blockMeta ++ [.finish, .finish]
      blockMeta := [] }
  else if s.blockMeta.all Ev.trivial then
    { s with committed := s.committed ++ s.blockMeta, blockMeta := [] }
  else
    { s with committed := s.committed ++ [.start .errorStowaways] ++ s.blockMeta ++ [.finish], blockMeta := [] }

/-- What the trailer of a body consists of, parse.rs:1454-1468. -/
def isTrailer : Ev → Bool
  | .token k => k = .comma || k = .whitespace || k = .comment
  | _ => false
/-- The number of events of the trailer. -/
def trailerLen (body : List Ev) : Nat := (body.reverse.takeWhile isTrailer).length

/-- The events of a declaration, parse.rs:1408-1478. -/
def declEvents (d : Decl) : List Ev :=
  let hasHead := d.head.any fun e => !e.trivial
  if hasHead = false ∧ d.colon ≠ [] then
    [.start .error] ++ d.md.getD [] ++ d.head ++ d.colon ++ d.body ++ [.finish]
  else
    let n := d.body.length - trailerLen d.body
    [.start .declaration] ++
    (match d.md with
     | some m => [.start .declMeta, .start .soup] ++ m ++ [.finish, .finish]
     | none => []) ++
    [.start .declHead] ++ d.head ++ [.finish] ++ d.colon ++ [.start .declBody, .start .soup] ++
    d.body.take n ++ [.finish, .finish, .finish] ++ d.body.drop n
/-- `commit_declaration`, parse.rs:1406-1481. -/
def commitDecl (s : Sink) : Sink :=
  match s.decl with
  | some d => { s with committed := s.committed ++ declEvents d, decl := none }
  | none => s

/-- The scan of `split_off_head` from the end, parse.rs:1493-1523: the number of events split off, or `none` for
no split.  `i32` depth. -/
def headScan : List Ev → Int → Nat → Option Nat
  | [], _, n => some n
  | .finish :: es, d, n => headScan es (d + 1) (n + 1)
  | .start k :: es, d, n =>
    if d > 1 then headScan es (d - 1) (n + 1)
    else if k = .parenExpr ∨ k = .name ∨ k = .bracketExpr then some (n + 1)
    else if k = .argTuple then headScan es (d - 1) (n + 1)
    else none
  | .token k :: es, d, n =>
    if k.isTrivial then headScan es d (n + 1)
    else if d = 0 then none
    else headScan es d (n + 1)
/-- `split_off_head`, parse.rs:1488-1525: the head and what remains of the buffer. -/
def splitHead (b : List Ev) : List Ev × List Ev :=
  match headScan b.reverse 0 0 with
  | some n => (b.drop (b.length - n), b.take (b.length - n))
  | none => ([], b)

/-- The scan of `extract_last_expression_from_metadata`, parse.rs:1537-1583: the number of events taken and
whether an expression was found. -/
def exprScan : List Ev → Int → Nat → Bool → Nat × Bool
  | [], _, n, f => (n, f)
  | .finish :: es, d, n, f => exprScan es (d + 1) (n + 1) f
  | .start k :: es, d, n, f =>
    if d > 1 then exprScan es (d - 1) (n + 1) f
    else if k = .parenExpr ∨ k = .name ∨ k = .argTuple then
      if d = 0 then (n + 1, true) else exprScan es (d - 1) (n + 1) true
    else if d = 0 then (n, f)
    else exprScan es (d - 1) (n + 1) f
  | .token k :: es, d, n, f =>
    if k.isTrivial then if d = 0 ∧ f = true then (n, f) else exprScan es d (n + 1) f
    else if d = 0 then (n, f)
    else exprScan es d (n + 1) f
/-- An argument tuple as a head, parse.rs:1589-1594. -/
def fixTuple : List Ev → List Ev
  | .start .argTuple :: es => .start .parenExpr :: es
  | e => e
/-- `extract_last_expression_from_metadata`, parse.rs:1530-1600: the head and the metadata left. -/
def extractLast (m : List Ev) : Option (List Ev × List Ev) :=
  let r := exprScan m.reverse 0 0 false
  if r.2 = true ∧ 0 < r.1 then
    some (fixTuple (m.drop (m.length - r.1)), m.take (m.length - r.1))
  else none

/-- The buffer is the body of the pending declaration, or metadata of the block: parse.rs:1222-1232, 1257-1265. -/
def flush (s : Sink) : Sink :=
  match s.decl with
  | some d => commitDecl { s with decl := some { d with body := s.buffer }, buffer := d.body }
  | none => commitMeta { s with blockMeta := s.buffer, buffer := s.blockMeta }

/-- What is left of the buffer at a colon, parse.rs:1248-1267. -/
def flushColon (s : Sink) : Sink :=
  if s.buffer = [] then s
  else
    match s.decl with
    | some d =>
      if d.md = some [] then { s with decl := some { d with md := some s.buffer }, buffer := [] } else flush s
    | none => flush s

/-- The head from the metadata if there is no other, parse.rs:1269-1281. -/
def headFromMeta (head : List Ev) (s : Sink) : List Ev × Sink :=
  match s.decl with
  | some ⟨some m, h, c, b⟩ =>
    match extractLast m with
    | some (e, m') => (e, { s with decl := some ⟨some m', h, c, b⟩ })
    | none => (head, s)
  | _ => (head, s)

/-- The head and the colon of a declaration, parse.rs:1293-1306. -/
def openDecl (k : Kind) (p : List Ev × Sink) : Sink :=
  match p.2.decl with
  | some d => { p.2 with decl := some { d with head := p.1, colon := d.colon ++ [.token k] } }
  | none => { p.2 with decl := some ⟨none, p.1, [.token k], []⟩ }

/-- A token at the top level of a block, parse.rs:1219-1336. -/
def topToken (k : Kind) (s : Sink) : Sink :=
  if k = .backtick then
    let s := if s.buffer = [] then s else flush s
    { s with decl := some ⟨some [], [], [], []⟩, buffer := s.buffer ++ [Ev.token k] }
  else if k = .colon then
    let hb := splitHead s.buffer
    let s := flushColon { s with buffer := hb.2 }
    openDecl k (if hb.1 = [] then headFromMeta hb.1 s else (hb.1, s))
  else if k = .comma then
    let s := { s with buffer := s.buffer ++ [Ev.token k] }
    match s.decl with
    | some d => if d.md.isSome then s else flush s
    | none => s
  else { s with buffer := s.buffer ++ [Ev.token k] }

/-- The calls of `BlockEventSink`, parse.rs:1201-1341. -/
def Sink.call (s : Sink) : Op → Sink
  | .start k => { s with depth := s.depth + 1, buffer := s.buffer ++ [.start k] }
  | .finish => { s with depth := s.depth - 1, buffer := s.buffer ++ [.finish] }
  | .accept es => { s with buffer := s.buffer ++ es }
  | .token k => if s.depth = 0 then topToken k s else { s with buffer := s.buffer ++ [.token k] }

/-- `complete`, parse.rs:1344-1369. -/
def Sink.complete (s : Sink) : List Ev :=
  (if s.buffer ≠ [] then flush s else if s.decl.isSome then commitDecl s else s).committed

/-- A block sink through its life: `finish_sink` of it, parse.rs:133-157. -/
def blockEvents (ops : List Op) : List Ev := (ops.foldl Sink.call {}).complete

/-- `SimpleEventSink`, parse.rs:1122-1147. -/
def simpleEvents (ops : List Op) : List Ev :=
  ops.flatMap fun
    | .start k => [.start k]
    | .finish => [.finish]
    | .token k => [.token k]
    | .accept es => es

/-! ## Expressions and blocks -/

section Grammar

variable (elem : PM Bool)

/-- `while self.try_parse_element() { self.add_trivia(); }`, parse.rs:379-381. -/
def elements : Nat → PM Unit
  | 0 => outOfFuel
  | fuel + 1 => do
    if ← elem then do
      addTrivia
      elements fuel
    else pure ()

/-- `try_parse_soup`, parse.rs:368-385. -/
def trySoup : PM Bool := do
  let ts ← look
  match ts with
  | t :: _ =>
    if isClose t.kind || t.kind = .comma then pure false
    else do
      node .soup do
        elements elem (ts.length + 1)
        addTrivia
      pure true
  | [] => do
    node .soup do
      elements elem 1
      addTrivia
    pure true

/-- The loop of `parse_soup`, parse.rs:389-405. -/
def soupLoop : Nat → PM Unit
  | 0 => outOfFuel
  | fuel + 1 => do
    match ← peek with
    | some t =>
      if t.kind.isTrivial then do
        take t.kind
        soupLoop fuel
      else if ← elem then soupLoop fuel
      else pure ()
    | none => pure ()

/-- `parse_soup`, parse.rs:387-408. -/
def soup : PM Unit :=
  node .soup do
    let ts ← look
    soupLoop elem (ts.length + 1)
    addTrivia

/-- The loop over the items of a list, parse.rs:333-346, 665-676. -/
def listItems : Nat → PM Unit
  | 0 => outOfFuel
  | fuel + 1 => do
    if ← trySoup elem then do
      if ← tryAccept .comma then do
        addTrivia
        listItems fuel
      else if ← tryAccept .colon then do
        addTrivia
        let _ ← trySoup elem
        pure ()
      else pure ()
    else pure ()

/-- `try_parse_list_expression`, parse.rs:326-364. -/
def listExpression : PM Unit :=
  node .list do
    take .openSquare
    addTrivia
    let ts ← look
    listItems elem (ts.length + 1)
    addTrivia
    if ← tryAccept .closeSquare then pure ()
    else recoverTo .closeSquare [.closeBrace, .closeParen, .reservedClose, .bracketClose] .openSquare

/-- `parse_paren_expression`, parse.rs:411-426. -/
def parenExpression : PM Unit :=
  node .parenExpr do
    let _ ← tryAccept .openParen
    addTrivia
    soup elem
    if ← tryAccept .closeParen then pure ()
    else recoverTo .closeParen [.closeBrace, .closeSquare, .reservedClose, .bracketClose] .openParen

/-- `parse_reserved_paren_expression`, parse.rs:433-441. -/
def reservedParenExpression : PM Unit :=
  node .parenExpr do
    let _ ← tryAccept .reservedOpen
    addTrivia
    soup elem
    let _ ← tryAccept .reservedClose
    pure ()

/-- The arguments of a call, parse.rs:599-604. -/
def args : Nat → PM Unit
  | 0 => outOfFuel
  | fuel + 1 => do
    if ← trySoup elem then do
      if ← tryAccept .comma then do
        addTrivia
        args fuel
      else pure ()
    else pure ()

/-- The recovery of `parse_apply_tuple`, parse.rs:613-631. -/
def argsRecover : List PTok → List Op × List PTok
  | [] => ([], [])
  | t :: ts =>
    let k := t.kind
    if k = .closeParen then ([.token .closeParen], ts)
    else if k = .closeBrace ∨ k = .closeSquare ∨ k = .reservedClose ∨ k = .bracketClose then ([], t :: ts)
    else ([.start .errorStowaways, .token k, .finish] ++ (argsRecover ts).1, (argsRecover ts).2)

/-- `parse_apply_tuple`, parse.rs:594-635. -/
def applyTuple : PM Unit :=
  node .argTuple do
    let _ ← tryAccept .openParenApply
    addTrivia
    let ts ← look
    args elem (ts.length + 1)
    addTrivia
    if ← tryAccept .closeParen then pure ()
    else fun ts => .ok ((), (argsRecover ts).1, (argsRecover ts).2)

/-- `parse_list_apply_tuple`, parse.rs:658-682. -/
def listApplyTuple : PM Unit :=
  node .argTuple <| node .soup <| node .list do
    let _ ← tryAccept .openSquareApply
    addTrivia
    let ts ← look
    listItems elem (ts.length + 1)
    addTrivia
    let _ ← tryAccept .closeSquare
    pure ()

/-- A colon, or two, at the top level of a block, parse.rs:717-735. -/
def colonTok : PM Unit := do
  advance
  match ← peek with
  | some u =>
    if u.kind = .colon then do
      advance
      node .errorStowaways do
        emit (.token .colon)
        emit (.token .colon)
    else emit (.token .colon)
  | none => emit (.token .colon)

/-- `parse_protoblock_element`, parse.rs:715-755, for `close = CLOSE_BRACE`, and
`parse_protoblock_element_until_bracket_close`, parse.rs:556-591, for `close = BRACKET_CLOSE`. -/
def protoblockElement (close : Kind) : PM Bool := do
  match ← peek with
  | none => pure false
  | some t =>
    if t.kind = .colon then do
      colonTok
      addTrivia
      pure true
    else if t.kind = .backtick ∨ t.kind = .comma ∨ t.kind.isTrivial = true then do
      take t.kind
      addTrivia
      pure true
    else if t.kind = close then pure false
    else elem

/-- `while self.parse_protoblock_element() {}`. -/
def protoblock (close : Kind) : Nat → PM Unit
  | 0 => outOfFuel
  | fuel + 1 => do
    if ← protoblockElement elem close then protoblock close fuel else pure ()

/-- `m` run with a block sink of its own, whose events are passed on:
`sink_stack.push(BlockEventSink); m; finish_sink; accept`. -/
def withBlockSink (m : PM Unit) : PM Unit := fun ts =>
  match m ts with
  | .ok ((), ops, ts') => .ok ((), [.accept (blockEvents ops)], ts')
  | .crash c => .crash c
  | .fuel => .fuel

/-- `parse_block_content`, parse.rs:703-712, and `…_until_bracket_close`, parse.rs:546-553. -/
def blockContent (close : Kind) : PM Unit := do
  let ts ← look
  withBlockSink (protoblock elem close (ts.length + 1))

/-- `parse_block_expression`, parse.rs:685-700. -/
def blockExpression : PM Unit :=
  node .block do
    let _ ← tryAccept .openBrace
    addTrivia
    blockContent elem .closeBrace
    addTrivia
    if ← tryAccept .closeBrace then pure ()
    else recoverTo .closeBrace [.closeParen, .closeSquare, .reservedClose, .bracketClose] .openBrace

/-- `parse_block_apply_tuple`, parse.rs:640-653. -/
def blockApplyTuple : PM Unit :=
  node .argTuple <| node .soup <| node .block do
    let _ ← tryAccept .openBraceApply
    addTrivia
    blockContent elem .closeBrace
    addTrivia
    let _ ← tryAccept .closeBrace
    pure ()

/-- `parse_bracket_expression`, parse.rs:506-543. -/
def bracketExpression : PM Unit := do
  let ts ← look
  if bracketHasColon ts then
    node .bracketBlock do
      let _ ← tryAccept .bracketOpen
      addTrivia
      blockContent elem .bracketClose
      addTrivia
      if ← tryAccept .bracketClose then pure () else nextRange
  else
    node .bracketExpr do
      let _ ← tryAccept .bracketOpen
      addTrivia
      soup elem
      if ← tryAccept .bracketClose then pure () else nextRange

/-- `try_parse_element`, parse.rs:283-319. -/
def elementF : PM Bool := do
  match ← peek with
  | none => pure false
  | some t =>
    if t.kind = .openParen then do parenExpression elem; pure true
    else if t.kind = .openParenApply then do applyTuple elem; pure true
    else if t.kind = .openSquare then do listExpression elem; pure true
    else if t.kind = .openBrace then do blockExpression elem; pure true
    else if t.kind = .openBraceApply then do blockApplyTuple elem; pure true
    else if t.kind = .openSquareApply then do listApplyTuple elem; pure true
    else if t.kind = .bracketOpen then do bracketExpression elem; pure true
    else if t.kind = .reservedOpen then do reservedParenExpression elem; pure true
    else tryAtom

end Grammar

/-- `try_parse_element`, to a depth of nesting. -/
def element : Nat → PM Bool
  | 0 => outOfFuel
  | n + 1 => elementF (element n)

/-! ## The tree -/

/-- A green tree; the leaves are numbers of tokens. -/
inductive Tree where
  | node (k : Kind) (cs : List Tree)
  | leaf (k : Kind) (i : Nat)
  deriving Repr

/-- `GreenNodeBuilder`: `parents` are the open nodes with the children before them, `cur` the children so far, in
reverse; `idx` numbers the tokens (parse.rs:188-200). -/
def buildTree : List Ev → Nat → List (Kind × List Tree) → List Tree → Res Tree
  | [], _, parents, cur =>
    match parents, cur with
    | [], [.node k cs] => .ok (.node k cs)
    | _, _ => .crash .unbalanced
  | .start k :: es, i, parents, cur => buildTree es i ((k, cur) :: parents) []
  | .finish :: es, i, parents, cur =>
    match parents with
    | (k, before) :: parents => buildTree es i parents (.node k cur.reverse :: before)
    | [] => .crash .unbalanced
  | .token k :: es, i, parents, cur => buildTree es (i + 1) parents (.leaf k i :: cur)

/-- The kinds of the tokens among events. -/
def evToks : List Ev → List Kind
  | [] => []
  | .token k :: es => k :: evToks es
  | .start _ :: es => evToks es
  | .finish :: es => evToks es

/-- `read_surplus`, parse.rs:758-770. -/
def surplus (ts : List PTok) : List Ev :=
  if ts = [] then [] else [.start .errorStowaways] ++ ts.map (fun t => .token t.kind) ++ [.finish]

/-- `build`, parse.rs:160-201. -/
def build (all : List PTok) (ops : List Op) (rest : List PTok) : Res Tree :=
  let events := simpleEvents ops
  let finish (events : List Ev) : Res Tree :=
    if evToks events = all.map PTok.kind then buildTree events 0 [] [] else .crash .tokensDiffer
  match surplus rest with
  | [] => finish events
  | sur =>
    match events.getLast? with
    | none => .crash .noEvents
    | some last => finish (events.dropLast ++ sur ++ [last])

/-- `parse_unit`, parse.rs:55-69. -/
def unitM (n : Nat) : PM Unit :=
  node .unit do
    addTrivia
    blockContent (element n) .closeBrace
    addTrivia

/-- A parse with nesting up to the number of tokens. -/
def parseWith (m : Nat → PM Unit) (ts : List PTok) : Res Tree :=
  match m (ts.length + 1) ts with
  | .ok ((), ops, rest) => build ts ops rest
  | .crash c => .crash c
  | .fuel => .fuel

/-- `Parser::parse_unit`. -/
def parseUnit (ts : List PTok) : Res Tree := parseWith unitM ts
/-- `Parser::parse_expression`, parse.rs:72-79. -/
def parseExpression (ts : List PTok) : Res Tree := parseWith (fun n => soup (element n)) ts

end Verif.Parse
