/-!
# The lexer

Transcription of `src/syntax/rowan/kind.rs`, `src/syntax/rowan/lex.rs` and `src/syntax/rowan/string_lex.rs`.

The Unicode tables (`char::is_alphabetic`, `char::is_alphanumeric`, `char::is_whitespace`,
`get_general_category`) are parameters: see `CharClass`.  Byte positions (`ByteIndex`, a `u32`) are natural
numbers, so sources of 4 GiB and more are not covered.
-/

namespace Verif.Lex

/-- `SyntaxKind`, kind.rs:6-121. -/
inductive Kind where
  | openBrace | openBraceApply | closeBrace | backtick | colon | openSquare | openSquareApply | closeSquare | comma
  | whitespace | comment | openParen | openParenApply | closeParen | unquotedIdentifier | operatorIdentifier
  | singleQuoteIdentifier | number | string | symbol | reservedOpen | reservedClose
  | name | literal | list | block | blockMeta | declaration | declMeta | declHead | declBody | soup | parenExpr | unit
  | argTuple | stringPattern | stringPatternStart | stringPatternEnd | stringLiteralContent | stringInterpolation
  | stringInterpolationTarget | stringFormatSpec | stringConversionSpec | stringDottedReference | stringEscapedOpen
  | stringEscapedClose | cStringPattern | cStringPatternStart | cStringPatternEnd | cString | rawStringPattern
  | rawStringPatternStart | rawStringPatternEnd | rawString | tString | sString | bracketOpen | bracketClose
  | bracketExpr | bracketBlock | errorStowaways | errorReservedChar | error
  deriving DecidableEq, Repr

namespace Kind
/-- kind.rs:125-134 -/
def isCallableTerminal (k : Kind) : Bool :=
  k = closeParen || k = closeBrace || k = closeSquare || k = bracketClose || k = unquotedIdentifier ||
  k = stringPatternEnd || k = cStringPatternEnd || k = rawStringPatternEnd
/-- kind.rs:136-144 -/
def isLiteralTerminal (k : Kind) : Bool :=
  k = number || k = string || k = symbol || k = cString || k = rawString || k = tString || k = sString
/-- kind.rs:146-150 -/
def isNameTerminal (k : Kind) : Bool :=
  k = unquotedIdentifier || k = operatorIdentifier || k = singleQuoteIdentifier
/-- kind.rs:152-154 -/
def isTrivial (k : Kind) : Bool := k = comment || k = whitespace
end Kind

/-- The Unicode general categories the lexer distinguishes. -/
inductive Cat where
  | mathSymbol | currencySymbol | modifierSymbol | otherSymbol
  | connectorPunctuation | dashPunctuation | openPunctuation | closePunctuation | initialPunctuation | finalPunctuation
  | otherPunctuation | otherCategory
  deriving DecidableEq, Repr

/-- The Unicode tables. -/
structure CharClass where
  alphabetic : Char → Bool
  alphanumeric : Char → Bool
  whitespace : Char → Bool
  category : Char → Cat

/-- `is_symbol_category`, lex.rs:12-20. -/
def isSymbolCategory : Cat → Bool
  | .mathSymbol | .currencySymbol | .modifierSymbol | .otherSymbol => true
  | _ => false

/-- `is_punctuation_category`, lex.rs:23-34. -/
def isPunctuationCategory : Cat → Bool
  | .connectorPunctuation | .dashPunctuation | .openPunctuation | .closePunctuation | .initialPunctuation
  | .finalPunctuation | .otherPunctuation => true
  | _ => false

/-- `is_normal_start`, lex.rs:67-75. -/
def isNormalStart (cc : CharClass) (c : Char) : Bool :=
  c = '•' || c = '$' || c = '?' || c = '_' || cc.alphabetic c

/-- `is_normal_continuation`, lex.rs:78-88. -/
def isNormalContinuation (cc : CharClass) (c : Char) : Bool :=
  c = '$' || c = '?' || c = '_' || c = '!' || c = '-' || c = '*' || cc.alphanumeric c

def isAscii (c : Char) : Bool := c.toNat < 128
def isAsciiDigit (c : Char) : Bool := '0' ≤ c && c ≤ '9'
def isAsciiLetter (c : Char) : Bool := ('a' ≤ c && c ≤ 'z') || ('A' ≤ c && c ≤ 'Z')

/-- The test by category, lex.rs:116-125, 128-135. -/
def isOperCategory (cat : Cat) : Bool :=
  match cat with
  | .openPunctuation | .closePunctuation | .initialPunctuation | .finalPunctuation => false
  | cat => isSymbolCategory cat || isPunctuationCategory cat

/-- `is_oper_start`, lex.rs:91-137. -/
def isOperStart (cc : CharClass) (c : Char) : Bool :=
  if isAscii c then
    if c ∈ ['.', '!', '@', '£', '%', '^', '&', '*', '|', '>', '<', '/', '+', '=', '-', '~', ';'] then true
    else if c ∈ ['"', '\''] then false
    else if isAsciiLetter c || isAsciiDigit c ||
      c ∈ ['_', ' ', '\t', '\n', '\r', '(', ')', '[', ']', '{', '}', ',', ':'] then false
    else isOperCategory (cc.category c)
  else isOperCategory (cc.category c)

/-- `is_oper_continuation`, lex.rs:140-185. -/
def isOperContinuation (cc : CharClass) (c : Char) : Bool :=
  if isAscii c then
    if c ∈ ['.', '!', '@', '£', '$', '%', '^', '&', '*', '|', '>', '<', '/', '?', '+', '=', '-', '~', ';'] then true
    else if c ∈ ['"', '\'', ',', ':', '_'] then false
    else if isAsciiLetter c || isAsciiDigit c ||
      c ∈ [' ', '\t', '\n', '\r', '(', ')', '[', ']', '{', '}'] then false
    else isOperCategory (cc.category c)
  else isOperCategory (cc.category c)

/-- `is_reserved_open`, lex.rs:187-197. -/
def isReservedOpen (cc : CharClass) (c : Char) : Bool :=
  if isAscii c then c ∈ ['(', '[', '{'] else cc.category c = .openPunctuation || cc.category c = .initialPunctuation

/-- `is_reserved_close`, lex.rs:199-209. -/
def isReservedClose (cc : CharClass) (c : Char) : Bool :=
  if isAscii c then c ∈ [')', ']', '}'] else cc.category c = .closePunctuation || cc.category c = .finalPunctuation

/-- `brackets::is_bracket_open`, brackets.rs:24-32. -/
def isBracketOpen (cc : CharClass) (c : Char) : Bool :=
  if isAscii c then false else cc.category c = .openPunctuation || cc.category c = .initialPunctuation

/-- `brackets::is_bracket_close`, brackets.rs:40-48. -/
def isBracketClose (cc : CharClass) (c : Char) : Bool :=
  if isAscii c then false else cc.category c = .closePunctuation || cc.category c = .finalPunctuation

/-- A token: its kind and its span in bytes. -/
structure Tok where
  kind : Kind
  start : Nat
  stop : Nat
  deriving DecidableEq, Repr

/-- What is left of the input, and the byte position reached. -/
structure Cur where
  chars : List Char
  loc : Nat
  deriving Repr

/-- `consume`, lex.rs:613-625 and string_lex.rs:60-71. -/
def consume (p : Char → Bool) : List Char → Nat → Cur
  | [], l => ⟨[], l⟩
  | c :: cs, l => if p c then consume p cs (l + c.utf8Size) else ⟨c :: cs, l⟩

/-! ## String patterns -/

/-- The state of `StringPatternLexer` and `CStringPatternLexer`, string_lex.rs:9-22, 199-212. -/
structure SSt where
  chars : List Char
  pos : Nat
  interp : Bool
  fmt : Bool

/-- `interpolation_content`, string_lex.rs:104-113. -/
def targetStop (cc : CharClass) (c : Char) : Bool := !cc.whitespace c && c != '}' && c != ':' && c != '.'
/-- `format_content`, string_lex.rs:116-120. -/
def formatStop (c : Char) : Bool := c != '}' && c != ':'
/-- `literal_content`, string_lex.rs:79-83. -/
def literalStop (c : Char) : Bool := c != '{' && c != '}'

/-- What both lexers do with a character inside an interpolation other than a brace, string_lex.rs:169-185 and
343-359: `start` is the position of `ch`, `cs` and `pos` follow it. -/
def interpNext (cc : CharClass) (fmt : Bool) (ch : Char) (start : Nat) (cs : List Char) (pos off : Nat) : Tok × SSt :=
  if ch = ':' then (⟨.colon, start + off, pos + off⟩, ⟨cs, pos, true, true⟩)
  else if ch = '.' then (⟨.operatorIdentifier, start + off, pos + off⟩, ⟨cs, pos, true, fmt⟩)
  else if fmt then
    let c := consume formatStop cs pos
    (⟨.stringFormatSpec, start + off, c.loc + off⟩, ⟨c.chars, c.loc, true, fmt⟩)
  else
    let c := consume (targetStop cc) cs pos
    (⟨.stringInterpolationTarget, start + off, c.loc + off⟩, ⟨c.chars, c.loc, true, fmt⟩)

/-- Where `next` starts, after `skip_whitespace`, string_lex.rs:123-127, 135-137. -/
def skipWs (cc : CharClass) (s : SSt) : Cur :=
  if s.interp then consume cc.whitespace s.chars s.pos else ⟨s.chars, s.pos⟩

/-- `StringPatternLexer::next`, string_lex.rs:133-192.  The texts of the tokens are left out: the lexer
drops them (lex.rs:459). -/
def strNext (cc : CharClass) (off : Nat) (s : SSt) : Option (Tok × SSt) :=
  let c := skipWs cc s
  match c.chars with
  | [] => none
  | ch :: cs =>
    let start := c.loc
    let pos := c.loc + ch.utf8Size
    if ch = '{' then
      match cs with
      | '{' :: cs' => some (⟨.stringEscapedOpen, start + off, pos + 1 + off⟩, ⟨cs', pos + 1, s.interp, s.fmt⟩)
      | _ => some (⟨.openBrace, start + off, pos + off⟩, ⟨cs, pos, true, false⟩)
    else if ch = '}' then
      match cs with
      | '}' :: cs' => some (⟨.stringEscapedClose, start + off, pos + 1 + off⟩, ⟨cs', pos + 1, s.interp, s.fmt⟩)
      | _ =>
        if s.interp then some (⟨.closeBrace, start + off, pos + off⟩, ⟨cs, pos, false, false⟩)
        else
          let c := consume literalStop cs pos
          some (⟨.stringLiteralContent, start + off, c.loc + off⟩, ⟨c.chars, c.loc, s.interp, s.fmt⟩)
    else if s.interp then some (interpNext cc s.fmt ch start cs pos off)
    else
      let c := consume literalStop cs pos
      some (⟨.stringLiteralContent, start + off, c.loc + off⟩, ⟨c.chars, c.loc, s.interp, s.fmt⟩)

/-- `CStringPatternLexer::literal_content`, string_lex.rs:268-294. -/
def cLiteral : List Char → Nat → Cur
  | [], l => ⟨[], l⟩
  | ['\\'], l => ⟨[], l + 1⟩
  | '\\' :: c :: cs, l => cLiteral cs (l + 1 + c.utf8Size)
  | c :: cs, l => if c = '{' ∨ c = '}' then ⟨c :: cs, l⟩ else cLiteral cs (l + c.utf8Size)

/-- `CStringPatternLexer::next`, string_lex.rs:323-365. -/
def cstrNext (cc : CharClass) (off : Nat) (s : SSt) : Option (Tok × SSt) :=
  let c := skipWs cc s
  match c.chars with
  | [] => none
  | ch :: cs =>
    let start := c.loc
    let pos := c.loc + ch.utf8Size
    if ch = '{' then some (⟨.openBrace, start + off, pos + off⟩, ⟨cs, pos, true, false⟩)
    else if ch = '}' ∧ s.interp then some (⟨.closeBrace, start + off, pos + off⟩, ⟨cs, pos, false, false⟩)
    else if s.interp then some (interpNext cc s.fmt ch start cs pos off)
    else
      let c := cLiteral cs pos
      some (⟨.stringLiteralContent, start + off, c.loc + off⟩, ⟨c.chars, c.loc, s.interp, s.fmt⟩)

/-- All the tokens of a string pattern lexer.  Each call of `next` takes a character: `fuel` is the number of
characters (see `patternToks`). -/
def runStr (next : SSt → Option (Tok × SSt)) : Nat → SSt → List Tok
  | 0, _ => []
  | fuel + 1, s =>
    match next s with
    | none => []
    | some (t, s') => t :: runStr next fuel s'

/-- `StringPatternLexer::new` and the loop over it, string_lex.rs:28-37, lex.rs:451-462. -/
def patternToks (cc : CharClass) (c : Bool) (content : List Char) (off : Nat) : List Tok :=
  runStr (if c then cstrNext cc off else strNext cc off) (content.length + 1) ⟨content, 0, false, false⟩

/-! ## The main lexer -/

/-- `StringPrefix`, lex.rs:37-45. -/
inductive Prefix where
  | plain | c | raw | t | s
  deriving DecidableEq, Repr

/-- The state of the lexer, lex.rs:48-64.  `pending_string_prefix` is set only to be taken in the same call
(lex.rs:296-299), so it is an argument of `dquote` here. -/
structure St where
  chars : List Char
  loc : Nat
  last : Option Kind
  ws : Bool
  buffer : List Tok

/-- The loop of `dquote`, lex.rs:338-371: the content, what is left, and whether the quote was closed. -/
def dqLoop (isC : Bool) : List Char → Nat → List Char × Cur × Bool
  | [], l => ([], ⟨[], l⟩, false)
  | '"' :: cs, l => ([], ⟨cs, l + 1⟩, true)
  | ['\\'], l => (['\\'], ⟨[], l + 1⟩, false)
  | '\\' :: c :: cs, l =>
    if isC then
      let r := dqLoop isC cs (l + 1 + c.utf8Size)
      ('\\' :: c :: r.1, r.2)
    else
      let r := dqLoop isC (c :: cs) (l + 1)
      ('\\' :: r.1, r.2)
  | c :: cs, l =>
    let r := dqLoop isC cs (l + c.utf8Size)
    (c :: r.1, r.2)

/-- `content_has_unescaped_braces_cstring`, lex.rs:480-491. -/
def hasUnescapedBraces : List Char → Bool
  | [] => false
  | ['\\'] => false
  | '\\' :: _ :: cs => hasUnescapedBraces cs
  | c :: cs => c = '{' || c = '}' || hasUnescapedBraces cs

/-- The kinds of strings, lex.rs:361-369, 384-394. -/
def simpleKind : Prefix → Kind
  | .plain => .string | .c => .cString | .raw => .rawString | .t => .tString | .s => .sString
def patternStartKind : Prefix → Kind
  | .c => .cStringPatternStart | .raw => .rawStringPatternStart | _ => .stringPatternStart
def patternEndKind : Prefix → Kind
  | .c => .cStringPatternEnd | .raw => .rawStringPatternEnd | _ => .stringPatternEnd

/-- `dquote`, lex.rs:321-477: `i` is the position of the quote, `pstart` that of the prefix.  The tokens (the first
is returned, the others are buffered) and what is left. -/
def dquote (cc : CharClass) (pre : Prefix) (pstart i : Nat) (chars : List Char) (loc : Nat) : Tok × List Tok × Cur :=
  let (content, cur, closed) := dqLoop (pre = .c) chars loc
  if !closed then (⟨simpleKind pre, pstart, cur.loc⟩, [], cur)
  else if pre = .t ∨ pre = .s then (⟨simpleKind pre, pstart, cur.loc⟩, [], cur)
  else
    let has := if pre = .c then hasUnescapedBraces content else content.contains '{' || content.contains '}'
    if has then
      (⟨patternStartKind pre, pstart, i + 1⟩,
        patternToks cc (pre = .c) content (i + 1) ++ [⟨patternEndKind pre, cur.loc - 1, cur.loc⟩], cur)
    else (⟨simpleKind pre, pstart, cur.loc⟩, [], cur)

/-- `squote`, lex.rs:305-313; `consume_delimited`, lex.rs:629-641. -/
def squoteEnd (chars : List Char) (loc : Nat) : Cur :=
  let c := consume (· != '\'') chars loc
  match c.chars with
  | _ :: cs => ⟨cs, c.loc + 1⟩
  | [] => c

/-- `normal`, lex.rs:259-292: `i` is the position of `first`, `loc` the one after it. -/
def normal (cc : CharClass) (i : Nat) (first : Char) (chars : List Char) (loc : Nat) : Tok × List Tok × Cur :=
  let e := consume (isNormalContinuation cc) chars loc
  let plain := (⟨.unquotedIdentifier, i, e.loc⟩, [], e)
  if e.loc - i = 1 then
    match e.chars with
    | '"' :: cs =>
      -- `quote_pos = self.location - 1`
      if first = 'c' then dquote cc .c i (e.loc + 1 - 1) cs (e.loc + 1)
      else if first = 'r' then dquote cc .raw i (e.loc + 1 - 1) cs (e.loc + 1)
      else if first = 't' then dquote cc .t i (e.loc + 1 - 1) cs (e.loc + 1)
      else if first = 's' then dquote cc .s i (e.loc + 1 - 1) cs (e.loc + 1)
      else plain
    | _ => plain
  else plain

/-- `colon`, lex.rs:494-533. -/
def colon (cc : CharClass) (i : Nat) (chars : List Char) (loc : Nat) : Tok × Cur :=
  match chars with
  | [] => (⟨.colon, i, i + 1⟩, ⟨[], loc⟩)
  | c :: cs =>
    if isNormalStart cc c then
      let e := consume (isNormalContinuation cc) cs (loc + c.utf8Size)
      (⟨.symbol, i, e.loc⟩, e)
    else if c = '\'' then
      let e := squoteEnd cs (loc + 1)
      (⟨.symbol, i, e.loc⟩, e)
    else (⟨.colon, i, i + 1⟩, ⟨c :: cs, loc⟩)

/-- `number`, lex.rs:545-555. -/
def number (i : Nat) (chars : List Char) (loc : Nat) : Tok × Cur :=
  let e := consume isAsciiDigit chars loc
  match e.chars with
  | '.' :: cs =>
    let e := consume isAsciiDigit cs (e.loc + 1)
    (⟨.number, i, e.loc⟩, e)
  | _ => (⟨.number, i, e.loc⟩, e)

/-- `oper`, lex.rs:316-319. -/
def oper (cc : CharClass) (i : Nat) (chars : List Char) (loc : Nat) : Tok × Cur :=
  let e := consume (isOperContinuation cc) chars loc
  (⟨.operatorIdentifier, i, e.loc⟩, e)

/-- `minus`, lex.rs:536-542. -/
def minus (cc : CharClass) (i : Nat) (chars : List Char) (loc : Nat) : Tok × Cur :=
  match chars with
  | c :: _ => if isAsciiDigit c then number i chars loc else oper cc i chars loc
  | [] => oper cc i chars loc

/-- `paren`, lex.rs:558-575. -/
def parenKind (last : Option Kind) (ws : Bool) : Kind :=
  match last with
  | some k => if !k.isCallableTerminal then .openParen else if ws then .openParen else .openParenApply
  | none => .openParen

/-- `brace` and `square`, lex.rs:580-603. -/
def applyKind (last : Option Kind) (ws : Bool) (plain apply : Kind) : Kind :=
  match last with
  | some k => if k.isCallableTerminal && !ws then apply else plain
  | none => plain

/-- The dispatch on the first character, lex.rs:660-719: `i` is its position, `chars` and `loc` follow it. -/
def dispatch (cc : CharClass) (last : Option Kind) (ws : Bool) (i : Nat) (c : Char) (chars : List Char) (loc : Nat) :
    Tok × List Tok × Cur :=
  let one (k : Kind) : Tok × List Tok × Cur := (⟨k, i, i + 1⟩, [], ⟨chars, loc⟩)
  let wide (k : Kind) : Tok × List Tok × Cur := (⟨k, i, i + c.utf8Size⟩, [], ⟨chars, loc⟩)
  let from2 (r : Tok × Cur) : Tok × List Tok × Cur := (r.1, [], r.2)
  if c = '{' then one (applyKind last ws .openBrace .openBraceApply)
  else if c = '}' then one .closeBrace
  else if c = '[' then one (applyKind last ws .openSquare .openSquareApply)
  else if c = ']' then one .closeSquare
  else if c = '(' then one (parenKind last ws)
  else if c = ')' then one .closeParen
  else if c = ',' then one .comma
  else if c = '`' then one .backtick
  else if c = ':' then from2 (colon cc i chars loc)
  else if c = '#' then
    let e := consume (· != '\n') chars loc
    (⟨.comment, i, e.loc⟩, [], e)
  else if c = '\'' then
    let e := squoteEnd chars loc
    (⟨.singleQuoteIdentifier, i, e.loc⟩, [], e)
  else if c = '"' then dquote cc .plain i i chars loc
  else if c = '-' then from2 (minus cc i chars loc)
  else if isAsciiDigit c then from2 (number i chars loc)
  else if isNormalStart cc c then normal cc i c chars loc
  else if isOperStart cc c then from2 (oper cc i chars loc)
  else if cc.whitespace c then
    let e := consume cc.whitespace chars loc
    (⟨.whitespace, i, e.loc⟩, [], e)
  else if isReservedOpen cc c then if isBracketOpen cc c then wide .bracketOpen else wide .reservedOpen
  else if isReservedClose cc c then if isBracketClose cc c then wide .bracketClose else wide .reservedClose
  else wide .errorReservedChar

/-- `Lexer::next`, lex.rs:650-733. -/
def next (cc : CharClass) (s : St) : Option (Tok × St) :=
  match s.buffer with
  | t :: buffer =>
    some (t, if !t.kind.isTrivial then { s with buffer := buffer, last := some t.kind, ws := false }
      else { s with buffer := buffer })
  | [] =>
    match s.chars with
    | [] => none
    | c :: cs =>
      let (t, buffer, cur) := dispatch cc s.last s.ws s.loc c cs (s.loc + c.utf8Size)
      some (t,
        if t.kind = .whitespace then ⟨cur.chars, cur.loc, s.last, true, buffer⟩
        else if !t.kind.isTrivial then ⟨cur.chars, cur.loc, some t.kind, false, buffer⟩
        else ⟨cur.chars, cur.loc, s.last, s.ws, buffer⟩)

/-- The iterator run to its end, with `fuel` calls: `none` if there are more. -/
def run (cc : CharClass) : Nat → St → Option (List Tok)
  | 0, _ => none
  | fuel + 1, s =>
    match next cc s with
    | none => some []
    | some (t, s') => (run cc fuel s').map (t :: ·)

/-- `Lexer::from_text`, lex.rs:215-225. -/
def St.init (src : List Char) : St := ⟨src, 0, none, false, []⟩

/-- The tokens of a text, as read by `Parser::new`, parse.rs:42-44.  A call of `next` that takes nothing from the
buffer takes a character, and no more tokens are buffered than there are characters: hence the number of calls. -/
def tokens (cc : CharClass) (src : List Char) : Option (List Tok) := run cc (src.length + 1) (St.init src)

end Verif.Lex
