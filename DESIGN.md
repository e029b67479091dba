# Formal model of eucalypt: design

## Trusted base

* Lean 4.33.0's kernel. Every theorem listed in `MANIFEST.json` depends at most on
  `propext`, `Classical.choice` and `Quot.sound`. No axioms are added; no `sorry`,
  `native_decide` or `bv_decide`.
* The correspondence between the Rust text in `/repo` and the Lean definitions. It is by
  reading: each definition in the model carries the file and lines it models, and says
  where it simplifies. The Rust is not compiled or executed here.
* Third-party crates (petgraph, indexmap, chrono, serde, postcard, ...) are modelled by
  their documented behaviour where a component relies on them; this is said at the place
  of use.

## Conventions

* Rust panics and `abort` are explicit error values of the model, never totalised away.
* `usize`/`u32` arithmetic that the code does unchecked is modelled with `Nat` when a
  theorem shows it in range, and otherwise as `UInt64`/`BitVec`/`Int` with the wrap explicit.
* `XxxModel.lean` holds definitions transcribed from the code; `XxxLemmas.lean` holds helper
  lemmas; `XxxProps.lean` holds the specification (written independently of the model)
  and the property theorems, each with an `example` meeting its hypotheses.
* If the code violates a property, the negation is proved on a concrete witness, and what
  does hold is proved in a theorem whose name ends in `_partial`.

## Plan per property

| id | model | proof |
|----|-------|-------|
| C01 | `Shunt`: the shunting yard (core/cook/shunt.rs) as a total machine over input, output and operator stacks | invariant: yield(output ++ ops ++ input) in source order is constant |
| C02 | same, output trees carry the operator | invariant on the operator stack (precedence-sorted spine), induction over steps |
| C03 | same, error slot and panic as values | counting invariant (operands vs pending arity) |
| C04 | `Shunt`: fill_gaps on lists | list induction |
| C05, C06, C43 | `Core`: `Expr` with the binding-relevant constructors; open/close/succ/pred, rebody, merge_in, dynamise, substs | structural induction with depth generalised |
| C07, C08 | `Split`, `Tarjan`: SCC as code; regrouping of letrecs | invariants over DFS; infinite unfolding compared before and after |
| C09 | `Flat` (core/transform/reflatten) | capture bug: negation by witness, partial theorem for distinct names |
| C10 | `Compress` (core/simplify/compress) | infinite unfolding compared before and after |
| C11, C12 | `Heap`: line map, bump block, block lists, allocation, collection, lazy sweep | inductive invariant over arbitrary histories |
| C13, C14 | `Gc`: work-queue marking and evacuation over an arbitrary typed object graph | invariant + termination measure; simulation through the forwarding map |
| C15 | `Env`: frames over a store of shared arrays | induction over the chain; refinement to the concatenated list |
| C16, C17 | `Bc`: encoder (with memo tables, pools) over byte lists; reading relation as spec | induction over the work list, offsets as prefix lengths |
| C18, C19, C20, C42 | `Smid`: info flags, source map, trace compression and curation | arithmetic; invariant over histories; list induction |
| C21, C22, C23 | `Arith`: `Int` with i64/u64 ranges; doubles as exactly rounded dyadics | `Int` division lemmas; witnesses for double rounding |
| C24, C39 | `Rand` over `BitVec 64` | bijectivity by explicit inverses; ranges by arithmetic; permutations |
| C25-C28 | `Data`: structural equality, insertion-ordered merges and lookups | induction over values; lookup as spec |
| C29, C30 | `Cache`: length-prefixed framing, hash as a parameter; postcard encoding of sorted maps | injectivity; round trip; sortedness + permutation uniqueness |
| C31 | `Escape` | inductive grammar of escapes as spec; decode = denotation |
| C32 | `Input` | list-of-chars parsing; panic as value; round trip |
| C33 | `Import` | reachability spec; BFS and toposort transcribed from petgraph |
| C34, C45 | `Lex`: the lexer with its look-ahead buffer | tiling invariant by induction over runs |
| C35, C47 | `Subtype` | witnesses of non-transitivity; semantic soundness by induction on fuel and types |
| C36 | `Scope`: both name environments and the fixity distributor | induction over expressions, innermost definition as spec |
| C37 | `Ana`: anaphora, cooking | sorting spec; induction over expressions |
| C38 | `Shunt`: split at cat | list induction |
| C40, C41 | `Rand`, `Set`: vec indexing and slicing; ordered sets | list induction; set algebra |
| C44 | `Parse`: the event-sink parser and the tree builder | invariants of the block sink; progress measure; composed with `Lex` |
| C48 | `Prune`: block access tracking, marking to a fixpoint, blanking; composed with `Compress` | marking invariant; bisimulation of unfoldings before and after |
| C49 | `Eng`: decoder into instructions, side pools and work list; what an engine shows of a program | worklist invariant over ordinals, then induction over trees |
| C50, C51, C52 | `Sem`: reference semantics by name, as a fuelled interpreter; `Mach`: the machine with store, updates and continuations | the interpreter in stack form; each machine step is zero or more reference steps up to a ghost environment for every array; a measure excludes infinite stuttering; invariant: holes are the pending updates |
| C53, C54, C55 | `Opt`: the pruner of compiled code with its stack of renamings | a relation between code before and after, over renamings; simulation in the stack form of `Sem`, both ways; observation along all paths into the result |
| C56, C57, C58, C59 | `Export`: rendering to events, the accumulator, five table formats, text and markup | what a value is as data and what a document says as relations; induction over values both ways; balanced events for what holds of every value |
| C60, C61, C62 | `Comp`: the compiler from core expressions to STG trees, over the trees of `Bc` | a by-name machine for core expressions and global code together (`CompSpec`); values are related by how they were compiled, steps correspond both ways; scopes by an invariant of the binder in hand |
| C63–C67 | `Dem`: demand analysis over the expressions of `Comp`, with every loop; then compilation | loops by an order in which demands only rise; the search by an invariant; meaning by a simulation that ignores demands; witnesses run through analysis, compiler and semantics |
| C68–C70 | `Io`: the driver that runs actions, its stash, and a machine whose values move at a collection | simulation of the driver by a run without stash or heap; that run against a big-step relation, both ways; laws by inversion of the relation |
| C71 | `Pipe`: one command, its pipes, the thread and the clock, as a transition system | invariants over all interleavings; a dead state and a race as witnesses |
| C72, C73 | `Inl`: tagging, distribution with its opening and closing of scopes, early application with sharing | distribution is shown equal to a nameless one; that one, and early application, lie in a relation on programs that is a simulation both ways for the meaning in `CompSpec`; counting for C73 |
| C74–C77 | `Par`: the machine as the driver sees it (epochs, roots, noted metadata), serialiser, arena, workers, fallback | what the machine does is shown equal to a function without machine (`ParEnc`), the arena is read back under any interleaving (`ParArena`), all ways of running come to that function (`ParDrive`); bytes and what is shown by induction on the value (`ParCodec`) |
| C78–C81 | `Graph`: the three loops over vectors of parents, ranks, in-degrees | a function from nodes to roots that the vectors agree with, kept by path halving and linking (`GraphUnion`); in-degrees count the edges from nodes not out yet (`GraphTopo`); cycles by well-foundedness on a finite set; stated with `EqvGen` and `TransGen` of the edges |
| C82–C84 | `Fmt`: the walk over the tree that `eu fmt` makes by default, on the lexer and parser of C34 and C44 | each call of the lexer gives the same tokens when what follows it changes only from one white space character to another (`FmtRelex`) and wherever it stands (`FmtShift`); the lexer as a relation without positions (`FmtLexes`), rebuilt for the formatted text call by call (`FmtFix`); the walk is a walk over the tokens by C44 (`FmtWalk`); columns (`FmtColumn`) |
| C85–C90 | `Arr`: arrays as a shape and the elements by row | places and coordinates are inverse to each other by division with remainder (`ArrLemmas`); the computation by strides is this one, as a remainder by a multiple does not change it; arrays that agree at all coordinates are equal; writing out by induction on the rank (`ArrEmit`) |
| C91–C97 | `Yaml`: the reader of YAML as a machine on events, and the other readers of data | the regular expressions one by one as languages (`YamlScalar`); the run over the events of a document comes to what is read off it recursively (`YamlRun`), and that to its meaning (`YamlMean`), names by closing scope after scope, entries one by one; data only by an invariant of the machine for any events (`YamlData`) |
| C98–C100 | `Fuse`: folding of what is known, and hoisting | expressions that differ only where both come to one and the same show the same, by a simulation both ways (`FoldSim`); the intrinsics run on what is written out (`FuseRun`), the loop for keys by induction on the block; the passes by induction on the levels they go down (`FuseLemmas`, `HoistLemmas`) |
| C101–C106 | `Suite`: targets and the test runner | a target of a name of its own is found in every order; distinct names give distinct keys in the evidence (a format has no dash), so each entry is that of its run, and each check is proved equivalent to its meaning; loops over tests and files by induction |
| C107–C112 | `Printf`: formats and base64 | a directive's text is read as its parts, and what is read splits into such a text and a rest; digits read back by induction on the number; rounding by division with remainder; base64 by groups of three bytes, and that there is one base64 from the injectivity of bits |
| C113–C117 | `Lib`: lists in the prelude | sorting by induction on the length, stability from filters by sameness, and that there is one answer by induction; groups by induction from the end of the list; windows by induction on the length with division; transposing by induction on the first row |
| C118–C121 | `Nest`: nested blocks in the prelude | paths by induction on the path; what is inside by induction on the value; queries by induction on the pattern, against a relation of patterns and paths; matching against an inductive relation |
| C122–C124 | `Args`: `parse-args` | a grammar of right command lines and one of wrong ones; every list of arguments is one or the other, by induction on its length, and the parser gives what each says |
| C125–C127 | `Unify`: unification of types | what a call comes to against all choices of types for variables, by induction on the levels of recursion; the end by induction on the number of variables that are not bound and then on the size of the type |
| C128–C130 | `Lens`: lenses and traversals | laws of single steps, kept by composition; collecting and dealing out against each other by induction on the optic, for all continuations |
| C131–C133 | `Eff`: monads of the library | equations, by induction on lists of actions |
| C134–C136 | `MonBlk`: monadic blocks | meaning of the chain by induction on the steps, for any values; rows of elements by induction |
| C137–C139 | `Contract`: validating data against types | mutual induction on the type, its rows and its fields |
| C46 | `StrPat`: string patterns, plain, raw and c | round trip with a canonical escaper as spec |

Properties appended later carry their plan in the section of their component below.

## Components

What each model covers, what it leaves out, and what turned out to be false of the code.

* **Shunt** (core/cook/shunt.rs, fill.rs, bracket item splitting). Expressions are opaque
  leaves. False of the code: an infix operator before a prefix operator of lower precedence
  reorders or mis-groups operands (`x = y * ∸ z`); `f(x) ^^ y` with precedence above 90
  panics in `form_apply`.
* **Core** (core/expr.rs, binding). Positions, demand annotations and metadata contents are
  dropped. `substs` does not shift the replacement; `dynamise` shifts twice: both give wrong
  binders on open arguments (proved).
* **Split / Tarjan / Flat / Compress** (core/transform, core/simplify). The hash-set order is
  an arbitrary permutation. Reflatten with an inner group rebinding a name changes what a
  reference means (proved). Compression fails exactly when a live part refers to an
  eliminated slot (proved).
* **Prune** (core/simplify/prune.rs, followed by compress.rs). The meaning of an expression is
  its infinite unfolding with static member lookups resolved, cut at every depth. Use counts
  and demand annotations are not modelled. False of the code: a lookup whose fallback is the
  object itself loses the members not looked up (proved).
* **Heap / Gc** (eval/memory). Addresses are numbers; the OS allocator always supplies blocks.
  Choice of evacuation candidates by floating-point score is arbitrary. Evacuation is modelled
  after the trace rather than interleaved. The emergency sweep is unreachable, and would be
  unsound (both proved).
* **Env** (eval/machine/env.rs). Frames immutable apart from `update`.
* **Bc** (eval/bytecode). Encoder and node reader. Limits of the format are hypotheses; beyond
  them data is silently lost (span 256, 256 arguments: proved). The dispatch of the machine is
  not modelled there.
* **Eng** (eval/bytecode/predecode.rs, machine.rs). Both ways of reading a program, from bytes
  and from instructions decoded once. Source locations of instructions are left out. At run
  time the two still differ in the byte path's treatment of an annotated atom as unsettled and
  of an annotated block as not yet a block; neither is covered by C49.
* **Sem / Mach** (eval/bytecode/machine.rs over the trees of `Bc` and the frames of `Env`). The
  specification is `Sem.program`, a fuelled call-by-name interpreter with no store. The machine
  has the store, updates, black holes, argument arrays, partial applications, metadata, fused
  operations and both engines' treatment of annotations. Intrinsics are arbitrary functions from
  natives to closed code or an error. Not modelled: `LookupLit`, intrinsics that force, capture
  or have effects, collection during the run, tick limits, traces. False of the code: a black
  hole copied with a constructor's fields gives an infinite-loop error on a program with a
  value (`loop_false`); an intrinsic reads a native out of a function (`prim_reads_function`).
* **Opt** (eval/stg/optimiser.rs over the trees of `Bc`, meaning by `Sem`). The unfused body kept
  beside a fused operation is not in the trees. Results are compared along every path of fields
  (`Shows`), errors and divergence included. False of the code: a case with one nullary branch
  forgets which constructor it asked for (`optimise_forgets_tag`); arguments of a folded
  constructor are renamed twice (`optimise_renames_twice`); literal lookups are not renamed at
  all (`optimise_dangles`).
* **Export** (eval/stg/render.rs, emit.rs, src/export). Values are finite trees with each node as
  evaluation leaves it, a failed evaluation being a node of its own. Of metadata only the lookups
  of `export` and `tag` are kept. `BTreeMap`, `IndexMap` and `LinkedHashMap` are taken by their
  documented behaviour; the order of EDN values is any strict order; strings are compared by code
  points, which is the order of their bytes. The text made of a finished document by serde_json,
  yaml-rust, toml, edn-format and html5ever is not modelled, nor is failure to write it.
* **Comp** (eval/stg/compiler.rs, core/demand.rs). Deferred syntax (`ProtoSyntax`) is a function
  from contexts. Source locations are kept where they reach the code. Tables (numbers and wrappers
  of intrinsics, signatures, prelude slots) are parameters; the meaning theorem asks that they
  agree with the globals (`Fits`). The reference meaning has no demands, no locations and no
  sharing. False of the code as a whole: what is marked strict is evaluated at the `let`, so that
  a wrong mark is a change of meaning (`compile_hasty`) and not only of speed, as core/demand.rs
  says.
* **Dem** (core/analyse_demand.rs, core/demand.rs). Hash maps are functions to options. Loops take
  a number of turns and give nothing if it is too small. The table from addresses of lambda
  bodies to signatures is replaced by what it would answer, no two lambdas sharing a body.
  Reflattening between analysis and compilation is `Flat`'s; the witnesses are such that it
  changes nothing that matters. False of the code: see C65 and C66.
* **Io** (driver/bytecode_io_run.rs, the spec part of driver/io_common.rs, the part of
  eval/bytecode/machine.rs they call, driver/eval.rs:587-622). Evaluation is a parameter: a
  function from values to values, errors or nothing. A reference carries the age of the heap in
  which it is good; using an older one is a fault, and the collector may make a new age at
  every run. Allocation does not fail; source positions and timing figures are left out. The
  operating system is a function of the commands run so far. False of the code: see C70.
* **Pipe** (driver/io_common.rs `run_command`). A transition system with any command as a
  parameter. One output pipe, no failure to start, characters for bytes. False of the code: see
  C71.
* **Inl** (core/inline/tag.rs, core/inline/reduce.rs, what they use of core/expr.rs and
  core/transform/succ.rs, `inline` in driver/source.rs). Source locations and demands are left
  out; `distribute` takes a number of levels; `pre_expand_inlines` always does all its rounds.
  Expressions that bind nothing and are treated alike are one constructor with a kind. False of
  the code: see C72.
* **Par** (eval/stg/parallel/serialise.rs, arena.rs, driver.rs, fork.rs, roots.rs, and what they
  use of eval/bytecode/machine.rs). A value not yet evaluated is a finite description of what its
  evaluation does: give a value, carry metadata, force another value on the way, read a stream,
  fail. Whatever evaluates moves the handles. Values whose evaluation does not end are left out,
  as are the reductions (`par-sum` and so on) built on the same map, signals and `EU_PP_TRACE`.
  The text of a date-time is the library's, given by two functions. False of the code: see C76.
* **Graph** (eval/stg/graph.rs, graph functions of lib/prelude.eu). Vectors are lists, an index
  out of range or a count below zero is an error value that is shown not to occur. Numbers are
  integers; the doubles they pass through are exact below 2^53. False of the code: see C81.
* **Fmt** (syntax/export/format.rs, driver/format.rs). The default mode. Whether a text has
  parse errors, on which `eu fmt` refuses it, is not modelled, but for the checks that quotes are
  closed (`quotesOk`), which the witnesses need; theorems hold of texts with other errors too.
  `--reformat`, files and options are not modelled. Of the Unicode tables it is assumed that white
  space is no letter, digit, symbol or punctuation, and which ASCII characters are white space
  (`Blanks`). False of the code: see C82–C84.
* **Arr** (eval/memory/ndarray.rs, eval/stg/array.rs, eval/stg/emit.rs, `arr` in lib/prelude.eu).
  The crate `ndarray`, not in the repository, is modelled by its documentation: `get`, `iter` by
  row, `from_shape_vec`, `reversed_axes`, `index_axis`, `Zip`. Doubles are any type with operations
  and a test for being finite. Shapes, coordinates and offsets are integers: doubles that are not
  are cut off by the code. Left out: the limit on the size of an array, the forcing of lists,
  sums of machine integers that panic in debug builds. Theorems are on the arrays that can be made
  (`Made`). False of the code: see C87–C89.
* **Yaml** (src/import: yaml.rs, jsonl.rs, toml.rs, edn.rs, csv.rs, text.rs, mod.rs). The scanners
  of the libraries are parameters: yaml-rust gives the events of a text, toml, edn-format and csv
  their values. Regular expressions are modelled as they are written, with a match anywhere in the
  text. Dates, the parser of embedded code and its desugaring are parameters; embedded code is any
  expression of variables, literals, `let`s, lambdas and nodes of other kinds. Numbers are kept as
  text. Left out: source positions, XML, streams. False of the code: see C91–C93 and C95–C97.
* **Fuse** (core/transform/fuse.rs and hoist.rs, on the expressions of `Inl`). `fuse` is given the
  levels it may go down, which are proved to suffice. A lookup means a call of `LOOKUPOR` with the
  key in its box; the bytecode's shortcut (`LookupLit`) is left out, and so is the call of the
  intrinsic within `LOOKUPOR`, which always answers with the empty list. Source locations, demands
  and the sharing of what is evaluated are left out. For hoisting, that the prelude's globals are the
  members they are named after is an assumption. False of the code: see C100.
* **Suite** (core/unit.rs, core/analyse/testplan.rs, driver/tester.rs, lib/test.eu). Targets are a
  list in an arbitrary order, one for each time a program is loaded. What programs do when run, what
  their output reads as, the functions of the test file used as checks, and regular expressions are
  arbitrary functions. Evidence is data: the writing and reading of YAML in between is left out, except
  that symbols become text, and so are names and titles with quotes or backslashes in them, which the
  evidence script does not escape. Of files only the names of the results are kept. White space is
  that of ASCII. False of the code: see C101, C102, C103 and C104.
* **Printf** (eval/stg/printf.rs, FMT in eval/stg/string.rs, eval/stg/encoding.rs). Rust's padding,
  signs and fixed precisions are written out; the shortest digits of a double and the scientific
  notation are arbitrary functions. Doubles are those of Arith, so there is no negative zero. Widths
  have no limit. Dates are their text. Base64 is that of the crate's standard engine: padding is
  required, and left over bits are zero. SHA-256 is left out. False of the code: see C108 and C111.
* **Lib** (list functions of lib/prelude.eu; eval/stg/list.rs and running.rs for those on numbers). Each
  function of the prelude is one of the model, written by the same recursion; errors are `none`. Lists
  are finite and all of their elements are wanted, so that laziness is not seen; what may not end has a
  number of steps. Elements, keys and functions are arbitrary and do not fail. Doubles are those of
  Arith. False of the code: see C114, C116 and C117.
* **Nest** (functions of lib/prelude.eu on nested blocks). Values are atoms, lists and blocks; an element
  is a key and a value, without metadata. All of a value is wanted, so that an error in a part is an
  error. The pattern of a query is in parts already. `merge` is that of Data, on such values. Functions
  given to `update` may fail. False of the code: see C119 and C120.
* **Args** (`parse-args` of lib/prelude.eu). Strings are lists of characters. Of the metadata of a default,
  `short` and `flag` are modelled, and whether it is a number. Values are not evaluated until they are
  wanted, as in the code, so that a text that is no JSON is a value `bad`. The text of the help is not
  modelled. `split-on("=")`, `replace("^--", "")` and `letters` are modelled by what they give. False of
  the code: see C123 and C124.
* **Unify** (core/typecheck/unify.rs). `unify`, `apply_subst`, `structural_subst`, `bind_var`, `occurs`
  and `freshen_forall`, with kinds. Left out: unions, recursive types, lists with a prefix, and the
  rules for dictionaries against records. Recursion is bounded by a number of levels, and running out is
  told apart from failing; C126 says when the bound does not matter. False of the code: see C125–C127.
* **Lens** (lib/lens.eu). All optics of the library, as terms: what one does is given by the `fmap`, `pure`
  and `ap` in the metadata of its continuation, and these are modelled for `view`, `over`, `to-list-of` and
  the state of `parts-of`. Laziness counts where the library relies on it: a focus that is an error is one
  of the whole only if it is used. Predicates do not fail; arrays and optics written by hand are left out.
  False of the code: see C128–C130.
* **Eff** (`monad`, `let`, `for`, `random` of lib/prelude.eu, lib/state.eu, lib/do.eu). `bind` and `return` of
  each monad and what `monad` derives from them, with values of any type; a result block of `state` or
  `random` has the names of its keys. `io` is any monad: that it obeys the laws is a hypothesis. Blocks
  with a monad tag, which are rewritten into `bind`s, are in `MonBlk`. False of the code: see C131, C133.
* **MonBlk** (core/desugar/rowan_ast.rs, monadic blocks). The chain of `bind`s is made as an expression and given
  a meaning over any type of values with functions, calls, lookup and blocks, of which no laws are asked. Bodies are any
  functions of what their names stand for. The desugarer's environment maps each name to itself and is left out, as are
  source positions, the type that a pair of brackets has by its own name (types do not change the meaning), and how a block
  after a dot is put into the scope of the block before. That the parser lets a dot at the end through is not modelled. False of
  the code: see C134–C136.
* **Contract** (lib/contract.eu). `validate` and `ensure` on computed data, so that nothing raises while it is looked at;
  predicates of values are taken to answer false on functions. Types are trees with the tags of eval/stg/typedata.rs; malformed
  tagged lists, the text of types, paths and reports are left out. `Conforms` is the meaning of types, in
  propositions; recursive types have none there. False of the code: see C137.
* **Smid** (common/sourcemap.rs, eval/stg trace handling).
* **Arith, Rand, Data, Set** (eval/stg intrinsics). Doubles are modelled exactly as dyadic
  rationals with round-to-nearest-even; transcendental functions are not modelled. False of the
  code: mixed integer arithmetic goes through doubles, `pow` overflow falls back to `powf`,
  `==` is not transitive, merging with `{}` drops duplicates, deep merge is not associative,
  integer draws with bounds above 2^63 are negative, `vec.nth(-1)` gives the first element,
  empty `vec.shuffle` underflows, sets conflate integers beyond 2^53.
* **Escape, Lex, StrPat, Parse** (syntax/rowan). Unicode classification is a parameter
  (`CharClass`), of which only a handful of ASCII facts are assumed (`Sane`). rowan's
  `GreenNodeBuilder` is transcribed from its documentation. False of the code: white space
  inside interpolations is lost; `"{x}}}"` loses its brace; c-string patterns mishandle
  backslash before brace; the parser panics on ``a:` ``, `a: : b`, `a:(b): c` and on a Unicode
  bracket left open (all proved on the text).
* **Scope, Ana** (core/cook). False of the code: an inner plain definition does not hide an
  outer operator's fixity; a bare anaphor leaks into the next function; which block becomes a
  function depends on declaration order; `"{-1}"` panics the compiler.
* **Cache, Input, Import** (driver, syntax/input.rs, syntax/import.rs). SHA-256 is an arbitrary
  function to 32 bytes; postcard, petgraph and the url crate are modelled from their
  documentation or left as parameters. False of the code: `eu '['` panics; the same relative
  locator in two directories is taken for one file.
* **Subtype** (core/typecheck/subtype.rs). Fuel for recursive types as in the code. False of the
  code: not transitive and not sound with optional fields, Dict and open records.

## Not modelled

Process I/O, the OS allocator, terminal output, LSP, HTTP/git fetching, regular-expression
matching, floating-point rounding of transcendental functions, and Rust's own memory model.
