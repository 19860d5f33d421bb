# Formal model of shellyln/takenoco in Lean 4

## Technique

Two layers.

* **Layer A (value model)**, `Verif/Model`: the library as pure functions. A Go `ParserFn` is a
  function `Sem = Ctx → Out (Ctx × Option Err)`, where `Out` is `ok | panic | timeout`. `panic`
  models a Go run-time panic (index out of range, nil dereference, failed type assertion, division
  by zero). `timeout` only appears when the fuel of an unbounded Go loop (`Repeat` with `Max < 0`,
  `ProductionRule`'s `for {}`, `Traverse`'s `Continue`) or of a recursive grammar (`Indirect`) is
  used up. "Terminates" means "some fuel suffices", "diverges" means "no fuel suffices", and results
  are proved independent of fuel (C12), so that `den` (the meaning of a grammar without fuel) is used
  in most statements.
  Combinators take arbitrary children (`List Sem`), as in Go. A deep embedding `Gram` of grammars
  (with named rules for `Indirect`) is interpreted by `run` in terms of the same combinators, so that
  "for every grammar" is a theorem.
* **Layer B (memory model)**, `Verif/Model/Heap.lean`: slices as (array, offset, length, capacity) over a
  heap of backing arrays, Go `append` with an arbitrary growth policy, in-place writes. The same
  `BaseParser`, and a refinement to layer A (C45).

Go strings are lists of bytes (possibly invalid UTF-8). `int` positions are naturals (contexts with
a negative `Position` cannot be built by the library and are excluded). `int64` is Lean's
`Int64` (wrapping). `float64` values are bit patterns.

Directories under `lean/Verif`:

* `Model/` — the code, definition by definition, each with the file and lines it models.
* `Spec/` — the vocabulary of the statements, written without reference to how the code works.
* `Lemmas/` — helper lemmas.
* `Props/` — the property theorems, named after the property (`C07_...`), with concrete cases
  (`example`) that meet their hypotheses.

Names: `_partial` marks a theorem that proves part of a property that is false as stated; `_false`
(and a few descriptive names such as `C38_quotes_lost`) marks a refutation with a concrete witness.

## Property plan

| id | what is modelled | how it is proved |
|----|------------------|------------------|
| C01 C02 C04 C05 C06 C14 C15 | `BaseParser`, `lookBehindBase` over arbitrary children | inductive PEG specification (`Spec/Peg`), both directions |
| C03 C11 C51 | same | case analysis of the engine, induction over loops |
| C07 C08 C09 C10 C12 | `Gram`, `run` | predicate closed under every combinator, induction on fuel; least fixed point |
| C13 C54 C55 | `Repeat` loop, whole grammars | measure for termination; invariant for divergence |
| C16 C17 C18 C21 C52 | string terminals over bytes and the UTF-8 decoder | direct |
| C19 C20 | Go's `utf8.DecodeRuneInString`, `string(rune)` | arithmetic case analysis against the encoder of Lean core; induction |
| C22 | `WordBoundary` as written (incl. its lead-byte bug) | induction over the text; counterexample for the bug |
| C23 C24 C25 | string transformers, `strconv.ParseInt/ParseUint` | induction over digits |
| C26 C27 C28 C32 | base transformers | list laws; refutations for `Exchange`, `Roll`, `Push`/`Prepend` history |
| C29 C30 C31 | object parsers, `ItemEquals` | direct / induction on trees; refutation for `Seq` |
| C33 | `Match` | direct |
| C34 C35 | `ProductionRule`, formula rules | loop invariant, measure; refinement to a precedence evaluator |
| C36 C37 C50 | formula / torpn grammars | program logic over the combinators (`Lemmas/Logic`), induction over expressions |
| C64 C65 | same | specification of exactly the accepted texts (`Spec/Formula`); a second program logic (`Lemmas/Exact`) that bounds what a parser can match, from which the converse of C36 and C37 follows |
| C67 | same | the grammar of csv texts of C38 (`Spec/Csv`), now as the exact set of accepted texts; `Lemmas/Span` reads bytes as characters in front of a rest, so malformed UTF-8 is covered |
| C38 C39 | CSV grammar and `ToCsv` | same |
| C40 | `GetLineAndColPosition` | loop invariant |
| C41 C42 | `Traverse` with stateful callbacks | induction on trees |
| C43 C44 C66 | tracer with an event log; global trace state | simulation; bracket invariant |
| C45 | layer B | refinement, ownership invariant |
| C46 C47 C48 C53 | `extra` grammars | scanners (`Lemmas/Scanner`) and the program logic |
| C49 | map boxes as a state machine | refinement to a finite map |
| C68 | `ReflectionBox`, `reflect` over a typed memory with slices, arrays and maps | read and write lemmas for overlapping places; typing is preserved |
| C69 | the `SliceLike` methods of `AstSlice` on the memory of C45, with bounds checks and capacities | which variables a call writes; induction over the calls |
| C70 | `strconv.ParseInt`, `ParseUint` with base 0 against the grammar of Go's integer literals | the digit loop and the underscore check as one automaton |
| C71 | the lists of const.go against the parsers | both are terminals for one character |
| C72 | formula and torpn, positions and causes of errors | a logic of blame: text before and behind the reported position; completions of prefixes |
| C73 | csv, the texts that get each error | the logic of blame; a repetition with a separator ends where no separator follows (uses C56) |
| C74 | grammars over characters are PEGs | Ford's semantics stated apart (Spec/Ford), both directions against the big-step specification of C12 |
| C75 | LL(1) grammars and context-free languages | generated words, FIRST, FOLLOW and left recursion stated apart (Spec/Language); on top of C74 |
| C76 | minimal parser of the introduction | the program logic, as for the examples |
| C77 | elementary parsers | direct |
| C78 | torpn's output against formula's value | a stack machine stated apart (Spec/StackMachine), on top of C64 and C65; the sign of a group makes the output ambiguous |
| C79 | places | a relational reading of the engine (Spec/Relational): related contexts give related results; instantiated with "the same text with a prefix" for parsers of strings and "the same ASTs but for their places" for production rules |
| C80 | Traverse in full | rules without fuel (Spec/TraverseRun), sound and complete for the model; bottom-up rewriting and programs in mode Last as consequences |
| C81 | main.go and wasm/main.go | on top of C64 and C67; float64 rounding of an int64 is modelled by its value |
| C82 | layer B with `Match` | refinement in which a parser may replace the `d` topmost ASTs when it matches; ASTs counted along sequences |
| C83 | layer B, all grammars | set of arrays a computation may write to |
| C84 | layer A, extra, `strconv.ParseFloat` | value of a text and nearest float64 as rational numbers; rounding shown to be nearest, ties to even; the lexers' texts read off as numbers |
| C85 | layer A, `strconv` | the digit loop against the longest numeral at the front of a text |
| C86 | traced engine | a cost judgement `Work` on grammars; upper and lower bounds in a small cost logic |
| C87 | traced engine, csv grammar | a big-step cost semantics for sequences, choices and loops of terminals, its soundness for the traced engine, and linear bounds for each part of the grammar |
| C88 | Layer A, message texts | `Report`: reason, position in decimal, `display` of C40; reasons from the specification of C72 and C73 |
| C89 | number literals of package extra | the languages as inductive predicates (Spec/NumberText), longest match; the lexers of C46 and C53 are sound and maximal for them |
| C90 | traced engine, formula and torpn grammars, production rules | a calculus of bounds (Lemmas/Ledger): what a parser may cost when it matches, does not match, or aborts, with credit for each byte read and a reserve for each AST left on the stack; induction on the fuel for the recursion through Indirect |
| C91 | engine, formula and torpn grammars | simulation between two grammars on outcomes that forgets the stack; induction on the fuel; for the examples the total-correctness logic of C50 and C55 shows that the production rules report no errors |
| C92 | torpn's production rules, with lists in memory | the rules as functions (Lemmas/ToRpnRules); simulation with ownership of arrays: each step replaces owned lists by an owned list and leaves other arrays alone; induction over rounds and over groups |
| C93 | grammars over slices are PEGs over values | as C74, with values for characters (Spec/Items); the terminals by C29 and C30; Polish notation decided by induction on the length |
| C94 | the tokens spell what was consumed | a relation `K i asts j` kept by terminals, transformers, grouping and concatenation holds of all matches (`Account.grows`, induction on `Parses`); used for texts (`Written`) and for places (`Laid`) |
| C95 | well-formed UTF-8 in, well-formed out | two more relations for `Account.grows` (C94): exactness at character boundaries, and well-formed strings in all ASTs; UTF-8 is prefix- and suffix-free on characters |
| C96 | parsing expression grammars as over-approximated by context-free ones | by C74 and an induction on Ford's relation; completeness needs LL(1) (C75) and is false without it (C75_order_matters) |
| C97 | left recursion, also through always-matching prefixes, diverges | the sets of rules are given by the user of the theorem; `Calls` names the call that is reached; the Go program dies of stack exhaustion instead of running forever |
| C98 | Depth of nested parser calls | `Spec/Depth.lean` (`nesting` on tracer events, `Tall`, `Nests`), `Lemmas/Depth*.lean`, `Props/Depth.lean`; user-written functions (callbacks, transformers given as functions) are assumed not to call parsers |
| C99 | Production rules implement any table of operators | `Spec/OpTable.lean` (`Word`: the usual grammar with one nonterminal per level; `Term.value`; `Table.production`: rules in the style of the examples), `Lemmas/OpTable*.lean`, `Props/OpTable.lean`; what the operators do is a parameter, `Proper` ties the transformers to it |
| C100 | LL(1) grammars need linearly many parser calls | `Spec/Linear.lean` (`Tries`: Ford's semantics with the number of expressions tried; `Reduced`; `height`), `Lemmas/Linear*.lean`, `Props/Linear.lean`; only grammars that spell parsing expressions (`Means`, C74); calls are counted as in C86 |
| C101 | No parser is called behind the first wrong character | `Spec/ViablePrefix.lean` (`Continuable`, `NoLook`, `Productive`), `Lemmas/ViablePrefix*.lean`, `Props/ViablePrefix.lean`; only grammars that spell parsing expressions (`Means`, C74); what is consumed counts characters of literals one by one, also if the literal is not matched to its end |
| C102 | Every parsing expression grammar can be written | `Spec/Expressive.lean` (`Pex`, its reading `peg` and how it is written, `gram`), `Lemmas/Expressive.lean`, `Props/Expressive.lean`; the recipe uses `CharClassFn` with an arbitrary total function on runes |
| C103 | Sums need a quadratic number of parser calls | `Spec/SumText.lean` (the texts `1`, `1+1`, …), `Lemmas/CallsBelow.lean`, `Lemmas/SumText.lean`, `Props/CallsBelow.lean`; together with C90 the number of calls is quadratic in the worst case, up to constants |
| C104 | One parser call for each expression tried; backtracking may be exponential | `Spec/TryCount.lean` (`Pex.Tried`, the grammars `twice` and `factored`), `Lemmas/TryCount.lean`, `Props/TryCount.lean`; refines the upper bound of C100 to an equality for what C102 writes |
| C105 | A parser runs forever exactly if it comes back to the same place | `Spec/Loop.lean` (`Pex.Needs`, `Pex.Leads`, `Pex.Loops`, `Pex.written`), `Lemmas/Loop.lean`, `Props/Loop.lean`; complements C97 (left recursion) and the sufficient conditions of C54 and C75 by a necessary and sufficient one |
| C106 | Opening brackets nest parser calls without limit | `Lemmas/DepthBelow.lean` (`Descends`, `Sinks`), `Props/DepthBelow.lean`; `nesting` of `Spec/Depth.lean`; the lower bound to C98 |
| C107 | Parses in different goroutines do not disturb each other | `Model/Concurrent.lean` (the engine as a program of single memory accesses; `Machine`), `Spec/Concurrent.lean` (`outcomeOf`, `Fair`), `Lemmas/Concurrent.lean` (`Alike`, `run_fol`), `Lemmas/Goroutines.lean` (`Fits`, `Apart`), `Props/Goroutines.lean`; with C45 for the values |
| C108 | Indirect calls its function once and keeps the parser | `Model/Lazy.lean` (the engine with the variables of `Indirect`), `Spec/Lazy.lean` (`MadeBy`, `Retains`, `Later`), `Lemmas/Lazy.lean`, `Lemmas/LazySteady.lean`, `Props/Lazy.lean`; the other models leave the variables out, which this justifies |
| C109 | What stands behind a greedy repetition or behind a beginning of itself is out of reach | `Spec/Algebra.lean` (`GramEq`), `Lemmas/Greedy.lean`, `Props/Greedy.lean` |
| C110 | The value of a formula put together from formulas | `Spec/Expression.lean` (`Blanks`), `Lemmas/FormulaParts.lean`, `Props/FormulaParts.lean`; the theorems relate results of `formula.Parse` (`torpn.Parse`) and mention no grammar |
| C111 | The table of csv texts put one below the other or side by side | `Spec/Csv.lean` (`LineEnd`), `Spec/Transform.lean` (`Blank`), `Lemmas/CsvParts.lean`, `Props/CsvParts.lean`; the theorems relate results of `csv.Parse` and mention no grammar |
| C112 | Pipelines of transformers that can be shortened | `Lemmas/Pipeline.lean`, `Lemmas/TrimOrder.lean`, `Props/Pipeline.lean`; equalities of the functions that `Trans` returns, so errors, panics and runs without end agree as well |
| C62 C63 | `UnicodeIdentifierStr`, `UnicodeWordBoundary` | program logic over characters; C22 |
| C56 | all grammars | logical relation on contexts, closed under every combinator |
| C57 | all grammars | equations between outcomes, congruence from C56 |
| C58 | `extra/transformers.go`, Go's `time.Parse`, `time.Date` | inversion of the reader; calendar as an iterated "next day" |

## Trusted base

* Lean's kernel.
* The axioms `propext`, `Classical.choice`, `Quot.sound`, at most; the list per theorem is at the end of
  this file. No other axiom, no `sorry`, no `native_decide`, no `bv_decide`.
* The reading of the Go source recorded in the comment above each definition of `Verif/Model`. As a check of that
  reading (not a proof), `Model/Sanity.lean` runs the model on the inputs of the repository's tests.
* The definitions of `Verif/Spec`, as the meaning of the English statements.

### What is modelled

* `base`: `base.go`, `parsers.go`, `match.go`, `production.go`, `transformers.go`, `tracer.go`, `util.go`, `types.go`,
  `const.go`; of `ast.go` the types, `Traverse` and `ItemEquals`; `box.go`.
* `string`: `parsers.go`, `transformers.go`, `util.go`, `const.go`, `new.go`.
* `object`: `parsers.go`, `new.go`.
* `extra`: `extra.go`, `util.go`, `transformers.go`.
* `_examples`: `csv` (with the part of `reflect` that `Marshal` and `Unmarshal` use; map iteration order is a parameter);
  `formula`; `torpn`.
* Of the Go standard library, from its sources: UTF-8 decoding and encoding, `strconv.ParseInt/ParseUint`,
  `strings.Trim*` for the cut sets used, `strings.EqualFold`-like folding by an arbitrary orbit function,
  `reflect.DeepEqual` on the modelled values, `time.Parse` for two layouts, `time.Date`.

### What is not modelled

* `strconv.FormatFloat` and float arithmetic: a parameter of the model (theorems hold for every function). `strconv.ParseFloat` is a parameter too,
  except in C84, which puts in `parseFloat` (Model/ParseFloat.lean): its reading of the text after `readFloat` and `special` of `strconv/atof.go`,
  its three ways of rounding (exact, Eisel-Lemire, decimal shifts) as the one correctly rounding function that they are meant to compute.
  Hexadecimal floats are modelled; C84 says nothing about them.
* The Unicode tables behind `unicode.In`: a parameter.
* `Ast.Address`; the texts of `time.Parse` errors, of strconv errors about a base, and of `strconv.Quote` outside printable ASCII.
* `reflect` on structs, pointers, channels and defined types.
* `reflect.DeepEqual`'s shortcut for identical pointers (relevant for NaN inside shared slices) and its distinction of nil
  and empty slices.
* Goroutines: in the model of C107 only. There the memory is sequentially consistent and an AST is read or written at once, which is what Go
  promises for programs without data races. The variable in which `Indirect` keeps its parser (parsers.go:15-17) is read and set by all
  goroutines without synchronisation; this is a data race of the code when goroutines share an `Indirect` parser that has not been used before, and is
  not modelled (the model calls the function each time; for one goroutine, C108 shows that this is the same). A panic ends its goroutine and not the process. The global tracer
  state is modelled as state of one thread; tracing in several goroutines is not modelled.
* Stack overflow and running out of memory: a recursion or loop that never ends is `timeout` for every fuel.
* The JavaScript side of the wasm program (registration of the functions, UTF-16 strings, the endless wait in `main`).

## Where the code does not do what the property says

Each item is proved in the model with a concrete witness; what does hold is proved as well.

| id | disagreement | theorem |
|----|--------------|---------|
| C21 | `Length` of a pushed AST is that of the previous token, because terminals read `ctx.Length` before setting it | `C21_length_false` |
| C22 | `WordBoundary` does not recognise lead bytes f1, f2, f4 when stepping back | `C22_wordBoundary_false` |
| C24 | `ParseUint` panics on the empty string (`value[0]`) | `C24_parseUint_panics` |
| C25 | `StringFromInt` truncates to 32 bits before converting | `C25_stringFromInt_false` |
| C27 | `Push` and `Prepend` keep the source position of an earlier call | `C27_push_history`, `C27_prepend_history` |
| C28 | `Exchange` panics on every list of two or more ASTs; `Roll` does nothing | `C28_*` |
| C30 | object `Seq` matches whether or not the items are equal | `C30_*` |
| C31 | equality of ASTs is not reflexive on NaN and functions | `C31_*` |
| C49 | `SetAny(nil)` deletes the key, a later `GetAny` panics; on `map[string]interface{}` typed getters panic or return a description | `C49_false`, `C49_typed_getters_false` |
| C63 | `UnicodeWordBoundary` matches next to a `$` inside an identifier: `isUnicodeWord('$')` is false, since `$` is in `Pattern_Syntax`, though the comment of the function names it a word character | `C63_dollar_not_word`, `C63_dollar_false` |
| C78 | the sign of a group is written like a subtraction: `1--(2-3)` and `-(1-(2-3))` have the same postfix output but different values | `C78_signs_lost` |
| C80 | the comment on `WayThereMode_Last` (ast.go:101) says the last item is returned; it is a list with the last item, and with the zero AST if all children returned jumps | `Program` in Spec/TraverseRun, examples in Props/TraverseRun |
| C81 | the wasm functions print an error and return the empty table or 0, which callers cannot tell from a proper result; int64 results beyond 2^53 are rounded | `C81_csv_silent`, `C81_formula_silent`, `C81_formula_rounds` |
| C82 | `Match` in a loop that needs two rounds, or that leaves fewer ASTs than it takes, damages saved contexts | `C82_rounds_false`, `C82_shrinking_false` |
| C83 | two parses with the same context: the second overwrites the ASTs in the result of the first | `C83_same_context_false` |
| C84 | `FloatNumberStr` matches `._`, which `ParseFloat` rejects | `C84_point_false` |
| C84 | a 1 written as `.00…01e100001` is read as 0 (in Go's `strconv`, not in takenoco) | `C84_digits_false` |
| C51 | the error of the last call of a `BaseParser` callback is dropped | `C51_false` |

Further behaviour a user of the library will not expect, stated and proved next to the property it limits:

* `First()` without alternatives matches (`C02_first_empty`).
* The formula and torpn examples accept `+5`, and `-9223372036854775808` exactly where the operand follows an operator whose
  left neighbour is a number: `1*-9223372036854775808` has a value, `(1)*-9223372036854775808` and the number alone are errors
  (examples beside C64).
* `ZeroOrMoreTimes` over a parser that matches without consuming never ends (C13), and so does left recursion (C54, C97).
* `Match(n)` may consume ASTs of earlier parsers (`C07_match_consumes`, `C56_match_false`), panics if there are fewer than `n`
  of them, and its `append` overwrites cells that saved contexts still see (`C45_match_false`); a callback that
  replaces ASTs of earlier rounds and then rejects does the same (`C45_callback_false`).
* A hand-written child that reads `ClassName` can tell `Group` from `FlatGroup` (`C15_class_name_false`).
* `LookBehind` with negative distances (C09), `Transform`s that shrink the older stack (C14) leave the safe domain.
* csv: a quoted `""` is erased instead of becoming `"` (`C38_quotes_lost`); unquoted cells are trimmed; blank lines
  vanish, and so do trailing rows of one blank cell.
* formula: `1/0` panics; `-9223372036854775808` is an error while `1*-9223372036854775808` is not.
* torpn: the token of a unary minus on a list is the same as that of the binary one.
* `Concat` of no ASTs makes a token at position 0, and `Concat` gives its result the position of the first AST, so nested
  `Concat`s can lose a token's place (`C94_concat_place`).
* `Traverse` reinterprets memory by unchecked casts when `Type` and `Value` disagree; in `Last` mode `Continue` may loop
  for ever and a negative increment may panic (C41).
* `GetLineAndColPosition` panics iff the position is past the end or the tab size is negative (C40).
* Interleaved calls of `DebugTrace` restore the wrong global state (`C44_interleaved_false`).
* Two grammars with the same prefix can be factored, two with the same end cannot; alternatives cannot be swapped
  (`C57_right_factor_false`, `C57_first_swap_false`).
* `DateStr` and `DateTimeStr` accept years below 0 and above 9999, hours up to 29 and second 60 to 69; `ParseDate`,
  `ParseDateTime` and `ParseTime` reject them (C58; the first is a TODO in the code).

* `csv.Marshal` writes a field whose column is not requested into the first column, so that its result depends on Go's
  map order (`C59_missing_column_false`), and panics without columns (`C59_no_columns_panics`); it writes no header.
* `csv.Unmarshal` panics on rows shorter than needed and on unexported fields (`C60_short_row_panics`,
  `C60_unexported_panics`), cuts off integers silently (`C60_overflow`), and leaves the slice as it was, without an error,
  if there is only a header (`C60_no_rows`).
* `torpn`'s `transformUnaryOp` appends to a slice it shares with its argument, so that applying it twice to one list would change the
  first result (`C92_shared`). The production rules use each list once, and are not affected (`C92_groups`).

## Wrong programs

`seeded/LOG.jsonl` records the edits of the model that were tried, with the claim each one breaks and the theorems that
failed.

## Axioms per theorem

Output of `#print axioms` on every theorem named in MANIFEST.json (namespace `Takenoco`).

**propext** (36): `C07_match_consumes`, `C18_end`, `C23_concat`, `C24_parseUint_panics`, `C25_stringFromInt`, `C27_pop`, `C27_push_history`, `C27_prepend_history`, `C28_exchange_partial`, `C28_roll_partial`, `C29_any`, `C29_end`, `C29_objClass`, `C29_objClassN`, `C29_objClassFn`, `C30_seq_exact`, `C30_seq_false`, `C33_match_none`, `C44_later`, `C44_marks`, `C44_scope`, `C44_interleaved_false`, `C48_zone_form`, `C49_index`, `C49_reads`, `C49_false`, `C49_typed_getters_false`, `C51_false`, `C58_panics`, `C59_not_structs`, `C59_missing_column_false`, `C68_set_nil`, `C77_error`, `C77_unmatched`, `C77_zero`, `C77_start`

**no axioms** (16): `C02_first_empty`, `C04_instances`, `C21_length_false`, `C26_setOpCode`, `C26_changeClassName`, `C26_setOpCodeAndClassName`, `C26_setValue`, `C27_push_first`, `C28_roll_identity`, `C28_roll_false`, `C31_ignores`, `C31_symm`, `C31_refl_partial`, `C63_dollar_not_word`, `C77_if`, `C88_names`

**propext, Quot.sound** (109): `C01_flatGroup_matched`, `C01_flatGroup_unmatched`, `C01_flatGroup_unmatched_ctx`, `C04_maximal_unique`, `C05_lookAhead`, `C05_lookAheadN`, `C06_lookBehind_general`, `C09_negative_distance_panics`, `C09_parseUint_panics`, `C13_repeat_diverges`, `C13_star_zero_diverges`, `C13_star_lookAheadN_end_diverges`, `C14_trans_matched`, `C14_trans_unmatched`, `C14_trans_transformer_error`, `C15_erase`, `C15_group`, `C15_group_flatGroup`, `C15_group_grammar`, `C15_erase_grammar`, `C16_seq_matches`, `C16_seq_unmatched`, `C16_charClass_matches`, `C16_charClass_unmatched`, `C22_wordBoundary_false`, `C23_concat_fails`, `C23_trim_fails`, `C27_push_partial`, `C27_prepend_partial`, `C27_pop_push`, `C28_exchange_panics`, `C30_seq_partial`, `C31_trans`, `C31_nan_false`, `C31_untyped_panics`, `C32_toSlice`, `C32_toSlice_panics`, `C32_asts`, `C33_match_takes`, `C33_match_fails`, `C34_shortens`, `C36_written`, `C40_position`, `C40_rest_exists`, `C40_lines_exist`, `C40_panics`, `C41_recording`, `C41_lazy`, `C42_traverse`, `C43_transparent`, `C43_build`, `C43_built`, `C43_balanced`, `C43_panic`, `C43_events`, `C44_restores`, `C44_silent`, `C45_from`, `C45_match_false`, `C45_callback_false`, `C48_clock_form`, `C54_object_eater`, `C54_object_terminal`, `C54_left_recursion_diverges`, `C56_same_end`, `C56_standalone`, `C56_sequence`, `C56_match`, `C56_match_false`, `C60_no_rows`, `C60_parse_error`, `C60_target`, `C66_numbers`, `C68_elements`, `C68_mapIndex`, `C69_set_panics`, `C70_unambiguous`, `C70_other_radix`, `C77_indirect`, `C79_library`, `C79_start`, `C79_word`, `C79_behind`, `C81_tinygo`, `C82_matchFree`, `C82_operators`, `C82_rounds_false`, `C82_shrinking_false`, `C83_writes`, `C83_parse`, `C83_results`, `C83_same_context_false`, `C84_transformer`, `C86_polynomial`, `C86_exponential`, `C88_astType`, `C88_unknown`, `C91_refusing`, `C92_shared`, `C94_concat_place`, `C98_height`, `C98_grows`, `C98_csv`, `C100_useless_exponential`, `C107_shared_context_false`, `C108_same`, `C108_once`, `C108_again`, `C108_parses`

**propext, Classical.choice, Quot.sound** (393): `C01_flatGroup_other`, `C02_first_matched`, `C02_first_unmatched`, `C02_first_unmatched_ctx`, `C03_errors_propagate`, `C04_repeat_matched`, `C04_repeat_maximal`, `C04_repeat_unmatched`, `C06_lookBehind`, `C06_lookBehindN`, `C07_stack_discipline`, `C08_string_position`, `C08_slice_position`, `C09_never_panics`, `C09_extra`, `C10_source_and_tag`, `C11_error_status`, `C12_fuel_independent`, `C12_more_fuel`, `C12_transformer_fuel_independent`, `C12_spec_to_engine`, `C12_engine_to_spec`, `C12_spec_deterministic`, `C12_divergence`, `C12_meaning_solves`, `C12_meaning_least`, `C13_repeat_terminates`, `C13_repeat_fuel_irrelevant`, `C15_class_name_false`, `C16_seq_iff`, `C17_charRange`, `C17_charRangeN`, `C17_charClassN`, `C17_complement`, `C17_at_end`, `C18_any`, `C18_whitespace`, `C18_whitespaceNoLineBreak`, `C18_lineBreak`, `C18_alpha`, `C18_number`, `C18_alnum`, `C18_binNumber`, `C18_octNumber`, `C18_hexNumber`, `C18_charClassFn`, `C18_whitespace_partition`, `C18_alnum_union`, `C19_next_unique`, `C19_decode`, `C19_width`, `C19_decode_encode`, `C19_encode`, `C19_encode_decode`, `C20_reads`, `C20_total`, `C20_lossless`, `C20_reads_unique`, `C21_position_partial`, `C22_wordBoundary_partial`, `C22_unicodeWordBoundary_partial`, `C22_wordBoundary_exact`, `C23_trim`, `C23_trimStart`, `C23_trimEnd`, `C23_trimmedStart_unique`, `C23_trim_idempotent`, `C24_parseInt_accepts`, `C24_parseInt_rejects`, `C24_parseUint_accepts`, `C24_parseUint_rejects_partial`, `C24_parseInt_decimal`, `C24_parseUint_decimal`, `C25_int_rune_int`, `C25_stringFromRune`, `C25_stringFromInt_partial`, `C25_stringFromInt_exact`, `C25_stringFromInt_false`, `C31_itemEquals`, `C33_match_panics`, `C33_topIs`, `C34_production`, `C34_grammar`, `C34_panics`, `C34_checked`, `C34_idle`, `C34_terminates`, `C34_diverges`, `C35_precedence`, `C36_parse`, `C37_rules`, `C37_parse`, `C38_parse`, `C38_round_trip`, `C38_quotes_lost`, `C38_blanks_lost`, `C39_csv_total`, `C41_traverse`, `C41_walk`, `C41_same`, `C45_simulates`, `C45_saved`, `C45_rewind`, `C45_text`, `C45_growth`, `C45_library`, `C45_csv`, `C45_formula`, `C46_binary`, `C46_octal`, `C46_hex`, `C46_integer`, `C47_identifier`, `C48_time`, `C48_time_complete`, `C48_dateTime`, `C48_dateTime_matched`, `C48_date`, `C49_unwritten`, `C49_read_back_partial`, `C49_wrong_getter`, `C49_other_keys`, `C50_formula_total`, `C51_round_partial`, `C51_final_loses_error`, `C52_seqI_matches`, `C52_seqI_unmatched`, `C52_ascii`, `C52_refl`, `C53_integer_numeric`, `C53_float_numeric`, `C53_float_form`, `C54_terminates`, `C54_moves`, `C54_string_terminal`, `C54_string_eater`, `C55_torpn_total`, `C57_flatGroup_one`, `C57_flatGroup_flatten`, `C57_first_one`, `C57_first_flatten`, `C57_first_again`, `C57_first_factor`, `C57_lookAheadN_twice`, `C57_lookAhead_twice`, `C57_lookAhead_same`, `C57_lookAheadN_never`, `C57_lookAheadN_first`, `C57_repeat_some`, `C57_repeat_none`, `C57_repeat_zero`, `C57_trans_trans`, `C57_trans_nil`, `C57_replace`, `C57_equivalence`, `C57_once`, `C57_oneOrMore`, `C57_zeroOrMore`, `C57_zeroOrOnce`, `C57_right_factor_false`, `C57_first_swap_false`, `C57_definition_false`, `C58_calendar`, `C58_date`, `C58_date_year`, `C58_time`, `C58_dateTime`, `C58_dateTime_parser`, `C58_date_parser`, `C58_time_parser`, `C59_marshal`, `C59_table_unique`, `C59_order`, `C59_no_columns_panics`, `C60_unmarshal`, `C60_otherwise`, `C60_unreadable`, `C60_short_row_panics`, `C60_unexported_panics`, `C60_overflow`, `C61_round_trip`, `C62_identifier`, `C62_cases`, `C62_text`, `C63_no_boundary_partial`, `C63_dollar_false`, `C64_ends`, `C64_value`, `C64_panic`, `C64_error`, `C64_unambiguous`, `C65_ends`, `C65_value`, `C65_error`, `C66_distinct`, `C67_ends`, `C67_value`, `C67_error`, `C67_unambiguous`, `C68_allowed`, `C68_string`, `C68_typed`, `C68_read_back`, `C68_unchanged`, `C68_reads`, `C68_fits`, `C68_map_copy`, `C69_get`, `C69_len`, `C69_set`, `C69_reslice`, `C69_make`, `C69_copy`, `C69_history`, `C69_beyond_length`, `C70_parseInt`, `C70_parseUint`, `C71_whitespace`, `C71_noLineBreak`, `C71_lineBreak`, `C71_complements`, `C72_formula`, `C72_torpn`, `C73_not_table`, `C73_report`, `C73_eof`, `C73_junk`, `C74_engine_to_peg`, `C74_peg_to_engine`, `C74_matches`, `C74_unmatched`, `C74_diverges`, `C74_abc`, `C75_word`, `C75_language`, `C75_brackets`, `C75_order_matters`, `C76_words`, `C76_others`, `C78_sound`, `C78_complete_partial`, `C78_flat_partial`, `C78_signs_lost`, `C79_anywhere`, `Formula.C79_formula`, `C80_traverse`, `C80_reached`, `C80_deterministic`, `C80_rewrite`, `C80_jump_panics`, `C80_forever`, `C81_main`, `C81_main_any`, `C81_csv`, `C81_csv_silent`, `C81_formula`, `C81_formula_exact`, `C81_formula_rounds`, `C81_formula_silent`, `C81_formula_nearest`, `C82_simulates`, `C82_text`, `C82_rewind`, `C82_below`, `C82_alternatives`, `C84_decimal`, `C84_unique`, `C84_syntax`, `C84_special`, `C84_literals_partial`, `C84_point_false`, `C84_digits_false`, `C85_parseInt`, `C85_parseUint`, `C85_large`, `C85_radix`, `C86_calls`, `C86_terminal`, `C86_eater`, `C87_csv`, `C87_line`, `C88_status`, `C88_formula`, `C88_torpn`, `C88_csv`, `C89_integer`, `C89_float`, `C89_numeric`, `C89_radix`, `C89_longest`, `C89_matches`, `C90_formula`, `C90_torpn`, `C91_alike`, `C91_formula`, `C91_torpn`, `C92_production`, `C92_postfix`, `C92_groups`, `C92_expression`, `C93_engine_to_peg`, `C93_peg_to_engine`, `C93_matches`, `C93_unmatched`, `C93_diverges`, `C93_polish`, `C94_text`, `C94_exact`, `C94_same`, `C94_places`, `C95_boundaries`, `C95_whole`, `C95_clean`, `C95_seqI`, `C96_consumed`, `C96_accepted`, `C97_calls`, `C97_rule`, `C97_direct`, `C97_behind_space`, `C98_linear`, `C98_formula`, `C98_torpn`, `C99_table`, `C99_written`, `C99_any`, `C99_formula`, `C100_work`, `C100_linear`, `C100_whole`, `C100_brackets`, `C101_viable`, `C101_first_error`, `C101_rest`, `C101_longest`, `C101_whole`, `C101_brackets`, `C102_matches`, `C102_unmatched`, `C102_diverges`, `C102_outcomes`, `C102_language`, `C102_linear`, `C103_formula`, `C103_torpn`, `C103_formula_not_linear`, `C103_torpn_not_linear`, `C103_formula_square`, `C103_torpn_square`, `C104_exact`, `C104_tried`, `C104_exponential`, `C104_not_polynomial`, `C104_factored`, `C105_result`, `C105_forever`, `C105_loops`, `C105_nesting`, `C105_decided`, `C105_infinite`, `C106_formula`, `C106_torpn`, `C106_formula_brackets`, `C106_torpn_brackets`, `C106_unbounded`, `C107_undisturbed`, `C107_ends`, `C107_text`, `C107_csv`, `C107_formula`, `C109_never`, `C109_lookAheadN`, `C109_twice`, `C109_dead`, `C109_seq`, `C109_charClass`, `C110_blanks`, `C110_brackets`, `C110_minus`, `C110_op`, `C110_add`, `C110_sub`, `C110_torpn`, `C111_below`, `C111_end`, `C111_beside`, `C112_concat`, `C112_trim`, `C112_trimmed`, `C112_both`, `C112_last`, `C112_roll`, `C112_erase`
