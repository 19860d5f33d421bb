{"id": "C01", "title": "FlatGroup is sequencing", "statement": "FlatGroup(p1..pn) matches exactly when p1..pn all match one after another, each starting in the context the previous one returned; the result is the context returned by the last one, so positions advance and ASTs accumulate in source order. If some pi does not match, FlatGroup does not match.", "quantifier": "all lists of child parsers (arbitrary functions), all contexts", "why_tests_cant": "children are arbitrary functions and the list length is unbounded; tests sample a few grammars", "anchors": ["base/parsers.go:FlatGroup", "base/base.go:BaseParser"]}
{"id": "C02", "title": "First is ordered choice with clean backtracking", "statement": "First(p1..pn) returns the result of the first pi that matches, run from exactly the context First was given: alternatives that were tried and did not match leave no trace in position, AST stack or any other context field. It is unmatched iff all alternatives are unmatched (and there is at least one).", "quantifier": "all lists of alternatives, all contexts", "why_tests_cant": "clean backtracking must hold for every failing prefix and every context", "anchors": ["base/parsers.go:First", "base/base.go:BaseParser"]}
{"id": "C03", "title": "Errors are never backtracked", "statement": "As soon as a child parser that is reached raises an error, the enclosing FlatGroup/First/Repeat/LookAhead/LookBehind/Trans returns that very error with status Error; no later alternative, iteration or sibling is tried.", "quantifier": "all grammars, all inputs, any nesting depth of combinators around the failing parser", "why_tests_cant": "depends on every nesting of combinators", "anchors": ["base/parsers.go:Error", "base/base.go:BaseParser", "base/parsers.go:lookBehindBase"]}
{"id": "C04", "title": "Repeat is greedy and bounded", "statement": "Repeat{Min,Max}(ps) runs the sequence ps as often as it can: it matches with n iterations where n is the largest number of consecutive matches not exceeding Max (Max<0: unlimited), provided n>=Min, is unmatched if n<Min, and reports n as Quantity. ZeroOrOnce, ZeroOrMoreTimes, OneOrMoreTimes, Once are the {0,1},{0,inf},{1,inf},{1,1} instances.", "quantifier": "all Min/Max, all children, all contexts", "why_tests_cant": "iteration counts are unbounded", "anchors": ["base/parsers.go:Repeat", "base/const.go", "base/base.go:BaseParser"]}
{"id": "C05", "title": "LookAhead and LookAheadN are zero-width", "statement": "LookAhead(ps) matches iff the sequence ps matches here, LookAheadN(ps) matches iff it does not; on a match the position, length, AST stack and everything else except the class name are those of the given context.", "quantifier": "all children, all contexts with status Matched", "why_tests_cant": "zero-width-ness must hold for every inner parser", "anchors": ["base/parsers.go:LookAhead", "base/parsers.go:LookAheadN"]}
{"id": "C06", "title": "LookBehind and LookBehindN", "statement": "LookBehind(min,max,ps) matches iff for some distance i in [min,max] not reaching before the source start the sequence ps matches when started i units earlier; on a match the context is returned unchanged. LookBehindN matches iff there is no such distance.", "quantifier": "all min/max, children, contexts with status Matched", "why_tests_cant": "ranges and children are unbounded", "anchors": ["base/parsers.go:lookBehindBase"]}
{"id": "C07", "title": "AST stack discipline", "statement": "Every parser built from the library (Match excepted) leaves the ASTs already on the stack untouched: when it matches, the resulting stack is the old stack followed by the newly produced ASTs.", "quantifier": "all library grammars (recursive ones included), all contexts", "why_tests_cant": "must hold for every grammar and recursion depth", "anchors": ["base/base.go:BaseParser", "base/types.go:ParserContext.AstStack"]}
{"id": "C08", "title": "Position is monotone and in bounds", "statement": "For every parser built from the library, if it matches from a position inside the source then the new position is not before the old one and not past the end of the source.", "quantifier": "all library grammars, all sources, all start positions", "why_tests_cant": "must hold for every grammar and source", "anchors": ["base/base.go:BaseParser", "string/parsers.go", "object/parsers.go"]}
{"id": "C09", "title": "String grammars never panic", "statement": "A parser built from the string parsers, the base combinators and transformers that do not panic never panics, whatever bytes (also invalid UTF-8) the source holds.", "quantifier": "all such grammars, all byte strings", "why_tests_cant": "all byte strings, all grammars", "anchors": ["string/parsers.go", "base/base.go:BaseParser", "base/parsers.go"]}
{"id": "C10", "title": "Source and tag are immutable", "statement": "No library parser changes the source string, source slice or user tag in the context it returns.", "quantifier": "all library grammars, all contexts", "why_tests_cant": "must hold for every grammar", "anchors": ["base/base.go", "string/parsers.go", "object/parsers.go"]}
{"id": "C11", "title": "Error value implies Error status", "statement": "Whenever a library parser returns a non-nil error, the returned context has status Error.", "quantifier": "all grammars, all contexts", "why_tests_cant": "must hold for every grammar", "anchors": ["base/base.go:LightBaseParser", "base/base.go:BaseParser", "base/parsers.go:lookBehindBase"]}
{"id": "C12", "title": "Parsing is a function of grammar and context", "statement": "Running the same grammar on the same context gives the same result every time: the outcome of a completed run does not depend on how much of it has been unrolled (fuel independence) and the denotational PEG specification and the executable engine agree in both directions.", "quantifier": "all library grammars incl. recursive (Indirect) ones, all contexts", "why_tests_cant": "all grammars; recursion is unbounded", "anchors": ["base/base.go:BaseParser", "base/parsers.go:Indirect"]}
{"id": "C13", "title": "Termination and non-termination of repetition", "statement": "ZeroOrMoreTimes/OneOrMoreTimes over a sequence that always advances the position when it matches terminates on every input; over a sequence that matches without changing the context it never terminates.", "quantifier": "all children with the stated behaviour, all contexts", "why_tests_cant": "termination for every input cannot be observed by tests", "anchors": ["base/parsers.go:ZeroOrMoreTimes", "base/base.go:BaseParser"]}
{"id": "C14", "title": "Trans rewrites exactly what the child produced", "statement": "Trans(p,t1..tk) matches when p matches and the transformers succeed; the transformers are applied left to right to exactly the ASTs p produced, and the result replaces them on top of the untouched older stack; position is p's. If a transformer fails the whole parser fails with that error.", "quantifier": "all children, transformer lists, contexts", "why_tests_cant": "all children/transformers", "anchors": ["base/parsers.go:Trans", "base/base.go:BaseParser"]}
{"id": "C15", "title": "Erase and Group", "statement": "Trans(p, Erase) matches exactly when p matches, at the same position, and adds no AST. Group(ps) matches exactly when FlatGroup(ps) matches, at the same position, and adds one list-AST holding exactly the ASTs FlatGroup(ps) would add.", "quantifier": "all children that do not look at the class name of the context (every parser built from the library is one), all contexts", "why_tests_cant": "all children", "anchors": ["base/transformers.go:Erase", "base/transformers.go:GroupingTransform", "base/parsers.go:Group"]}
{"id": "C16", "title": "Literal string parsers", "statement": "Seq(s) matches iff the source continues with exactly the bytes s, and then advances by len(s) and pushes one string AST with value s. CharClass(s1..sn) does this for the first si that is a prefix of the rest of the source and is unmatched if none is.", "quantifier": "all strings s, lists of strings, sources, positions within the source", "why_tests_cant": "all strings", "anchors": ["string/parsers.go:Seq", "string/parsers.go:CharClass"]}
{"id": "C17", "title": "Negated character parsers are complements", "statement": "At every position before the end of the source exactly one of CharRange(rs)/CharRangeN(rs) matches, and CharRangeN/CharRange consume the same single character; CharClassN(ss) matches iff no s in ss is a prefix of the rest and then consumes exactly one character. At the end of the source none of them matches (except CharClass with an empty string).", "quantifier": "all range lists, string lists, sources, positions", "why_tests_cant": "all inputs", "anchors": ["string/parsers.go:CharRange", "string/parsers.go:CharRangeN", "string/parsers.go:CharClassN"]}
{"id": "C18", "title": "Character classes accept exactly the documented sets", "statement": "Whitespace, WhitespaceNoLineBreak, LineBreak, Alpha, Number, Alnum, BinNumber, OctNumber, HexNumber each match iff the next character is in the documented set, consume exactly that character, and Whitespace is the disjoint union of WhitespaceNoLineBreak and LineBreak; Alnum is the union of Alpha and Number.", "quantifier": "all runes, all sources, all positions", "why_tests_cant": "1.1M code points, all positions", "anchors": ["string/parsers.go", "string/util.go"]}
{"id": "C19", "title": "UTF-8 stepping", "statement": "Decoding a character at any position before the end of any byte string consumes between 1 and 4 bytes and never runs past the end; decoding the encoding of a Unicode scalar value gives it back with its encoded length, and re-encoding a successfully decoded character gives the consumed bytes.", "quantifier": "all byte strings, all scalar values", "why_tests_cant": "all byte strings / all scalar values", "anchors": ["string/parsers.go:Any"]}
{"id": "C20", "title": "Any character by character is lossless on valid UTF-8", "statement": "FlatGroup(Trans(ZeroOrMoreTimes(Any()), Concat), End()) matches every valid UTF-8 source and yields one string AST equal to the source. On invalid UTF-8 it matches too, each offending byte being replaced by U+FFFD.", "quantifier": "all sources", "why_tests_cant": "all sources", "anchors": ["string/parsers.go:Any", "string/transformers.go:Concat"]}
{"id": "C21", "title": "Token source positions", "statement": "The AST pushed by a terminal parser carries the source position at which the token starts and the length of the token.", "quantifier": "all terminals, contexts", "why_tests_cant": "all histories before the token", "anchors": ["base/types.go:SourcePosition", "string/parsers.go", "object/parsers.go"]}
{"id": "C22", "title": "WordBoundary", "statement": "On valid UTF-8 text, at a character boundary, WordBoundary matches iff exactly one of the characters before and after the position is a word character ([0-9A-Za-z_$]), the outside of the text counting as non-word; it never changes position or AST stack.", "quantifier": "all valid UTF-8 texts, all character boundaries", "why_tests_cant": "all texts", "anchors": ["string/parsers.go:WordBoundary", "string/util.go:isWord"]}
{"id": "C23", "title": "Concat and Trim", "statement": "Concat turns string ASTs into one AST whose value is the concatenation in order, keeping class name and position of the first, and fails iff some AST is not of string type; Trim/TrimStart/TrimEnd additionally strip exactly the maximal whitespace prefix/suffix and are idempotent.", "quantifier": "all AST lists", "why_tests_cant": "all AST lists", "anchors": ["string/transformers.go:Concat", "string/transformers.go:Trim", "string/transformers.go:TrimStart", "string/transformers.go:TrimEnd"]}
{"id": "C24", "title": "ParseInt/ParseUint exactness", "statement": "ParseIntRadix/ParseUintRadix accept exactly the digit strings of the radix (with optional sign; Uint: optional '+') whose mathematical value fits into 64 bits and yield exactly that value; otherwise they fail. In particular they invert decimal formatting for every int64/uint64. They never panic.", "quantifier": "all strings, all radices 2..36, all 64-bit values", "why_tests_cant": "2^64 values, all strings", "anchors": ["string/transformers.go:parseIntImpl", "string/transformers.go:parseUintImpl"]}
{"id": "C25", "title": "Rune/int/string conversions", "statement": "IntFromRune after RuneFromInt is the identity on values representable as a rune (int32); StringFromInt equals StringFromRune after RuneFromInt and is the UTF-8 encoding of a scalar value, U+FFFD for anything else.", "quantifier": "all int64 values", "why_tests_cant": "all int64 values", "anchors": ["string/transformers.go:RuneFromInt", "string/transformers.go:IntFromRune", "string/transformers.go:StringFromInt", "string/transformers.go:StringFromRune"]}
{"id": "C26", "title": "Head-rewriting transformers have a frame", "statement": "SetOpCode, ChangeClassName, SetOpCodeAndClassName, SetValue change only the named fields of the first AST, keep the number of ASTs and all others, never fail, and leave an empty list empty.", "quantifier": "all AST lists", "why_tests_cant": "all AST lists", "anchors": ["base/transformers.go"]}
{"id": "C27", "title": "Push, Pop, Prepend", "statement": "Push(a) appends a, Prepend(a) puts a first, Pop removes the last AST; Pop after Push restores the input. Each call's result depends only on its own input, not on earlier calls of the same transformer.", "quantifier": "all AST lists, all call histories", "why_tests_cant": "all histories", "anchors": ["base/transformers.go:Push", "base/transformers.go:Pop", "base/transformers.go:Prepend"]}
{"id": "C28", "title": "Exchange and Roll", "statement": "Exchange swaps the last two ASTs; Roll(n) rotates the ASTs by n (to the left for n>0, to the right for n<0).", "quantifier": "all AST lists, all n", "why_tests_cant": "all AST lists", "anchors": ["base/transformers.go:Exchange", "base/transformers.go:Roll"]}
{"id": "C29", "title": "Object terminals", "statement": "Object Any matches iff an element is left; End iff none is left; ObjClass iff the next element equals one of the given values; ObjClassN iff an element is left and equals none; ObjClassFn iff the predicate holds of it. All consume exactly one element (End none) and push that element's value.", "quantifier": "all slices, values, predicates, positions", "why_tests_cant": "all slices", "anchors": ["object/parsers.go"]}
{"id": "C30", "title": "Object Seq matches only equal elements", "statement": "Object Seq(v1..vn) matches iff the next n elements are equal to v1..vn in order, and then consumes exactly n elements.", "quantifier": "all slices, all value lists", "why_tests_cant": "all slices", "anchors": ["object/parsers.go:Seq"]}
{"id": "C31", "title": "AST equality", "statement": "AstSlice.ItemEquals on well-typed ASTs (Value has the dynamic type the Type tag says) is an equivalence relation, holds iff class name, type and value agree recursively, and ignores opcode and source position.", "quantifier": "all ASTs, any nesting depth", "why_tests_cant": "all trees", "anchors": ["base/ast.go:AstSlice.ItemEquals"]}
{"id": "C32", "title": "ToSlice", "statement": "ToSlice turns n ASTs into one AST holding a slice of the source's element type whose i-th element is the value of the i-th AST.", "quantifier": "all AST lists", "why_tests_cant": "all AST lists", "anchors": ["base/transformers.go:ToSlice"]}
{"id": "C33", "title": "Match rewrites only the top n", "statement": "Match(n)(cases) runs the transformers of the first case whose guard holds on exactly the top n ASTs, replaces them by the result, keeps the rest of the stack and the position, and is unmatched (stack unchanged) when no guard holds.", "quantifier": "all n, case lists, contexts with at least n ASTs", "why_tests_cant": "all stacks and cases", "anchors": ["base/match.go:Match"]}
{"id": "C34", "title": "ProductionRule", "statement": "If ProductionRule returns a list, that list is accepted by the check parser; each step applies one rule of the highest-precedence level that has an applicable rule, at the leftmost (Rtol: rightmost) position where one applies, replacing exactly the matched ASTs and keeping the ASTs before and after; if every rule application shortens the list it terminates; if no rule applies and the check fails, it fails.", "quantifier": "all precedence tables, checks, token lists", "why_tests_cant": "number of rewriting steps is unbounded", "anchors": ["base/production.go:ProductionRule"]}
{"id": "C35", "title": "Formula production rules implement operator precedence", "statement": "On every token sequence of the shape (unary* number (binop unary* number)*) the formula production rules compute the value given by conventional precedence: unary minus first, then * and / left to right, then + and - left to right, in wrapping int64 arithmetic (a division by zero panics).", "quantifier": "all token sequences of that shape, any length", "why_tests_cant": "unbounded expressions", "anchors": ["_examples/formula/precedence.go", "base/production.go:ProductionRule"]}
{"id": "C36", "title": "formula.Parse evaluates expressions", "statement": "For every arithmetic expression over int64 literals, unary minus, + - * / and parentheses, written with arbitrary whitespace between tokens, formula.Parse of its text returns its value under conventional precedence and associativity with wrapping int64 arithmetic; it panics if the expression contains a division by zero.", "quantifier": "all expressions, any depth, all whitespace layouts", "why_tests_cant": "unbounded expressions", "anchors": ["_examples/formula/formula.go", "_examples/formula/precedence.go"]}
{"id": "C37", "title": "torpn.Parse yields the postfix form", "statement": "For every such expression torpn.Parse of its text returns the postfix (RPN) token list of its parse tree, unary minus on a literal being folded into the literal.", "quantifier": "all expressions", "why_tests_cant": "unbounded expressions", "anchors": ["_examples/torpn/torpn.go", "_examples/torpn/precedence.go"]}
{"id": "C38", "title": "CSV round trip", "statement": "csv.Parse(csv.ToCsv(rows)) = rows for every table whose cells are valid UTF-8, survive trimming, contain no double quote and whose rows are non-empty and do not look like blank lines.", "quantifier": "all such tables", "why_tests_cant": "all tables", "anchors": ["_examples/csv/parser.go", "_examples/csv/marshal.go:ToCsv"]}
{"id": "C39", "title": "csv.Parse is total", "statement": "csv.Parse terminates on every byte string and never panics: it returns a table or an error.", "quantifier": "all byte strings", "why_tests_cant": "all byte strings", "anchors": ["_examples/csv/parser.go:Parse"]}
{"id": "C40", "title": "GetLineAndColPosition", "statement": "For every source and position within it, the reported line is one more than the number of line breaks (CR LF counting once) before the position, the column is one more than the number of bytes since the last line break, and the call does not panic.", "quantifier": "all sources, positions, tab sizes >= 0", "why_tests_cant": "all sources and positions", "anchors": ["base/util.go:GetLineAndColPosition"]}
{"id": "C41", "title": "Traverse visits depth first and rebuilds", "statement": "Traverse with callbacks that return their argument unchanged (mode None) returns the same tree and calls the callbacks in depth-first pre/post order, once per node; Lazy mode skips the children.", "quantifier": "all trees, any depth", "why_tests_cant": "all trees", "anchors": ["base/ast.go:Ast.Traverse"]}
{"id": "C42", "title": "Traverse stops at the first error", "statement": "When a callback fails or throws, no further way-there/way-back callback runs, fnChildrenErr is called exactly once for each ancestor from the inside out, and the error is returned.", "quantifier": "all trees, all failing callbacks", "why_tests_cant": "all trees", "anchors": ["base/ast.go:Ast.Traverse"]}
{"id": "C43", "title": "Tracing is transparent", "statement": "Building the parsers under DebugTrace does not change any parse result; Before/After events are properly nested and balanced on every run that does not panic.", "quantifier": "all grammars, inputs", "why_tests_cant": "all grammars", "anchors": ["base/tracer.go"]}
{"id": "C44", "title": "DebugTrace restores the global trace state", "statement": "After DebugTrace(scope, pt)(children...) has been evaluated, the tracing switch, scope and tracer are what they were before, also when nested, and parsers built later are not traced.", "quantifier": "all nestings of DebugTrace constructions", "why_tests_cant": "all nestings", "anchors": ["base/tracer.go:DebugTrace"]}
{"id": "C45", "title": "Backtracking is safe although stacks share memory", "statement": "Although a saved context and the contexts derived from it share the same backing array, what is read from a saved context after backtracking is what was there when it was saved; the library with shared slices behaves exactly like one with immutable lists.", "quantifier": "all grammars without Match, all append growth policies, all inputs", "why_tests_cant": "depends on capacities and every interleaving of append and rollback", "anchors": ["base/base.go:BaseParser", "base/match.go:Match"]}
{"id": "C46", "title": "Integer-literal parsers", "statement": "BinaryNumberStr/OctalNumberStr/HexNumberStr match iff the next character is a digit of the base, consume the maximal run of digits and underscores, and yield one string AST holding the digits without underscores. IntegerNumberStr likewise with an optional sign, a leading 0 standing alone.", "quantifier": "all sources, positions", "why_tests_cant": "all sources", "anchors": ["extra/extra.go"]}
{"id": "C47", "title": "Identifiers", "statement": "AsciiIdentifierStr matches iff the next character is a letter, _ or $, and yields the maximal run of letters, digits, _ and $ starting there.", "quantifier": "all sources, positions", "why_tests_cant": "all sources", "anchors": ["extra/extra.go:AsciiIdentifierStr"]}
{"id": "C48", "title": "Time and date-time normal form", "statement": "Whenever TimeStr matches, its value has the form hh:mm:ss.fffffffff (18 bytes, 9 fraction digits); whenever DateTimeStr matches its value ends in ss.fffffffff followed by a numeric zone offset, with Z rewritten to +00:00.", "quantifier": "all sources", "why_tests_cant": "all sources", "anchors": ["extra/extra.go:TimeStr", "extra/extra.go:DateTimeStr"]}
{"id": "C49", "title": "Uninitialised variable boxes", "statement": "A NotInitialized map box panics on every read before the first write and from then on reads back the last written value; writes to one key never affect another key.", "quantifier": "all operation histories", "why_tests_cant": "all histories", "anchors": ["base/box.go:NotInitializedMapContainerReflectionBox", "base/box.go:MapContainerReflectionBox"]}
{"id": "C50", "title": "formula.Parse is total up to division by zero", "statement": "formula.Parse terminates on every byte string and the only panic it can raise is integer division by zero.", "quantifier": "all byte strings", "why_tests_cant": "all byte strings", "anchors": ["_examples/formula/formula.go:Parse"]}
{"id": "C51", "title": "Callback errors reach the caller", "statement": "When the implementation callback given to BaseParser fails, the parser returns that error and status Error.", "quantifier": "all callbacks, children, contexts", "why_tests_cant": "all callbacks", "anchors": ["base/base.go:BaseParser"]}
{"id": "C52", "title": "SeqI", "statement": "SeqI(s) matches iff the next len(s) bytes are equal to s under case folding; for ASCII s on ASCII text this is ASCII case-insensitivity, and the AST keeps the source spelling.", "quantifier": "all strings, sources", "why_tests_cant": "all strings", "anchors": ["string/parsers.go:SeqI"]}
{"id": "C53", "title": "Float and numeric literals", "statement": "NumericStr matches wherever IntegerNumberStr or FloatNumberStr matches, and never consumes less; FloatNumberStr values contain a '.' or an exponent.", "quantifier": "all sources, positions", "why_tests_cant": "all sources", "anchors": ["extra/extra.go:FloatNumberStr", "extra/extra.go:NumericStr"]}
{"id": "C54", "title": "Well-formed grammars terminate", "statement": "A parser built from the combinators terminates on every source if every unbounded repetition has a body that consumes input whenever it matches and no grammar function reaches itself through Indirect without consuming input first.", "quantifier": "all such grammars (any nesting, any recursion through Indirect), all sources and start contexts", "why_tests_cant": "A test only shows that particular runs stop; non-termination on one unforeseen input or grammar cannot be observed by sampling.", "anchors": ["base/base.go:BaseParser", "base/parsers.go:Indirect"]}
{"id": "C55", "title": "torpn.Parse is total", "statement": "torpn.Parse terminates on every byte string and never panics: it returns a list or an error.", "quantifier": "all byte strings", "why_tests_cant": "The set of byte strings is infinite; the type assertions in the production rules and in Parse hold only by an invariant of the token sequence.", "anchors": ["_examples/torpn/torpn.go:Parse", "_examples/torpn/precedence.go"]}
{"id": "C56", "title": "Parsers do not look at what earlier parsers left behind", "statement": "From two contexts at the same place of the same source (same Str/Slice, Position, Length, MatchStatus) but with different ClassName, Quantity, Tag and AstStack, a parser built from the library without Match ends in the same way: it matches in both, stopping at the same place and adding the same ASTs, or is unmatched in both, or fails with the same error, panics, or diverges in both. So FlatGroup(a, b) adds what a adds on its own followed by what b adds on its own where a stopped. With Match this holds for equal stacks.", "quantifier": "all grammars (recursion and production rules included), all contexts, all stacks", "why_tests_cant": "It compares infinitely many pairs of contexts for every grammar; a dependence on leftover state shows up only in particular combinations of parsers.", "anchors": ["base/base.go:BaseParser", "base/parsers.go", "base/transformers.go", "base/match.go:Match", "string/parsers.go", "object/parsers.go"]}
{"id": "C57", "title": "Algebraic laws of the combinators", "statement": "Two grammars are equivalent when from every context they end alike: same match with the same place and ASTs, both unmatched, same error at the same position, same panic, or both diverge. Up to this equivalence FlatGroup and First are associative and do nothing around a single parser; a repeated alternative of First can be dropped; First(FlatGroup(a,b), FlatGroup(a,c)) is FlatGroup(a, First(b,c)); LookAheadN(LookAheadN(g)) is LookAhead(g); LookAhead(g) before g is superfluous and LookAheadN(g) before g never matches; LookAheadN(First(a,b)) is LookAheadN(a) then LookAheadN(b); Repeat can be unrolled by one round (so OneOrMoreTimes(g) is FlatGroup(g, ZeroOrMoreTimes(g))), Once(g) is FlatGroup(g); Trans(Trans(g,ts),us) is Trans(g,ts,us). Replacing a parser inside a grammar by an equivalent one gives an equivalent grammar.", "quantifier": "all grammars whose terminals, callbacks and transformers do not look at class name, quantity and tag (everything built from the library, Match and recursion included), all contexts", "why_tests_cant": "An equivalence of two parsers quantifies over all children and all inputs, including those on which both diverge, and the replacement law over all surrounding grammars.", "anchors": ["base/base.go:BaseParser", "base/parsers.go"]}
{"id": "C58", "title": "Date and time literals denote the right instants", "statement": "ParseDate turns a string into an instant iff it is yyyy-mm-dd with an existing day of the Gregorian calendar, and the instant is the one at which that day starts (86400 seconds per day counted from 1970-01-01 UTC); any other string is an error. On what DateTimeStr and TimeStr yield, ParseDateTime and ParseTime give the instant of that day, time of day and zone offset, or an error if the day does not exist, the hour is 24 or more, the second is 60, or (newer Go) the offset exceeds 24:60. Years below 0 or above 9999, which DateStr and DateTimeStr accept, are errors. Without ASTs, or if the last one is not a string, the transformers panic.", "quantifier": "all strings for ParseDate; all date-times and times of the literal grammars for ParseDateTime and ParseTime; all preceding ASTs; all contexts for the combined parsers; both known behaviours of Go's time package", "why_tests_cant": "There are over three million days and unboundedly many texts; the year-cycle arithmetic has to be compared with a calendar for all of them.", "anchors": ["extra/transformers.go:ParseDate", "extra/transformers.go:ParseDateTime", "extra/transformers.go:ParseTime", "extra/extra.go:DateTimeStr"]}
{"id": "C59", "title": "csv.Marshal writes the table of the structs", "statement": "For a slice of structs whose string and number fields have distinct columns (tag or else field name), all of them among the requested ones, Marshal returns ToCsv of the table that has a row per struct and in each requested column the text of the field belonging there (strings as they are, integers in decimal), or an empty cell if no field does; no header is written. The result does not depend on the iteration order of Go maps. Data that is not a slice of structs is an error. Without requested columns Marshal panics as soon as there is a field to write, and if a field's column is not requested the field goes to the first column, so that the result depends on the map order.", "quantifier": "all struct types (as lists of fields with tag, kind, exportedness), all slices, all column lists, all map iteration orders, all float formatters", "why_tests_cant": "struct types, data and map orders are unbounded; a test sees one map order per run", "anchors": ["_examples/csv/marshal.go:Marshal"]}
{"id": "C60", "title": "csv.Unmarshal reads the structs that the rows say", "statement": "For a text that Parse turns into a header and at least one row, Unmarshal assigns a slice iff all fields to be set are exported and each row has the cells needed and they are readable; the structs are then, for every map iteration order, those in which each string or number field has the value of the cell in its column (found by tag, else by name; of several fields with one column the last one, of several columns with one name the last one; integers beyond the field's width wrap around), and all other fields are zero. Otherwise it returns the number error of an unreadable cell, or panics because a row is too short or a field is unexported; each of these happens if it is the only reason. With less than two rows nothing is assigned and no error returned; errors of Parse and wrong out parameters are errors.", "quantifier": "all struct types with distinct field names, all texts, all map iteration orders, all float parsers", "why_tests_cant": "struct types, texts and map orders are unbounded", "anchors": ["_examples/csv/marshal.go:Unmarshal"]}
{"id": "C61", "title": "Marshal and Unmarshal are inverse below a header", "statement": "A header line with the column names, a line feed and the output of Marshal is read back by Unmarshal as the same slice of structs, if the slice is not empty, all fields are exported strings or numbers with columns of their own, column names and string values survive csv (no double quotes, no outer white space unless quoted), floats are denoted by their text, and no row is a single empty cell.", "quantifier": "all such struct types, slices and column lists, all pairs of map iteration orders", "why_tests_cant": "types, data and orders are unbounded", "anchors": ["_examples/csv/marshal.go:Marshal", "_examples/csv/marshal.go:Unmarshal"]}
{"id": "C62", "title": "What UnicodeIdentifierStr takes", "statement": "UnicodeIdentifierStr matches if and only if the next character is `_`, `$` or one that starts an identifier by the Unicode tables; it consumes this character and the longest run of characters after it that are `$` or continue an identifier, and yields their text as one AST with class name :extra:IdentifierStr.", "quantifier": "all byte strings and positions, all Unicode tables", "why_tests_cant": "inputs are unbounded, and there are over a million characters in each place", "anchors": ["extra/extra.go:UnicodeIdentifierStr", "string/parsers.go:CharClassFn"]}
{"id": "C63", "title": "No word boundary inside an identifier", "statement": "For tables that agree with the Unicode standard on `_` and `$`, UnicodeWordBoundary does not match at a place inside an identifier that UnicodeIdentifierStr takes.", "quantifier": "all texts before and after, all identifiers, all places in them, all such tables", "why_tests_cant": "texts and tables are unbounded", "anchors": ["extra/extra.go:UnicodeWordBoundary", "extra/util.go:isUnicodeWord", "extra/extra.go:UnicodeIdentifierStr"]}
{"id": "C64", "title": "Exactly the texts that formula.Parse accepts", "statement": "formula.Parse returns the value v exactly if the text spells an expression of value v: decimal numbers below 2^63 (digits and underscores, no leading zero, a plus sign may stand directly before them), parentheses, any number of minus signs before an operand, the four operators with the usual precedence and association, white space after every token; in addition -9223372036854775808 may stand as the operand after an operator whose left neighbour is a number. If it returns an error the text spells no expression; it panics on every text that spells an expression dividing by zero, and a panic means that some part of the text is an expression that divides by zero. All readings of a text have the same value.", "quantifier": "all byte strings", "why_tests_cant": "both directions speak about all byte strings: no unlisted text is accepted, and every listed one is", "anchors": ["_examples/formula/formula.go", "_examples/formula/precedence.go"]}
{"id": "C65", "title": "Exactly the texts that torpn.Parse accepts", "statement": "torpn.Parse returns a list exactly if the text spells an expression (as in C64) whose postfix form it is, and an error exactly if the text spells no expression.", "quantifier": "all byte strings", "why_tests_cant": "both directions speak about all byte strings", "anchors": ["_examples/torpn/torpn.go", "_examples/torpn/precedence.go"]}
{"id": "C66", "title": "Tracking numbers of traced parsers", "statement": "The parsers wrapped for tracing are numbered consecutively in the order in which they are made, continuing after the last number given out, so that no two of them have the same tracking number, in one grammar or in several built one after the other.", "quantifier": "all grammars, all states of the tracer, any nesting of DebugTrace", "why_tests_cant": "all grammars and states", "anchors": ["base/tracer.go", "base/base.go"]}
{"id": "C67", "title": "Exactly the texts that csv.Parse accepts", "statement": "csv.Parse returns a table exactly if the text, read character by character with U+FFFD for bytes that begin no character, spells this table, possibly followed by blank rows; it returns an error exactly if the text spells no table. A table is spelled by rows with line breaks between them; a row by cells with commas between them; a cell by quoted parts with blanks between and around them, or by text without comma and line break that does not begin with a quote and is trimmed. Up to blank rows at the end a text spells at most one table.", "quantifier": "all byte strings, including malformed UTF-8", "why_tests_cant": "both directions speak about all byte strings", "anchors": ["_examples/csv/parser.go"]}
{"id": "C68", "title": "Boxes over Go variables", "statement": "A ReflectionBox over a variable is a reference to it: after any calls on any boxes, a getter returns what was written last through any box on this variable (integers cut to the width of the variable, float32 rounded), as long as no later call wrote to it, to a part of it or to an array around it; variables that are not written to keep their values. A getter panics exactly if the value has another kind (GetString never panics, it describes the type instead), a setter exactly if the box is not on a variable, or the variable has another kind; SetAny(nil) always panics. Index on slices gives boxes on the elements, the same variable for slices that share their array; MapIndex gives a copy that cannot be set. No call changes the type of a variable.", "quantifier": "all memories, boxes and histories of method calls", "why_tests_cant": "all histories over all aliased boxes", "anchors": ["base/box.go"]}
{"id": "C69", "title": "AstSlice as a SliceLike: shared and copied elements", "statement": "Get returns the element at an index and panics iff there is none. Set(i, v) is seen by Get through exactly those slices and indices that denote the same variable, and panics iff there is no such element or v is not an Ast. Reslice(a, b) denotes the variables a..b-1 of the receiver, without changing anything. Copy(a, b) has the same elements as Reslice(a, b) at the time of the call, Make(l, c) has l zero ASTs, both in variables that no slice held by the program denotes. Whatever sequence of these methods a program calls, an element changes only by a Set of that very variable.", "quantifier": "for all memories, slices, bounds (including negative and too large ones), values and sequences of calls", "why_tests_cant": "Aliasing depends on which slices share an array and on capacities; a test can look at a few slices only, not at all other slices a program holds.", "anchors": ["base/ast.go:253-286", "base/types.go:4-19"]}
{"id": "C70", "title": "Radix 0 reads the integer literals of Go", "statement": "ParseIntRadix(0) and ParseUintRadix(0) accept exactly the integer literals of the Go language (decimal, 0b/0o/0x prefixes in either case, leading 0 for octal, single underscores between digits and after the prefix), with optional sign (Uint: optional '+'), whose value fits into 64 bits, and yield exactly that value; all other texts are errors (the empty text makes ParseUintRadix panic, see C24). A radix other than 0 and 2..36 is an error for every text.", "quantifier": "for all token lists and all byte strings", "why_tests_cant": "The set of literals is infinite, and so are the nearly correct ones (misplaced underscores, digits of a larger base, overflow by one).", "anchors": ["string/transformers.go:75-132"]}
{"id": "C71", "title": "Exported white space lists agree with the white space parsers", "statement": "CharClass(WhitespaceCharacters...), CharClass(WhitespaceNoLineBreakCharacters...) and CharClass(LineBreakCharacters...) match, consume and push the same as Whitespace(), WhitespaceNoLineBreak() and LineBreak(), up to the class name; CharClassN of the list takes the next character exactly when the parser does not.", "quantifier": "for all byte strings (also ill-formed UTF-8) and positions", "why_tests_cant": "The lists are compared as strings, the parsers compare decoded runes; agreement on every byte string, including ill-formed ones, needs the decoder's properties.", "anchors": ["string/const.go:4-12", "string/util.go:4-34", "string/parsers.go:167-224", "string/parsers.go:254-332"]}
{"id": "C72", "title": "Error reports of the formula and torpn examples", "statement": "If formula.Parse or torpn.Parse returns an error, the reported line and column are those of a position that is never behind the first byte at which the text goes wrong: the text in front of the position can be completed to an expression (for a number that is too large: the text in front of this number can, and the position is behind the number and its white space). 'Value required' is reported at the start or directly behind '(' or '-' and white space, 'Error in the expression after the binary operator' directly behind a binary operator and white space, 'Error in grouped expression' directly behind '('; strconv errors are range errors of a number that is no 64 bit integer. 'Parse failed' without a cause is reported only for an expression with something behind it, always at line 1 and column 1.", "quantifier": "for all byte strings", "why_tests_cant": "There are infinitely many wrong texts; that the reported position is never too far right is a statement about all completions of a prefix.", "anchors": ["_examples/formula/formula.go:25-167", "_examples/torpn/torpn.go:25-179"]}
{"id": "C73", "title": "Errors of the csv example", "statement": "csv.Parse returns 'Unexpected EOF' exactly for the texts that spell no table but do with one more double quote at their end; the reported position is the end of the text. It returns 'Parse failed' without a cause exactly for the texts in which something else than white space, a comma, a line break or the end follows a quoted cell; the reported position is always line 1, column 1. There are no other errors.", "quantifier": "for all byte strings", "why_tests_cant": "There are infinitely many wrong texts; which of two errors a text gets depends on all ways to complete it.", "anchors": ["_examples/csv/parser.go:18-151"]}
{"id": "C74", "title": "Grammars over characters are parsing expression grammars", "statement": "A grammar built from character parsers, Seq, Zero, Unmatched, End, FlatGroup, Group, First, LookAhead, LookAheadN, Repeat, Trans with transformers that succeed, and Indirect recognizes exactly what the corresponding parsing expression of Ford's PEG semantics recognizes: it matches and stops behind the characters that the expression consumes, it is unmatched exactly if the expression fails, and it runs forever exactly if the expression has no result. For example the grammar for a^n b^n c^n with a look-ahead accepts exactly the words of that form (n at least 1).", "quantifier": "for all grammars of these parsers, all byte strings and all positions", "why_tests_cant": "The grammars, the texts and the depth of recursion are unbounded, and a run that does not end cannot be observed.", "anchors": ["base/parsers.go:11-21", "base/parsers.go:42-121", "base/parsers.go:175-206", "string/parsers.go:12-255"]}
{"id": "C75", "title": "LL(1) grammars accept exactly their context-free language", "statement": "If one character of look-ahead decides between the alternatives of a grammar (the LL(1) condition with FIRST and FOLLOW sets) and it is not left recursive, then FlatGroup(Start(), g, End()) always ends, matches exactly the texts that the grammar generates when it is read as a context-free grammar with unordered choice, and is unmatched on all others. For example the usual recursive grammar of brackets accepts exactly the texts whose brackets close in order. Without the condition it is false: First(Seq(\"a\"), Seq(\"ab\")) does not accept ab.", "quantifier": "for all LL(1) grammars of character parsers, Seq, Zero, FlatGroup, Group, First, Repeat, Trans with transformers that succeed, and Indirect, and all byte strings", "why_tests_cant": "Grammars and texts are unbounded, and that an ordered choice never hides a word of the grammar is a statement about all of them.", "anchors": ["base/parsers.go:83-108", "base/parsers.go:175-206", "string/parsers.go:12-255"]}
{"id": "C76", "title": "The minimal parser of the introduction", "statement": "Parse of the minimal parser in the introduction returns the text itself for exactly the texts of one or more ASCII letters, as the regular expression ^[A-Za-z]+$ that the document gives; for every other text it returns 'Parse failed' at line 1, column 1. It never panics and always ends.", "quantifier": "for all byte strings", "why_tests_cant": "There are infinitely many texts; the comparison with the regular expression is over all of them.", "anchors": ["_docs/introduction.md:31-120"]}
{"id": "C77", "title": "Elementary parsers", "statement": "Error always fails with its message where it stands; Unmatched never matches; Zero always matches without moving and adds its ASTs in order, changing nothing but their place in the source; Start matches exactly at position 0; If is the one or the other of its parsers; Indirect ends as the parser it refers to.", "quantifier": "for all contexts, messages, ASTs and parsers", "why_tests_cant": "Contexts and parsers are arbitrary.", "anchors": ["base/parsers.go:11-80"]}
{"id": "C78", "title": "Evaluating torpn's output with a stack gives formula's value", "statement": "Whenever an ordinary stack machine (numbers are pushed, an operator replaces the two topmost numbers) gets through the list that torpn.Parse returns for a text, it ends with exactly one number, and formula.Parse returns that number for the same text. It gets through whenever formula.Parse returns a value - but this half is true only if no minus sign other than a subtraction stands before a group, in particular for texts without parentheses: the sign of a group becomes an item like that of a subtraction. 1--(2-3) and -(1-(2-3)) have the same output and different values, so no evaluator of the output can be right on both.", "quantifier": "for all byte strings; the second half for all texts that spell an expression whose minus signs stand before numbers", "why_tests_cant": "It relates two programs on all texts; tests compare them on a few.", "anchors": ["_examples/torpn/precedence.go:52-119", "_examples/formula/precedence.go"]}
{"id": "C79", "title": "A grammar finds in the middle of a source what it finds in the rest of the source alone", "statement": "Run in a context whose position is behind a prefix of the source, a grammar ends as it does on the rest of the source alone: it matches with the same ASTs but for their places, and the place it stops at is moved by the length of the prefix; or it is unmatched likewise; or it reports the same error at the moved position; or it panics likewise. What is on the stack of the context and what has been parsed before does not matter. This holds for all grammars without Start, look-behind and Match; WordBoundary and UnicodeWordBoundary may be used if the prefix ends with an ASCII character that is no word character and the rest starts with the start of a character. ProductionRule may be used if its rules and the functions of the user do not look at the places in the ASTs. In particular the expressions of the formula example are found, and evaluated, behind any such prefix as on their own.", "quantifier": "for all grammars of this kind, all sources, all positions, all contexts, all fuels", "why_tests_cant": "It relates two runs of every grammar on every pair of a text and a prefix.", "anchors": ["string/parsers.go", "base/parsers.go", "base/production.go:1-77", "string/transformers.go"]}
{"id": "C80", "title": "What Traverse returns, for all callbacks", "statement": "Ast.Traverse ends as a set of rules without any bound on depth and length says, for all callbacks and all trees, and in no other way: which callback decides about the result, in which state, what the node is before its way-back callback, what a failing child leads to (its node gets the failure without a jump; a list reports the child as it was before its traversal, a pair as it was returned). In mode Last a list is a program: an instruction goes on to the next one, Break behind the last one, Continue to the first one, in each case as many instructions further as the increment says; the value of the program is a list with the result of the last instruction that was no jump. A jump before the first instruction panics and a program may run forever. In the other modes increments and opcodes are ignored, and callbacks that replace each node on the way back rebuild the tree from the leaves upwards.", "quantifier": "for all callbacks (with any state), all trees, also badly tagged ones", "why_tests_cant": "All callbacks and all trees; programs without end.", "anchors": ["base/ast.go:92-245"]}
{"id": "C81", "title": "The two programs of the repository", "statement": "The program main.go prints the table of its literal, then the CSV text of that table, and exits with 0; with any other literal it does so with the table the text spells, or exits with -1 if it spells none. The function parseCsv that the wasm program exports to JavaScript returns for every string (or the empty text, without arguments) the table it spells, without blank rows at the end, and no rows if it spells none; parseFormula returns the value of the expression if it is at most 2^53 in absolute value and 0 if the text is no expression. Whoever calls them cannot tell an error from an empty table or from the value 0, and beyond 2^53 the values of different expressions become the same number.", "quantifier": "for all byte strings and all argument lists that start with a string", "why_tests_cant": "All texts; the rounding shows only for large values.", "anchors": ["main.go:10-22", "wasm/main.go:13-67"]}
{"id": "C82", "title": "When Match is safe on shared stacks", "statement": "Match(n) overwrites the n topmost ASTs in the array that saved contexts share. If every Match (and every group or loop that ends with one) replaces only ASTs that the same sequence has pushed before it, or comes last in its sequence, so that the sequence has matched when older ASTs are replaced, and every loop that replaces older ASTs needs at most one round and leaves at least as many ASTs as it takes, then the library behaves exactly as with immutable stacks: same results, errors and panics, and a context is intact after a parser that did not match. This covers operators by shift and reduce: FlatGroup(operand, ZeroOrMoreTimes(operator, operand, Match(3)(...))), also with First of several operators. Without these conditions it fails: if a loop needs two rounds, or leaves fewer ASTs than it takes.", "quantifier": "for all grammars of this kind (also recursive), all append growth policies, all memories, all inputs", "why_tests_cant": "Depends on capacities and every interleaving of append and rollback.", "anchors": ["base/match.go:15-44", "base/base.go:26-174"]}
{"id": "C83", "title": "Where a parser writes", "statement": "Whatever the grammar is, with Match and with any callbacks of BaseParser, a parser writes to no backing array that existed before except the one of the AstStack of the context it was called with, and the AstStack of its result is in that array or in a new one. So a parse with a new context changes nothing that earlier parses have returned, and results stay what they are during any number of later parses. With the same context used twice this fails: after the second parse the first result shows the ASTs of the second.", "quantifier": "for all grammars, transformers and callbacks that are functions of what they see, all append growth policies, all memories, all sequences of parses", "why_tests_cant": "All grammars and all memories; a stray write would show only in other data.", "anchors": ["base/base.go:26-174", "base/match.go:15-44", "base/production.go:9-77", "base/types.go:65-90"]}
{"id": "C84", "title": "ParseFloat reads the numbers that the parsers find, correctly rounded", "statement": "For every text that IntegerNumberStr, FloatNumberStr or NumericStr matches, ParseFloat yields the float64 nearest to the decimal number written there (underscores ignored; of two equally near ones the one with even significand; the sign is kept, also for zero), and an error if the number is at least half a unit beyond the largest float64. Exactly one float64 is nearest. A text of digits, points, signs and e that is not a decimal number is an error. The words inf and infinity (with optional sign) and nan in small or capital letters yield the infinities and a NaN. This fails for texts such as \"._\" and \"-._e5\", which FloatNumberStr matches although they have no digits (ParseFloat reports bad syntax), and for texts that have very many digits and an exponent above 100000 at the same time (a 1 written so is read as 0).", "quantifier": "for all texts, contexts and positions", "why_tests_cant": "Every decimal number of any length, including ties and the smallest and largest numbers.", "anchors": ["string/transformers.go:140-153", "extra/extra.go:76-180"]}
{"id": "C85", "title": "Which errors ParseInt and ParseUint report", "statement": "For every radix from 2 to 36 and every text: ParseIntRadix reports \"value out of range\" for an integer with optional sign that does not fit into int64, and also for every text whose digits behind the optional sign start with a number of more than 64 bits, whatever follows; ParseUintRadix does so for every text whose digits behind an optional plus sign start with a number of more than 64 bits. Every other text that is not such an integer is \"invalid syntax\". The error names the whole text. For a radix that is neither 0 nor in 2..36 the error is \"invalid base\", except that a text without anything behind the sign is \"invalid syntax\".", "quantifier": "for all texts, radices, lists of string ASTs and contexts", "why_tests_cant": "All texts and radices; the order of the checks matters only for long texts.", "anchors": ["string/transformers.go:74-138"]}
{"id": "C86", "title": "How many parser calls a parse needs", "statement": "The number of parser calls, as a ParserTracer counts them with Before, is bounded by a function of the size of the source that can be read off the grammar: one for a terminal, the sum for a sequence and for the alternatives of First, one more for each combinator around them, max times the body for a bounded Repeat, size plus one times the body for an unbounded Repeat whose body consumes input, and the number of tried distances times the body for LookBehind. The bound holds at every position, with every outcome (match, no match, error, panic). If Indirect is not used to come back to a rule from itself, the bound is a polynomial in the size of the source. With such recursion it can be exponential: First(FlatGroup(\"a\", E, \"b\"), FlatGroup(\"a\", E, \"c\"), \"d\") calls itself at least 2^(n+1) - 2 times on n a's, d and n c's, which it accepts.", "quantifier": "for all grammars without recursion, all sources and positions; for all n", "why_tests_cant": "Worst-case cost over all sources of all sizes, for all grammars.", "anchors": ["base/base.go:60-118", "base/parsers.go:122-160", "base/tracer.go:64-79"]}
{"id": "C87", "title": "csv.Parse needs linearly many parser calls", "statement": "Parsing a text of n bytes with the grammar of the csv example makes at most 103 n + 109 parser calls, as a ParserTracer counts them with Before, although quoted cells are tried before plain ones, white space is skipped before the quotation mark and skipped again by the plain cell, and the last cell of every line and the last line are parsed twice. This holds for every text, also for texts that are rejected or that end inside a quoted cell, and for every way to place tracers. A line between positions x and y costs at most 49 (y - x) + 51 calls.", "quantifier": "for all texts, all placements of tracers, all fuel values and all earlier events", "why_tests_cant": "Worst-case cost over texts of all sizes; benchmarks sample a few of them.", "anchors": ["_examples/csv/parser.go:30-128", "base/parsers.go:122-160", "base/tracer.go:64-79"]}
{"id": "C88", "title": "The texts of error messages and the names of constants", "statement": "The error that formula.Parse, torpn.Parse or csv.Parse returns has the text: a reason, '\\n --> Line L, Col C\\n' with the line and column of the blamed position as decimal numbers, and a picture of the place: the line before (if there is one) behind '   | ', the line of the position behind ' > | ', tabs as four spaces, and '^^^^' below the position. The reasons of formula and torpn are 'Value required', 'Error in the expression after the binary operator', 'Error in grouped expression', 'strconv.ParseInt: parsing \"...\": value out of range' with the number as it was given to strconv, and 'Parse failed' (always at line 1, column 1); those of csv are 'Unexpected EOF' (at the end of the text) and 'Parse failed' (at line 1, column 1); each is given only where C72 and C73 allow it. AstType.String and MatchStatusType.String give different names to different constants and 'Unknown' to exactly the values that are no constants.", "quantifier": "for all byte strings; for all values of the two types", "why_tests_cant": "All wrong texts: every reason at every position, with every kind of line break before it.", "anchors": ["_examples/formula/formula.go:145-167", "_examples/torpn/torpn.go:145-179", "_examples/csv/parser.go:130-151", "base/ast.go:42-71", "base/types.go:51-62", "base/util.go:7-75"]}
{"id": "C89", "title": "The number parsers take the longest literal", "statement": "IntegerNumberStr, FloatNumberStr, NumericStr, BinaryNumberStr, OctalNumberStr and HexNumberStr match at a position exactly if some beginning of the rest of the text is a literal of their language, they take the longest such beginning, and yield it without its underscores. The languages: optional sign; a whole number is 0 or starts with another digit; digits and underscores behind a point; an exponent with at least one digit; FloatNumberStr needs a point or an exponent, NumericStr does not.", "quantifier": "all texts and positions", "why_tests_cant": "Longest means longest among all literals and all texts; ordered choice could stop early for some text that no test contains.", "anchors": ["extra/extra.go:18-180"]}
{"id": "C90", "title": "The formula parsers make at most quadratically many parser calls", "statement": "While formula.Parse or torpn.Parse works on a text of n bytes, at most 184 n^2 + 645 n + 510 parsers are called, counting those that the production rules and the checks of ProductionRule call: also if the text is not a formula, and however deep its parentheses are nested. Backtracking does not make the time exponential.", "quantifier": "all texts", "why_tests_cant": "Grammars with recursion through ordered choice can be exponential (C86 shows one); that this grammar is not follows from what each alternative can have read when it fails, for every nesting depth, not from timing some inputs.", "anchors": ["_examples/formula/formula.go:25-167", "_examples/torpn/torpn.go:25-179", "base/production.go:29-77"]}
{"id": "C91", "title": "Grammars that differ only in their transformers recognise alike", "statement": "Two grammars that are the same except for transformers, none of which reports an error for what its parser matched, come to the same end on every source: both match and stop at the same position, or neither matches, or both fail with the same error at the same position, unless one of them panics or does not end. In particular formula.Parse and torpn.Parse refuse the same texts with the same error at the same line and column, except for texts on which formula.Parse panics first because it divides by zero.", "quantifier": "all grammars, all transformers that report no error, all sources", "why_tests_cant": "It is a statement about every pair of grammars and every text; a transformer could disturb what follows through the AST stack only in some combination of operators that no test combines.", "anchors": ["base/parsers.go:1-206", "base/base.go:1-174", "_examples/formula/formula.go:76-167", "_examples/torpn/torpn.go:76-179"]}
{"id": "C92", "title": "torpn's lists do not share memory", "statement": "The production rules of the torpn example build their lists by append, and the rule for the minus sign appends to the list of its operand, which may write to the array of that list. Nevertheless the lists they build contain, when the parser has finished, what they would contain if every append copied: the production rules write only to arrays of lists they were given and to new ones, no two lists in what they return share an array, and what one group of an expression has built stays as it is while the other groups are worked on; so the result for an expression with groups in groups is its postfix form. Applying the rule for the minus sign twice to the same list would change the first result.", "quantifier": "all lists of ASTs, all memories in which no two of the lists share an array, all ways in which append may choose capacities, all nestings of groups", "why_tests_cant": "Whether append writes in place or copies depends on lengths and on the growth policy of the Go runtime; interference would show up only for some lengths and some nestings.", "anchors": ["_examples/torpn/precedence.go:11-126", "base/production.go:29-77"]}
{"id": "C93", "title": "Grammars over slices are parsing expressions over values", "statement": "A grammar over a slice, built from the object parsers Any, End, ObjClass, ObjClassN, ObjClassFn and Seq, and from Zero, Unmatched, FlatGroup, Group, First, LookAhead, LookAheadN, Repeat, Trans with transformers that succeed, and Indirect, recognizes exactly what the corresponding parsing expression of Ford's PEG semantics over lists of values recognizes, provided the values of the slice can be compared with the constants of the grammar and the functions given to ObjClassFn return: it matches and stops behind the values that the expression consumes, it is unmatched exactly if the expression fails, it runs forever exactly if the expression has no result, and it neither reports an error nor panics. (Seq is an expression for as many values as it lists, whatever they are; see C30.) For example First(FlatGroup(ObjClass(op), E, E), ObjClassN(op)) before End accepts exactly the slices that are expressions in Polish notation, and it ends on every slice.", "quantifier": "all grammars of this form, all slices and comparisons that do not panic on them, all places in the slice, all fuels", "why_tests_cant": "Relates all recursive grammars to an independent semantics over all slices, including divergence.", "anchors": ["object/parsers.go:9-151", "base/parsers.go:11-206", "base/base.go:26-174"]}
{"id": "C94", "title": "The tokens spell what was consumed", "statement": "Consider grammars over strings built from the character terminals (Any, Seq, SeqI, CharRange and CharRangeN, CharClass, CharClassN and CharClassFn, the predefined classes and the Unicode classes), Start, End, the word boundaries, Error, Unmatched, Zero with ASTs that hold no text, the combinators, recursion through Indirect, and the transformers Concat, GroupingTransform, SetOpCode, ChangeClassName, SetOpCodeAndClassName, TransformError and user-written ones that keep the text. If such a grammar matches, then the strings in the ASTs that it appended, in order and also those inside of groups, make up exactly the text between the old and the new position: nothing is lost, doubled, reordered or invented, whatever was tried and given up on the way and whatever went on in look-arounds. The only difference can be U+FFFD in place of a byte that starts no well-formed character. So two parses with the same ASTs have consumed the same text. Without Zero and Concat the tokens lie in the source one after the other without gaps, each at the SourcePosition it carries; with Concat the SourcePosition can be wrong, because Concat of no ASTs yields position 0 and an outer Concat takes over the position of its first AST.", "quantifier": "all such grammars, sources (also ill-formed ones), starting positions, fuels", "why_tests_cant": "It ranges over all recursive grammars with backtracking and all byte strings.", "anchors": ["string/parsers.go:11-541", "string/transformers.go:19-39", "base/transformers.go:17-94", "base/base.go:26-174", "base/parsers.go:11-206"]}
{"id": "C95", "title": "Well-formed UTF-8 in, well-formed UTF-8 out", "statement": "Grammars as in C94 whose literals (Seq, CharClass) are well-formed UTF-8, and whose SeqI literals are well-formed and do not contain U+FFFD: if the source is well-formed from the current position on, a match stops at a character boundary, never inside of a character, and the strings of the new ASTs make up exactly the bytes consumed; so a parser that reaches the end of a well-formed text leaves ASTs that spell the text. And with any of the library's transformers (given well-formed arguments), also Trim, ParseInt, StringFromRune, ToSlice and so on: whatever the bytes of the source are, also ill-formed ones, every string in the resulting ASTs is well-formed UTF-8. Without the condition on SeqI it is false: SeqI(\"k\\uFFFD\") takes a Kelvin sign and half of the next character from a well-formed source.", "quantifier": "all such grammars with recursion, all sources, starting positions, fuels", "why_tests_cant": "It ranges over all recursive grammars and all byte strings, well-formed or not.", "anchors": ["string/parsers.go:11-541", "string/transformers.go:10-197", "base/transformers.go:11-193", "base/base.go:26-174"]}
{"id": "C96", "title": "A grammar accepts only what its context-free reading generates", "statement": "Take any grammar over strings that spells a parsing expression (character terminals, Seq, Zero, Unmatched, End, FlatGroup, Group, First, Repeat, LookAhead, LookAheadN, Trans, recursion through Indirect). Read it as an ordinary context-free grammar: alternatives without order, look-aheads as the empty word. Whenever the parser matches, the characters it consumed are a word generated by that grammar; if it is followed by End, the whole text is one. No condition such as LL(1) or the absence of left recursion is needed: prioritised choice and look-ahead can only reject words, never let a wrong one in.", "quantifier": "all such grammars and rules, sources (also ill-formed ones), starting positions, fuels", "why_tests_cant": "It ranges over all recursive grammars and all texts.", "anchors": ["base/base.go:26-174", "base/parsers.go:11-206", "string/parsers.go:11-541"]}
{"id": "C97", "title": "Left recursion never returns", "statement": "If every rule of a set begins, through FlatGroup, Group, First, LookAhead, LookAheadN, Repeat or Trans, by calling a rule of the set through Indirect, where only parsers that always match (in a First: parsers that never match) stand in front of that call, then no rule of the set, and no grammar that gets to such a call, returns on any source: it neither matches nor is unmatched nor reports an error. In particular `E = First(FlatGroup(Indirect(E), …), …)` never returns, whatever the other alternatives are, and optional white space in front of the call does not help. The library has no check for that.", "quantifier": "all environments of rules, sets of rules, sources, contexts and fuels", "why_tests_cant": "Non-termination cannot be observed, and it is claimed for all inputs.", "anchors": ["base/parsers.go:11-20", "base/base.go:26-174", "base/parsers.go:31-206"]}
{"id": "C98", "title": "Depth of nested parser calls", "statement": "Count, at every moment of a parse, the parser calls that have begun and not returned (the Before calls of a ParserTracer without their After or Panic). Without recursion through Indirect the count never exceeds the number of levels of the grammar, for every source, whatever its size, however the parse ends. If the functions given to Indirect come back to themselves (or to functions of the same or greater rank) only after consuming input, the count is at most linear in the size of the rest of the source, with constants read off the grammar. Linear growth does happen: nested brackets need three calls per bracket, and nothing in the library limits it. For the examples: csv.Parse never nests more than 14 calls; formula.Parse and torpn.Parse nest at most 22 n + 41 calls on n bytes, those of the production rules included.", "quantifier": "for all grammars with the stated shape, all sources, positions and fuels, all earlier logs; for all n in the lower bound", "why_tests_cant": "a test sees the stack depth of the inputs it tries; the bound is for all inputs and sizes", "anchors": ["/repo/base/tracer.go:64-79", "/repo/base/base.go:26-173", "/repo/base/parsers.go:11-20", "/repo/_examples/formula/formula.go:87-143"]}
{"id": "C99", "title": "Production rules implement any table of operators", "statement": "For every table of operators (levels from tight to loose; each level has infix operators that associate to the left or to the right, prefix operators, postfix operators or conditionals x ? y : z), ProductionRule with one Precedence per level, written like those of the examples and with Rtol set for infix operators that associate to the right, for prefix operators and for conditionals, computes on the tokens of every expression of the table the value that the precedence and associativity of the operators give. If an operator of the expression fails, it ends with the error, or the panic, of a failing operator of the expression. The rules of the formula example are an instance.", "quantifier": "all tables (any number of levels and operators, any spellings that are not repeated in the same class), all transformers that evaluate the operators, all operand types, all expressions of the table, all token lists that spell them, all contexts", "why_tests_cant": "A test runs one table on some expressions; that no combination of levels, associativities and nesting is reduced in the wrong order is a statement about infinitely many tables and expressions.", "anchors": ["base/production.go:29-77", "_examples/formula/precedence.go:9-111", "_examples/formula/helper.go:8-36"]}
{"id": "C100", "title": "LL(1) grammars need linearly many parser calls", "statement": "If one character of look-ahead decides how to go on in a grammar (the LL(1) condition of C75), there is no left recursion, there are finitely many different rules, and every part of every rule can match something, then the number of parser calls (Before calls of a ParserTracer when everything is traced) is at most linear in the number of bytes ahead: there is one constant for all sources, positions, fuels and earlier logs, also for the grammar between Start and End, which decides its language (C75). In general, without the LL(1) condition, the engine calls at most W parsers for each parsing expression that is tried by Ford's semantics, where W is the depth to which combinators are nested. The condition on useless parts is necessary: a grammar that only violates it needs at least 2^(n+1) - 2 calls on a text of 2n + 1 bytes.", "quantifier": "all grammars with the stated conditions, whatever is traced in them; all sources, positions, fuels and earlier logs", "why_tests_cant": "a test measures some inputs; a bound for all inputs of a given size, for every grammar of a class, is a statement about infinitely many runs", "anchors": ["base/base.go:26-173", "base/parsers.go:11-120", "base/tracer.go:64-79"]}
{"id": "C101", "title": "No parser is called behind the first wrong character", "statement": "In a grammar that spells parsing expressions (C74) without look-ahead, where every part of every rule can match something, parsers are called only at positions where the text read so far can be continued to a word of the grammar read as a context-free grammar (the correct-prefix property, seen through the Before calls of a ParserTracer). So if the text up to some character can be continued but not including it, no parser is called behind that character; and what comes behind that character makes no difference: on two sources that agree up to and including it, the grammar is unmatched on both or matches the same characters. Where one character of look-ahead decides (LL(1)), the part consumed on the way is exactly the longest one that can be continued. The same holds between Start and End.", "quantifier": "all grammars with the stated conditions, whatever is traced in them; all sources, positions, earlier logs and all fuels that are enough", "why_tests_cant": "whether a text can be continued to a word is a question about infinitely many texts, and the claim is made for every call on every source in every grammar of the class", "anchors": ["base/base.go:26-173", "base/parsers.go:11-120", "base/tracer.go:64-79"]}
{"id": "C102", "title": "Every parsing expression grammar can be written", "statement": "Every parsing expression grammar (Ford: empty text, sets of characters, sequence, ordered choice, repetition, not-predicate, nonterminals) can be written with Zero, CharClassFn, FlatGroup, First, ZeroOrMoreTimes, LookAheadN and Indirect, part by part: from any position of any source, the parser written for an expression matches a text exactly if the expression does, is unmatched exactly if the expression fails, runs forever exactly if the expression has no result, and does nothing else. If the grammar is LL(1) without left recursion, what is written between Start and End accepts exactly the language of the context-free grammar; if moreover it is finite and without useless parts, with a number of parser calls linear in the length of the source.", "quantifier": "all parsing expression grammars with any number of nonterminals and any sets of characters; all sources, positions and fuels", "why_tests_cant": "the claim is about every grammar, and 'runs forever' cannot be observed", "anchors": ["base/parsers.go:11-120", "base/base.go:26-173", "string/parsers.go:227-258"]}
{"id": "C103", "title": "Sums need a quadratic number of parser calls", "statement": "The quadratic bound of C90 cannot be improved but for its constants: for the sum 1+1+...+1 of k+1 ones, which has n = 2k+1 bytes, formula.Parse and torpn.Parse make at least k²+3k parser calls. So there are arbitrarily long texts with at least n²/4 calls, and no linear function of the length bounds the number of calls. (The production rules are tried from the first position again after every rewriting, and the rules of higher precedence are tried on the whole list first.)", "quantifier": "all numbers of operands, all linear bounds, all tracer settings and logs, all fuels with which the run ends", "why_tests_cant": "a growth rate is a statement about arbitrarily long texts", "anchors": ["base/production.go:29-77", "_examples/formula/formula.go:25-167", "_examples/formula/precedence.go", "_examples/torpn/torpn.go:25-179", "_examples/torpn/precedence.go"]}
{"id": "C104", "title": "One parser call for each expression tried; backtracking may be exponential", "statement": "If a parsing expression grammar is written with the combinators as in C102, a run that ends calls exactly as many parsers as expressions are tried, in Ford's sense, to find the result: nothing is called that is not needed and nothing is remembered. The number is determined by the grammar and the text whenever there is a result. So the number of calls may be exponential: A <- '(' A ')' / '(' A ']' / 'x' matches the text of k '(', an 'x' and k ']' (2k+1 bytes) with at least 2^k calls, and no polynomial in the length bounds the calls. That is due to how the grammar is written: A <- '(' A (')' / ']') / 'x' has the same results on every text and needs at most 9n+4 calls for n bytes.", "quantifier": "all parsing expression grammars, all sources, positions, tracer settings and logs, all fuels with which the run ends; all k; all polynomials", "why_tests_cant": "an exact count for every grammar and a growth rate for arbitrarily long texts", "anchors": ["base/base.go:26-173", "base/parsers.go:11-120", "base/tracer.go"]}
{"id": "C105", "title": "A parser runs forever exactly if it comes back to the same place", "statement": "Let a finite parsing expression grammar be written with the combinators as in C102. The parser for an expression runs forever on a text exactly if, on the way to the result, some expression has to be tried again at the same place before it has a result: left recursion (perhaps behind expressions that match nothing there) or a repetition of something that matches nothing there. Otherwise its calls are never nested deeper than w*(k+1), where w is the number of expressions written in the grammar and k the number of characters left; so whether a parser ends on a text can be decided by running it up to that depth. In infinite grammars coming back still means running forever, but a parser may run forever without coming back.", "quantifier": "all finite parsing expression grammars (for one direction also infinite ones), all expressions, sources, positions, tracer settings, fuels", "why_tests_cant": "non-termination cannot be observed by running; the equivalence covers all grammars and texts", "anchors": ["base/base.go:26-173", "base/parsers.go:11-120"]}
{"id": "C106", "title": "Opening brackets nest parser calls without limit", "statement": "For a text that starts with k opening brackets, formula.Parse and torpn.Parse nest at least 7k+1 parser calls, whatever follows the brackets and however the parse ends. So the linear bound of C98 cannot be improved but for its constants, also not for texts that are accepted: the value of a 1 in k pairs of brackets (2k+1 bytes) is found with between 7k+1 and 44k+63 nested calls. For every depth d there is a text of at most d bytes that needs more than d nested calls: neither the library nor the examples limit the depth of recursion, so the only limit is the size of the Go stack.", "quantifier": "all numbers of brackets, all texts behind them, all tracer settings and logs, all fuels with which the run ends; all depths", "why_tests_cant": "a growth rate for arbitrarily long texts and every continuation of the brackets", "anchors": ["base/base.go:26-173", "base/parsers.go:11-120", "_examples/formula/formula.go:87-167", "_examples/torpn/torpn.go:87-179"]}
{"id": "C107", "title": "Parses in different goroutines do not disturb each other", "statement": "Any number of goroutines parse at the same time, each with a context of its own from NewStringParserContext, and with any grammars; they may use the same parser functions, with Match and with any callbacks. Their reads, writes and allocations are interleaved in any order. Whenever one of them has returned, what is seen of its result, then and at any later time, is what it would have given if it had run alone. A goroutine that the scheduler does not forget gets to its end whatever the others do. So csv's and formula's parsers, package variables that are built once, may be used by many goroutines (the variable in which Indirect keeps its parser is set without synchronisation; memory is taken to be sequentially consistent, and then all goroutines find the same parser there). This does not hold for goroutines that share a context: the ASTs that one of them has returned can be overwritten by another.", "quantifier": "all numbers of goroutines, all grammars, callbacks, texts and fuels for each of them, all contents of the memory at the start, all schedules, all strategies for the growth of slices", "why_tests_cant": "tests (also with the race detector) see a few of the interleavings; the claim is about all of them, for every grammar", "anchors": ["base/base.go:26-174", "base/parsers.go:11-206", "base/match.go:15-44", "base/production.go:9-77", "base/types.go:65-90", "_examples/csv/parser.go:1-151", "_examples/formula/formula.go:87-167"]}
{"id": "C108", "title": "Indirect calls its function once and keeps the parser", "statement": "Indirect(fn) calls fn when the parser is used for the first time and not before, keeps the parser in a variable, and uses it from then on; fn builds a new copy of its grammar with new Indirect parsers in it. If each fn builds the same grammar whenever it is called, this is not observable: every parse gives the result of a parser that calls fn each time, whatever was parsed before with the same parsers and however those parses ended (no match, error, panic). Whatever the functions return, also if it is something else each time: a parse calls a function once for each variable that it sets, it sets no variable twice, and repeating a parse, also with other parses in between, gives the same result again and calls no function.", "quantifier": "all grammars, functions passed to Indirect, contexts, sequences of parses and contents of the variables", "why_tests_cant": "all grammars, functions and histories; the variables are not accessible from outside", "anchors": ["base/parsers.go:11-20", "base/base.go:4-23"]}
{"id": "C109", "title": "What stands behind a greedy repetition or behind a beginning of itself is out of reach", "statement": "A sequence in which a repetition without an upper bound (ZeroOrMoreTimes, OneOrMoreTimes, Repeat with a negative maximum) is directly followed by the parsers that it repeats matches no text at all. Looking behind such a repetition with LookAheadN for what it repeats makes no difference, nor does a second repetition of the same parsers that may match nothing. In First, an alternative that begins with all the parsers of an earlier FlatGroup alternative can be left out; so can Seq(s+t) behind Seq(s), and in CharClass a text behind one of its beginnings.", "quantifier": "all grammars (sequences: of parsers that do not look at ASTs below their own), repetition bounds, texts, contexts and positions of the alternatives", "why_tests_cant": "\"matches no text at all\" and \"can be left out\" quantify over every text and every grammar put into the places", "anchors": ["base/parsers.go:83-112", "base/parsers.go:116-128", "base/parsers.go:175-200", "string/parsers.go:53-75", "string/parsers.go:163-188"]}
{"id": "C110", "title": "The value of a formula put together from formulas", "statement": "If formula.Parse returns v for the text s and w for the text t, then it returns v for s with white space before and behind it and for (s); -v for -(s); v+w, v-w, v*w for (s)+(t), (s)-(t), (s)*(t), with the wrap-around of int64; for (s)/(t) the quotient truncated toward zero, or it panics with a division by zero if w is 0. A plus sign needs no brackets: s+t has the value v+w whatever the formulas s and t are; for a minus sign only the second formula needs them. If torpn.Parse returns the items l for s and l' for t, then for (s) op (t) it returns l, l' and the operator. Without brackets, products and differences need not be those of the parts, and the parts of a bracketed whole need not be formulas.", "quantifier": "all texts of any length that the parsers accept, all white space", "why_tests_cant": "relates the results for unboundedly many texts, of any size and nesting", "anchors": ["_examples/formula/formula.go:40-167", "_examples/formula/precedence.go:1-111", "_examples/torpn/torpn.go:40-179"]}
{"id": "C111", "title": "The table of csv texts put one below the other or side by side", "statement": "If csv.Parse returns the rows A for the text s and B for the text t, then for s, one or more line breaks, and t it returns the rows of A followed by the rows of B, provided that s ends with neither white space nor a double quote and t does not start with a line break; line breaks at the end of such an s make no difference. If A and B are single rows, then for s, a comma, and t it returns one row with the cells of both. Without the provisos rows may appear or get lost.", "quantifier": "all texts (well-formed UTF-8) of any length that csv.Parse accepts, all runs of line breaks", "why_tests_cant": "relates the results for unboundedly many texts of any size, quoted and unquoted", "anchors": ["_examples/csv/parser.go:1-151"]}
{"id": "C112", "title": "Pipelines of transformers that can be shortened", "statement": "In the list of transformers given to Trans, at any place, and with the same result, errors and panics: Concat directly before Concat, Trim, TrimStart, TrimEnd, ParseIntRadix, ParseUintRadix or ParseFloat can be left out; TrimStart and TrimEnd, in either order, are Trim, also on text that is not well-formed UTF-8; Trim before or after any of the three leaves only Trim; SetOpCode and ChangeClassName, in either order, are SetOpCodeAndClassName; of two adjacent SetOpCode, ChangeClassName or SetValue only the last counts; SetOpCode, ChangeClassName, SetOpCodeAndClassName, SetValue, Pop and Erase have no effect directly before Erase; Roll directly before or after another transformer can be left out.", "quantifier": "all parsers, all transformers before and after, all parser contexts and inputs", "why_tests_cant": "an equality of two parsers, for every parser and every surrounding pipeline, including failing and panicking runs", "anchors": ["string/transformers.go:19-155", "base/transformers.go:23-193", "base/parsers.go:203-206"]}
