# Formal model of substrait-cpp in Lean 4

The subject is the C++ source in `/repo` (substrait-io/substrait-cpp), read as text.
The model is in `lean/Verif/`, one Lean module per C++ unit.

## Layout

* `Verif/Model/*.lean` holds the model: total, computable Lean functions that
  transcribe the C++ functions. Each definition cites file and lines.
* `Verif/Spec/*.lean` holds small specifications, written without the model's helpers.
* `Verif/Lemmas/*.lean` holds helper lemmas.
* `Verif/Prop/*.lean` holds the property theorems, each with a non-vacuity `example`.

## Conventions of the model

* `Outcome α` has three constructors: `ok a` (normal return), `throw e` (a C++
  exception) and `ub` (undefined behaviour, such as an out-of-range `operator[]`
  or a null dereference). A property that says "no undefined behaviour" is a
  theorem that the outcome is not `ub`.
* `std::string` is `List Char`. The code works on bytes. A `Char` below 256 stands
  for one byte, and the `"C"` locale is assumed for `isdigit`, `tolower`, `isalpha`.
* `size_t` arithmetic that can wrap is modelled with the wrap made explicit.
* `int` is `Int` with an explicit range check where the code can leave the range.
* `std::shared_ptr` to immutable data is the data. A pointer that can be null is
  modelled with an explicit null case.
* `std::unordered_map` is used only through lookup, insert and `operator[]`, so it
  is an association list or function. No result depends on iteration order unless
  the definition says so.

## Trusted base

* Lean's kernel. The axioms of each theorem are at most `propext`,
  `Classical.choice` and `Quot.sound`.
* The transcription from C++ to Lean, which was done by hand.
* Libraries are not modelled inside: protobuf, ANTLR runtime, abseil, fmt,
  yaml-cpp and the file system. Where the code depends on one of them, the model has a
  parameter or a small stated definition, listed below under "External behaviour".

## Plan per property

| Id | What is modelled | How it is proved |
|----|------------------|------------------|
| C01 | `decode`, `findNextComma`, `decodeType` on character lists | induction on the type tree; the printer is a specification function. The code is wrong for a nullable container with a nullable part: negation by witness, and an iff on the exact set of good types |
| C02 | same | `decode` factors through trim; case map commutes with splitting |
| C03 | same, with `ub` | classification of every path; witnesses for `map<i32>` and `list<x>` in concrete mode; no `ub` in parameterised mode |
| C04 | the splitting loop | induction on the text, specification by depth counting |
| C05-C08 | all `isMatch` overloads | structural induction; witnesses for struct nullability and `fixedbinary<L1>` |
| C09 | all `signature` overloads | unique-readability argument by induction |
| C10, C11 | registry as map name to list, lookup | list induction, histories as lists of operations |
| C12, C13 | `tryMatch` | case analysis, list induction; signed/unsigned comparison explicit |
| C14 | type variant map | induction over histories |
| C15 | path computation and load loop, file reader is a parameter | list lemmas |
| C16-C18 | byte loops of DecimalLiteral | loop invariants, modular arithmetic |
| C19, C20 | string helpers | list induction |
| C21 | detection regexes as predicates on the text, encoders as parameters | case analysis |
| C22 | file system as a map with truncate/write steps | trace of the steps; negation by witness |
| C23 | loader as function of the library result | case analysis; negation for oversize |
| C24-C26 | symbol table state and operations | refinement to an abstract log by induction over histories |
| C27 | name table | case analysis, witness |
| C28 | locations as sum of pointers | order axioms |
| C29 | result object and listener | induction over histories |
| C30-C32 | normaliser on a plan tree | induction on trees, sorting lemmas |
| C33-C36 | literal printing, escape scanner, number reading, enum tables | induction on text, complete tables by `decide` |
| C52, C53 | reader of constants (`Model/Literal.lean`) | cases over constants and types |
| C37, C48 | type printer and text-to-proto conversion | induction on types |
| C38 | field lookup by index and by name, with outer scopes | list search lemmas, induction on scope depth |
| C39 | expression printer, lexer, parser of the expression grammar, visitor (`Model/Expression.lean`) | induction on expressions; the image of the reader for what is lost |
| C57 | first and second pass over conditions | mutual induction on parse trees, iff |
| C58 | the first visitor of text plans, root section | induction over the plan details, iff |
| C59 | schema section, look-up of schemas | token lists of lines, first definition with a name |
| C60 | sources section, look-up of sources | token lists of lines, failing parses for all names |
| C61 | all sections of a text plan | one token list per section, composed with C39, C40, C45, C46 |
| C62 | the converter from binary, the printer, the reader and the writer of binary plans together | names are counted per base, one context per relation shown equal on both sides, trees cut into pipelines and put together again; subqueries are numbered per relation and their relations put back by number; the relations around a relation are shown to be the same for the printer (chains of owners) and the reader (steps along pipelines) |
| C63 | a semantics of plans on rows, parametric in tables and functions | the two plans of C62 are alike up to numbers of functions and absent emits; evaluated by induction on the tree |
| C64 | messages as labelled trees; every function of BasePlanProtoVisitor.cpp as a list of steps over fields; both visitors as hooks on one walk | induction on trees; facts on the table of steps against the table of fields are decided for all kinds; the second visitor simulates the first. False for relations in fields that are not visited (witness); an exact description of what is found for all plans |
| C65 | the whole way of C62, composed with itself any number of times; `std::sort` is any function that rearranges (nothing breaks) or that also sorts (the text settles) | the plan that comes back is again one that text can express; the names made up the second time are those of the first; induction on the number of trips. Without overloads the first text is a fixed point; with at most nine overloads of a name the second one is; with ten the text never settles (witness with a cycle of nine texts) |
| C66 | the lexer of C37 with its two modes; `Relaid` relates two texts with the same tokens and other gaps | every rule for words, signs, numbers and URIs gives the same match when what is behind the match is cut off, and when a blank, a slash or a brace is put behind it; strings by their own lemmas; induction over the tokens. Every text without lexical errors is gaps and tokens, so it is `Relaid` to its tokens with single blanks. Witnesses for the two exceptions (comments in the mode EXTENSIONS, for all comments; strings that end in a backslash) |
| C67 | the reader of C62 from the parts of a text on (`fromDetails`); `Reordered` relates two lists of parts, `Tidy` says that names are not ambiguous | every order is reached by exchanging two neighbours (`Steps`). Exchanging two parts exchanges their groups of symbols and the numbers of their places; the passes over the relations only ask for symbols by name and for the columns, tables and files of a place, and get the same answers (`Exchanged`). The texts of C62 are `Tidy` because made up names, files and functions are unique. Witnesses for the order of relations and for ambiguous names |
| C68 | `Tools.transform` (the `main` of the transformer tool), `loadFromText`, `textResult`: the library's own text reader and printer (C62) put into `loadPlan`/`savePlan` (C20, C22); `Unmistakable` says that a text has no quoted JSON word and no line like one of protobuf text | the text of every plan has a line that starts like a text plan (proved for whatever is printed), so that the two conditions are all that the guess needs; then C20, C22 and C62 are put together. Witnesses for both conditions: a table called `relations`, and one whose name goes on after a line break like protobuf text |
| C69 | lexer, parser and reader of C62; `Same` says that two texts are equal in small letters, `spelled` lists the names, numbers and strings of a text | the lexer and every rule of the parser commute with writing all texts in small letters (`Blind`); a part in small letters and what is spelled in it give back all that the reader looks at (`bareP`, `putP_spelled`), and the reader does not see the difference (`fromDetails_bare`). Witnesses for `root`, files and `_enum` |
| C70 | reader of C62; `namesUsed` lists the names in relations, expressions and pipelines, `Unused` says that a definition gives none of them | the symbols of the definition are put into the table at one place (`Sec.ins`), which no reader of the other parts notices (`planAt_ins`); the readers ask for the names in the tree only (`readPass_asking`), the graph differs in names that are no relations only (`Pipe.Near`). Witness for a column that is called like a relation |
| C71 | reader of C62; `renPart` gives the relations, sources, schemas, functions and computed columns of a part of a text other names, `Renames` says that different names stay different and that all other names are kept; a name with a dot is renamed part by part, which is no restriction (`spell_spelling`) | each pass of the reader and the writer gives the same results up to names for the renamed parts and table (`visitPlan_ren`, `visitAll_ren`, `readPass_ren`, `relabelBody_ren`), and the binary plan has none of these names. Witnesses for a source called like a column and for a subquery whose relation is called `q_enum` |
| C72 | printer of C62; `renumberPlan σ τ` changes the numbers of functions by `σ` and those of URIs by `τ` where they are declared and used | expressions, relations and measures are printed with the same errors, and with the same text if there are none (`likewise_expr`, `likewise_relation`): an undefined function is printed with its number, but then there is an error. Names, fields and the graph do not depend on the numbers (`nameTree_num`, `nodes_num`, `skeleton_num`), and the set of used spaces is the image of the other (`setInsert_num`, `blocks_num`). Witness for a number that two functions have |
| C73 | printer of C62; `Shuffled` exchanges neighbouring declarations with different short names and numbers, `Redeclared` adds the URIs, `UrisApart` says that the URIs of functions are told apart by their numbers; the sort is any correct `std::sort` (`Ext.Sorts`) | the table of functions is a permutation with the same first match for every number, and the counters of unique names agree (`paired_shuffled`); the blocks depend on the set of described functions only (`blocks_same`). Corollary for any permutation if short names and numbers are different. Witnesses for overloads (other names) and for a URI with two numbers (other functions are missing, C42) |
| C74 | printer of C62 on all `Input`s; `Outcome.Defined` (not `ub`), `relations` counts the relations | every function of the printer is defined on all inputs: the indexing ones because of the comparison before it, the recursive ones by induction on the message; `pipelineToPath` ends because the relations of any plan get different names (`named_any`: the bases of the made-up names do not end in digits), so that the graph is the tree (`path_ends`, `lines_end`). Cases: a plan with nothing right is refused; the bound on the steps cannot be better |
| C75 | reader of C45 and C62 on all texts; `Belongs` (table of kinds and details), `Holds` (what is written against what is in the message, counted), `Fits` | invariant over the details (`detail_adds`: without an error a detail belongs to the kind, the kind stays, and each count grows by what the detail is), then over measures, emits, both passes, and the assembly of the binary plan (`attach_written`; names of subqueries do not count). Cases: misplaced schema and filter, second filter; `count` twice is kept out of the statement (D117) |
| C76 | Model/Exceptions: `vformat` (fmt with text arguments), `raise`, `what`, and `decode` with messages | refinement: forgetting the messages gives the model of C01–C04 (`decode_kind`); induction over the nested parts for which part is named; a text survives `vformat` exactly if it has no braces (`unsupported_names`, by length). `_partial` because of braces (D118); witness `braces_misreported` |
| C77 | models of C62 and C63; `SaySame`: both plans are the same as one plan (`SamePlan`) | from the round trip of C62: reading is a function, so plans with one text are both the same as what is read; results by C63. `_partial`: for plans that text can express; columns without a type have one text for all names (`different_plans_same_text`) |
| C78 | models of C41 and C62; `Uses`: inputs and subqueries; `WithinItself`: its transitive closure at one relation; `Part`: what becomes part of the plan | what is built is accessible under `Uses` (induction on the room); if the room is used up there is a chain of that length, and the pigeonhole principle gives a loop, so that one more than the number of relations is enough. `_partial`: no relation within itself; otherwise there is no end (`within_endless`, `own_query_endless`) |
| C79 | model of C62; `SoundPlan`: what the text must not do, each condition for something the program does not test (intervals in braces have all fields; a measure is a call or has an identifier; groupings are by columns of the inputs; pipelines name relations only; no relation within itself) | every step of both passes is defined, by induction on constants, expressions, details and relations, then C78 for the last step. `_partial`: `SoundPlan`; `text_undefined` has a text against each condition |
| C80 | models of the lexer and the parser (C46, C62); `FormedPart`: the types of a section are `WellFormed` (C48) | every token the lexer makes is good (names are not type words, numbers are numbers), every parser keeps the rest good and builds formed parts, by induction on the rounds; this takes the `WellFormed` condition out of C48 |
| C81 | Model/Debug: lines of relations and fields, `std::setw` with `std::left` | injectivity: texts are cut at the ends of lines, lines at indentation, marks, blanks and dots (induction on the lists). `_partial`: names are words (no blank, dot or end of line; `dotted_name`) and there are no alternative expressions (`alternative_misplaced`, `alternative_wrong`) |
| C82 | Model/CommandLine: both `main` functions over the outcomes for the files; `convertedOf`: the library in planconverter (C62, C68) | induction on the files; the text by C62. `_partial`: no exception leaves the library (`converter_stops`); the exit code and the output of planparser are not as stated (`converter_exit_wrong`, `parser_mixed`) |
| C83 | all parsers of Model/Parser, Relation, Sections, Extension and Pipeline; Spec/Braces says what paired braces and sections are, without the parser | one lemma for each grammar rule on the tokens it takes; the end of a section is unique, so cuts inside of it are refused |
| C84 | the lexer with both modes, on a text and a start of it | every rule finds the same match if the cut is behind it; what is left of a cut token has no closing brace, so the text is refused by C83. `_partial`: the start has no backslash and no backtick; otherwise false (`cut_anywhere_fails`) |
| C85 | the visitors of C64 with their members as state that exceptions leave behind; `finally` as a statement on runs | refinement: by induction on messages, the visitor with members does what the one of C64 does that has the relation as an argument. It justifies that simplification of C64 |
| C86 | the loop over the links of C64, with a number of rounds | addresses of relations differ, so the link of a relation is the one to its only input; the number of relations inside falls with each round. Every relation is the end of at most one link (counting links against relations, by induction on messages), so lines of different subqueries do not meet |
| C87 | the members that hold the parent and the start of a pipeline, from the notes and links of C64 and the marks of C86 | marks of different subqueries do not meet (C86), so what is found is the parent of the subquery whose line the relation is on. `_partial`: relations on the line; from all others nothing is found (`query_parent_none`), also if they are in a subquery (`below_join_lost`) |
| C40 | relation tree, pipeline extraction, rebuilding | induction on trees |
| C41 | pipeline graph state | invariant over histories |
| C55 | binary plan from the graph | C40; witnesses for what is lost |
| C42 | function/space output | list and ordering lemmas; witness for dropped functions |
| C43 | schema and emit (`Model/Schema.lean`) | list lemmas |
| C56 | the same for whole trees, printed and read again | mutual induction on trees, against a reading that replaces numbers by fields |
| C44 | filter decision table | invariant over clause histories |
| C54 | constant reader | structural, by the errors collected |
| C45 | relations without their inputs: printer, grammar, both passes (`Model/Relation.lean`) | lines that lex, parse and read back, one lemma per kind of line; `forget` for what is printed alike; the image of the reader for what no text stands for |
| C46 | uuid reading | list lemmas |
| C47 | numbering visitor | induction over declarations |
| C49 | name tables | range lemmas |
| C51 | raw string reading | list lemmas; witness |

## External behaviour

* `glob`, `getopt_long`: `glob` gives a list of files for an argument, empty if there is none; there are no options.
  (`Model/CommandLine.lean`)
* `std::setw` with `std::left`: the text is filled up with blanks on the right, once; `std::left` stays.
  (`Model/Debug.lean`)
* yaml-cpp: a node is a scalar, a sequence, a map or undefined; indexing a map gives the
  first entry with the key or an undefined node; `as<T>` of a node that is not a scalar of
  that form throws; iterating an undefined node does nothing. (`Model/Function.lean`)
* `std::getline`: splits at newlines; the text after the last newline is a line only if it
  is not empty. (`lastLine`)
* `absl::SimpleAtoi<uint128>`: blanks around the text are skipped, a plus is allowed, a
  minus is refused, values from 2^128 on are refused. (`simpleAtoiU128`)
* `std::regex_search` with the default grammar: `^` holds only at the start of the text, `.`
  is not used by the three patterns, `[^]` classes as written. The matcher is modelled by
  derivatives and proved equal to the language of the pattern. (`Model/Regex.lean`)
* protobuf: the JSON printer writes an object whose members have their `json_name`s; the text
  printer writes one `name: value` or `name {` per line; the wire form of a length-delimited
  field is tag byte, length, bytes. (`Spec/Io.lean`) The parsers and printers themselves are
  parameters (`Decoders`, `Encoders`).
* files: opening for writing truncates; a failed write leaves what was written before.
  (`Model/Io.lean`, `Env`)
* pointers: two live objects have different addresses; `std::less` on pointers is a total
  order. Locations hold an address as a number. (`Model/Location.lean`)
* `std::sort`: some arrangement of the elements in which none is less than an earlier one; the
  order of equivalent elements is open. (`Spec/Normalizer.lean`, `IsSort`)
* ANTLR lexer: longest match, first rule on ties, `+?` loops take the shortest text.
  (`Model/Lexer.lean`)
* `absl::SimpleHexAtoi`: blanks around the text are skipped, a sign and `0x` are allowed,
  overflow is refused. (`simpleHexAtoi`)
* ANTLR parser: the alternatives of a rule are told apart by the next tokens as written in
  `Model/Parser.lean`; a name takes underscores as long as they join name parts. Recovery after
  a syntax error is not modelled: the result is `none`.
* date library (`date/date.h`): `sys_days` to year, month, day by the published algorithm; the
  year is a 16-bit number; `%Y-%m-%d` reads a sign and up to four digits, up to two, up to two.
  (`Model/Date.lean`)
* printing and reading of floating point numbers, and reading of times and time stamps, are
  parameters (`Literal.Lib`); the theorems that need it assume that a printed number is a
  numeral or one of the four words for numbers that are not finite (`Lib.Numerals`).
* Protobuf enumerations: the numbers and names of `JoinType`, `AggregationPhase`,
  `SortDirection` and the operators of subqueries are those of algebra.proto; `X_Name` gives the
  empty text for a number without a name. (`Model/Enum.lean`)
* Results of relations (C63): the Substrait specification, restated in `Spec/Results.lean`: filters
  keep rows in order, joins and cross products list the left rows in order, an aggregate gives one
  row per group in the order of first appearance, sorting is a parameter that rearranges. Other
  orders are the same up to the parameters, as both plans are evaluated by the same function. A
  subquery is evaluated for each row, with the rows around it at hand; what its four kinds make of
  the rows are parameters.
* algebra.proto and plan.proto (C64): which fields a message has and which of them are in one oneof,
  restated in `Spec/Traverse.lean` (`allowed`, `oneof`). Addresses of messages are numbers; that they
  are different is a hypothesis where it is needed.

## Defects found

Each entry is a theorem in the model. The line numbers are in `/repo`.

* D1 (C01) `ParameterizedType::decode`, Type.cpp:254-261: the position of `?` is searched
  in the whole text (`rfind`), so a nullable container with a nullable part, such as
  `list?<i32?>`, is rejected. `decode_text_full_fails`, `decode_text_iff`.
* D2 (C03) Type.cpp:60-148: in concrete mode too few or non-numeric parameters are
  undefined behaviour (`map<i32>`, `varchar<i32>`, `decimal<i32,2>`).
  `decode_concrete_ub`, `decodeByName_concrete_ub_iff`.
* D3 (C03) Type.cpp:47-58: `list<abc>` decodes to a list with a null element.
  `decode_null_component`.
* D4 (C05) A type decoded in the default mode, such as `list<i32>`, does not match itself.
  `match_refl_decl_fails`, `match_refl_decl_iff`.
* D5 (C06, C07) `Struct::isMatch`, Type.cpp:395-409, ignores nullability.
  `match_accepts_full_fails`, `match_nullable_struct_fails`.
* D6 (C08) `ParameterizedFixedBinary::isMatch`, Type.cpp:437-446, accepts no concrete type.
  `match_fixedBinary_never`.
* D7 (C12) Function.cpp `tryMatch`: a variadic function with several declared arguments
  compares every actual argument with the first declared one only. `variadic_only_first`.
* D8 (C12) the same code: if the first declared argument is an enumeration or type argument,
  every actual argument is accepted. `variadic_enum_accepts_all`.
* D9 (C12) a negative `max` (and any value above the `size_t` range after conversion) is no
  bound at all. `variadic_negative_max`.
* D10 (C12) a variadic function that declares no argument reads `arguments[0]`.
  `variadic_no_args_ub`.
* D11 (C15) Extension.cpp: a base path without a slash is used whole as the directory.
  `path_without_slash`.
* D12 (C15) Extension.cpp: a return expression that ends in a newline decodes the empty text.
  `lastLine_spec`.
* D13 (C17) DecimalLiteral.cpp:48-60: negative numerals are refused although the literal
  holds and prints them; numerals from 2^127 to 2^128-1 are accepted and print as negative
  numbers. `fromString_negative`, `fromString_big_wraps`.
* D14 (C16) DecimalLiteral.cpp:83-86: values longer than 16 bytes are cut to 128 bits when
  printed. `toBaseString_long`.
* D15 (C20) StringManipulation.cpp:12-20: a string does not start or end with itself.
  `startsWith_self`.
* D16 (C21) Io.cpp: the JSON form of a plan without any of the listed members (an empty plan,
  a plan with a version only) is taken for binary. `saved_json_undetected`.
* D17 (C21) a proto text or text file with a string such as `"relations"` is taken for JSON.
  `saved_as_json`, `saved_protoText_as_json`, `saved_text_as_json`.
* D18 (C21) a binary file whose field 1 is a string of 32 characters that begins with a
  section word is taken for text. `saved_binary_misdetected`, `saved_binary_as_text`.
* D19 (C21) section words in capitals are not detected although the lexer ignores case.
  `capitals_undetected`.
* D20 (C22) Io.cpp `savePlan`: the file is truncated before the plan is encoded, so a plan
  that cannot be encoded destroys the old file. `save_error_destroys`, `save_error_leaves`.
* D21 (C23) planloader.cpp: the size is an `int32_t`; buffers from 2^31 bytes on get a
  wrong size. `load_size_fails`.
* D22 (C23) planloader.cpp `save_substrait_plan` returns a pointer into a destroyed
  status. `save_message_unreadable`.
* D23 (C23) the same function ignores a failure to decode the buffer and writes whatever was
  decoded. `save_ignores_decode_failure`.
* D24 (C24) SymbolTable.cpp: updates search the symbol by name, location and type, so with two
  such symbols the wrong one is changed. `update_hits_other`.
* D25 (C25) SymbolTable.cpp:75-84: bases ending in a number collide with numbered names; names
  defined without `getUniqueName` are not considered. `uniqueNames_collide`,
  `uniqueName_ignores_definitions`.
* D26 (C26) SymbolTable.cpp `setParentQueryLocation`: the symbol's own old index is counted.
  `parentIndex_twice`.
* D27 (C27) SymbolTable.cpp `symbolTypeName`: the name table lacks the last entries; a root reads
  behind the end. `symbolTypeName_fails`.
* D28 (C30, C31) ReferenceNormalizer.cpp:308-315: declarations of types become functions without
  name and overwrite the mapping of function 0. `normalize_type_not_idempotent`,
  `normalize_type_meaning`.
* D29 (C31, C32) ReferenceNormalizer.cpp:57-240: window functions, comparison functions of sorts,
  arguments, sorts and filters of measures, groupings, switch, or-lists, nested values, fields of
  expressions, and everything in write, ddl, window, exchange, expand and nested loop join keeps
  its old numbers. `normalize_window_meaning`, `normalize_measure_argument`,
  `normalize_window_not_canonical`.
* D30 (C31) the same lines: absent inputs are created. `normalize_creates`.
* D31 (C33) PlanPrinterVisitor.cpp:34-44: backslashes are not escaped when a string is printed.
  `string_roundtrip_fails`.
* D32 (C34) SubstraitPlanRelationVisitor.cpp:1595-1632: malformed `\x` and `\u` escapes are kept or
  dropped without an error, signs and blanks count as digits. `escapeText_silent`,
  `escapeText_signs`.
* D33 (C34) the same lines: unicode escapes give big-endian bytes, not UTF-8.
  `escapeText_not_utf8`.
* D34 (C46) SubstraitPlanRelationVisitor.cpp:1541: a uuid literal holds the 32 digits as text.
  `uuid_bytes_fail`.
* D35 (C51) SubstraitPlanRelationVisitor.cpp:1474: a raw string in two backticks whose content
  begins with a backtick loses characters. `raw_string_fails`.
* D36 (C48) SubstraitPlanTypeVisitor.cpp: the length of `fixedbinary<N>` is dropped.
  `typeText_fixedBinary_fails`.
* D37 (C48) the same file: lengths and precisions are read with `std::stoi`, so `fixedchar<1.5>`
  and `decimal<-3,2>` are accepted; further parameters are ignored. `typeText_rejects_fails`.
* D38 (C48) a nullable list, map or struct with a nullable part is refused (follows from D1).
  `typeText_full_fails`.
* D39 (C37) PlanPrinterVisitor.cpp `visitType`: a type of unspecified nullability is printed
  like a required one. `printType_unspecified_fails`.
* D40 (C35) PlanPrinterVisitor.cpp:577-579 `visitLiteral`: booleans are printed as `1` and `0`,
  which the reader takes for numbers without a type. `boolean_fails`.
* D41 (C35) same function, 663: the question mark comes after the type, so nullable `decimal`,
  `varchar` and `fixedchar` literals do not parse (`nullable_decimal_fails`) and nullable
  strings, dates and intervals come back as not nullable without an error (`nullable_lost`).
* D42 (C35) same function, 602: a date is converted to a 16-bit year, so far dates come back as
  other dates without an error (`date_wraps`); years with five digits are refused.
* D43 (C52) SubstraitPlanRelationVisitor.cpp:1807-1842 `visitIntervalYear`/`visitIntervalDay`
  read fields 0 to 2 without asking how many there are. `interval_reads_past_end`.
* D44 (C53) same file, 1729 `visitNumber`: a number with a type that is not numeric gives an
  empty literal without an error. `number_silently_dropped`.
* D45 same file, 1789-1805 `visitStruct` takes every map literal (`{1_i8: 2_i8}_struct<i8>`) for
  a struct without fields and reports nothing. (`visitConst`, case `mapLit`)
* D46 (C36) SubstraitPlanRelationVisitor.cpp:811: a join without a type is printed as
  `JOIN_TYPE_UNSPECIFIED`, which the reader refuses. `join_unspecified_refused`.
* D47 (C36) PlanPrinterVisitor.cpp:1117-1144: an unspecified sort direction is printed as nothing,
  so the field comes back without a direction. `direction_unspecified_lost`.
* D48 (C36) PlanPrinterVisitor.cpp:46-67, 327-427, 951, 1192: numbers that are no enumerator are
  printed as nothing or as another enumerator without an error. `invocation_unknown_changed`,
  `unknown_printed_empty`, `unknown_operator_lost`.
* D49 (C44) SubstraitPlanRelationVisitor.cpp `visitRelationFilter`: unknown words before `filter`
  are reported twice and the clause is then taken for a plain filter, which is set.
  `meaningless_words_accepted`.
* D50 (C42) SymbolTablePrinter.cpp:332-405: spaces that share a URI, or have none, are equivalent in
  the set of used spaces; all but one are left out with all their functions.
  `functions_complete_iff`, `functions_dropped`, `functions_dropped_unknown`.
* D51 (C42) SymbolTablePrinter.cpp:366: a function in an extension space without a URI (which the
  grammar allows) makes the text printer leave with `std::bad_optional_access`.
  `functions_written_iff`, `space_without_uri_fails`.
* D52 (C42) SymbolTablePrinter.cpp:466-468: a function of an unknown space is declared with the
  reference 0, which is a valid anchor of another space. `binary_resolves_iff`, `binary_wrong_space`.
* D53 (C42) names that are reserved words, signatures with reserved words, names without a colon and
  URIs with ports or other characters are printed but cannot be read. `unwritable_names`.
* D54 (C54) SubstraitPlanRelationVisitor.cpp:1789-1805: a map literal with a struct type becomes an
  empty struct without an error. `map_as_struct_lost`.
* D55 (C41) SubstraitPlanPipelineVisitor.cpp:79-149: `a -> b; b -> a;` and `a -> b; a -> c;` are
  accepted: only the inner relations of a pipeline are checked. Whether a section is accepted depends
  on the order of its pipelines. `cycle_accepted`, `two_consumers_accepted`, `order_matters`.
* D56 (C41) SubstraitPlanPipelineVisitor.cpp:18-31: the loop check compares the whole text of a node
  with the name, so a reference with a schema gets past it. `loop_with_schema_accepted`.
* D57 (C41) SubstraitPlanPipelineVisitor.cpp:101-146: a pipeline that names a symbol which is not a
  relation dereferences a null pointer. `other_name_undefined`.
* D58 (C55) SymbolTablePrinter.cpp:1093-1131: a pipeline that does not end in `root` loses its last
  relation; of several inputs of `root` only the first is used. `no_root_dropped`,
  `second_root_dropped`.
* D59 (C55) SymbolTablePrinter.cpp:550-858: joins and crosses that are not the end of exactly two
  pipelines lose their inputs; subqueries in reads, and the inputs of exchange, write and ddl
  relations, are never added. `join_in_the_middle_dropped`, `read_subquery_dropped`.
* D60 (C55) a section with a cycle, which is accepted, makes the conversion to a binary plan recurse
  without end. `cycle_diverges`.
* D61 (C40) ProtoUtils.cpp:21-45, SubstraitPlanVisitor.cpp:308-317: hash joins, merge joins, exchanges,
  writes, ddl statements and extension relations are printed with a type that cannot be read.
  `kinds_unreadable`.
* D62 (C43) InitialPlanProtoVisitor.cpp, SubstraitPlanRelationVisitor.cpp `applyOutputMappingToSchema`:
  an output mapping without fields counts as no mapping, and one whose fields are all out of range
  leaves all fields visible. `emit_nothing_gives_all`, `emit_out_of_range_gives_all`.
* D63 (C38) a name is searched from the innermost scope outwards and from the last field to the
  first; a field hidden by another of the same name is read back as the other one.
  `outer_reference_captured`, `same_name_captured`.
* D64 (C38) SubstraitPlanRelationVisitor.cpp `findFieldReferenceByName`: `emit schema.column` of a
  grouped column, as the printer writes it, is resolved to a number near 2^31 and refused.
  `emit_of_grouped_column_lost`.
* D65 (C38) SubstraitPlanRelationVisitor.cpp:692, 742: a grouping by a field that is already grouped
  and has no schema reads behind the end of the input fields. `group_twice_undefined`. A measure of
  such a field gets a number past the input fields. `measure_of_grouped_field_moves`.
* D66 (C38) a `read` of a text plan has its columns only in its output, so the filter printed inside
  a read can never be read back. `read_filter_refused`.
* D67 (C56) the converter adds no field for a grouping that is not a plain reference, and takes an
  aggregate without fields to give the fields of its input. `computed_grouping_lost`,
  `empty_aggregate_gives_input`.
* D68 (C56) PlanPrinterVisitor.cpp: `emit` is printed for projects and aggregates only; the output
  mapping of other relations is lost without an error. `read_emit_lost`.
* D69 (C39) PlanPrinterVisitor.cpp, expressions: the failure behaviour of a cast, the options and
  the deprecated `args` of a call, inner segments, list elements, map keys and the root type of a
  reference are not written, so they are lost without an error. `printed_alike`,
  `unproducible_lost`, `unproducible_kinds`.
* D70 (C39) masked references and references without a kind are printed as a `const char*` or
  nothing in an `any` that is cast to `string`, which throws. `printed_throws`.
* D71 (C39) an if-then without clauses is printed as `IFTHEN()` and read back as an expression that
  is not set. `empty_ifThen_lost`.
* D72 (C39) an argument whose text ends with `_enum` is taken for an enumeration, also if it is a
  column. `enum_column_captured`.
* D73 (C39) a function called `ifthen` in any case is read as an if-then.
  `ifThen_function_captured`.
* D74 (C39) a column called `null_…` is read as a null constant. `null_column_captured`.
* D75 (C57) SubstraitPlanRelationVisitor.cpp:552-570: a filter whose condition is itself a subquery
  (`EXISTS`, `UNIQUE`, `IN`, a scalar one) is refused in the first pass, also the text the printer
  writes for it. `condition_refused`, `printed_condition_refused`; a cast of one or an if-then with
  one throws. `condition_accepted_iff`.
* D76 (C45) not printed at all, so lost without an error: the output mapping of relations other than
  aggregates and projects, the sorts of measures, the bounds between grouping sets, whether a filter
  of a read is a best effort filter. `relation_printed_alike`, `relation_silently_changed`.
* D77 (C45) the grammar has no offset for fetches, the visitor has no projection, no options of
  measures, no comparison functions of sorts, one grouping set only, and makes grouping references to
  outer relations references to the relation itself. `unproducible_relations`.
* D78 (C45) PlanPrinterVisitor.cpp:1146-1148: a comparison function in a sort replaces the whole text
  of the relation by the name of the function, without an error. `comparison_replaces_sorts`.
* D79 (C45) sort direction 0 is printed as no direction and read as a sort field without a kind.
  `unspecified_direction_lost`.
* D80 (C45) a read with a filter and a best effort filter is printed with two filters of the same
  kind; the second is refused. `second_filter_refused`.
* D81 (C45) `post_join <expression>` is no line of the grammar. `post_join_unreadable`.
* D82 (C45) SubstraitPlanSubqueryRelationVisitor.cpp:1018-1079: a source whose name is not known, and
  a virtual or extension table, is dropped without an error. `source_ignored`.
* D83 (C45) SubstraitPlanSubqueryRelationVisitor.cpp:974-977: the report for a measure that is no
  call dereferences `ctx->id(0)`, null if there is no identifier. `measure_undefined`,
  `measure_column_undefined`.
* D84 (C45) a measure with a name and no phase: the name is taken for the phase (`ctx->id(0)`), and
  the measure has no name. `measure_name_taken_for_phase`.
* D85 (C58) SymbolTablePrinter.cpp:209-218: names of roots are written as they are; a name with a
  comma and a line end is read as two. `root_name_split`.
* D86 (C58) a plan with two roots with names is printed, and its text is refused.
  `roots_refused`.
* D87 (C59) SubstraitPlanSubqueryRelationVisitor.cpp:645-684: the schema is looked up by name among
  all symbols; a column of an earlier schema with that name is found first, and the relation silently
  gets the schema the column is in. `schema_captured`.
* D88 (C59) SymbolTablePrinter.cpp:247-254: names without types, types without names and the
  nullability of the struct are not printed. `kept_iff`.
* D89 (C59) SymbolTablePrinter.cpp:75-79: errors in types of schemas are dropped; a struct is printed
  as `UNSUPPORTED_TYPE`, the names after it move to other columns. `nested_schema_lost`.
* D90 (C60) SubstraitPlanSubqueryRelationVisitor.cpp:1034-1042: if a column, table, function or schema
  has the name of a source, the cast throws. `source_captured`, `source_found`.
* D91 (C60) SymbolTablePrinter.cpp:281-283: names of tables are not escaped; one name can be read as
  two. `table_split`.
* D92 (C60) SymbolTablePrinter.cpp:310-314: no comma is written between files, which the grammar
  wants: no text with two files can be read. `files_many_refused`, `unreadable_plan`.
* D93 (C60) a table without names and local files without a file are printed, and cannot be read.
  `table_empty_refused`, `files_empty_refused`.
* D94 (C60) SubstraitPlanParser.g4:150-164 has no arrow and no dwrf, which are printed.
  `format_refused`.
* D95 (C60) SubstraitPlanVisitor.cpp:477-511: `uri_path`, `uri_path_glob` and `uri_folder` are parsed
  and ignored; the file has no path. `path_lost`.
* D96 (C60) SubstraitPlanVisitor.cpp:477-511: the details of a file go to the first symbol with the
  text of the file; the same file in a second source is an empty item. `file_twice`.
* D97 (C60) SymbolTablePrinter.cpp:51-72, 284-327: one virtual table, extension table or file without
  a path or format, and nothing of the plan is printed. `plan_printed`.
* D98 (C62) InitialPlanProtoVisitor.cpp:213, SymbolTable.cpp:73-82: names are made unique per base, but the
  made up `add2` is not compared with a function that is called so. The plan that comes back calls
  another function, without an error. `shadowed_function`.
* D99 (C62) SubstraitPlanSubqueryRelationVisitor.cpp: two columns with the same name in a base schema are
  both read as the second one, without an error. `same_columns`.
* D100 (C62) SubstraitPlanRelationVisitor.cpp:595-607: a column called `schema2` in the first table gives
  the second table the schema of the first one, without an error. `other_schema`.
* D101 (C62) a plan with a column or a table called like a function (`equal`, `sum`, ...) or with a table
  called like a relation (`filter`, `sort`, ...) is printed as a text that is refused.
  `same_names_refused`.
* D102 (C63) InitialPlanProtoVisitor.cpp:669-686 ("TODO -- Add support for groupings made up of complicated
  expressions"): a grouping that is no column of the input adds no column. All columns after it are
  off by one: a project above that emits the group comes back as one that emits the measure, without
  an error, and the results differ. `computed_groups`.
* D103 (C64) BasePlanProtoVisitor.cpp:30-36: the needles of an IN subquery are not visited; nor are the
  old arguments of window functions (394-412) and the scatter and bucket expressions of exchanges
  (1109-1121). Relations of subqueries in these places get no symbol, no schema and no link, without an
  error. `needle_not_noted`.
* D104 (C64) InitialPlanProtoVisitor.cpp:191-194: a subquery whose relation is not set has no symbol;
  `*symbol` uses a null pointer. `unanswered_null`.
* D105 (C63) InitialPlanProtoVisitor.cpp:517-575 (all references count as local): in a
  correlated subquery a project of a column of the outer relation is taken for the column of its own
  input with the same number. The text emits the wrong column, the plan that comes back has other
  results, without an error. `outer_column_replaced`.
* D106 (C62) PipelineVisitor.cpp:46-56, PlanPrinterVisitor.cpp:121-134: the pipeline of a subquery ends at
  the first join, so a correlated condition below a join is not printed; above the join it is.
  `related_below_join`.
* D107 (C65) SymbolTablePrinter.cpp:381-399 with SymbolTable.cpp:73-82: functions of a space are printed in
  the order of their names in the text, as strings, and get new names in the order they are printed.
  `equal10` is in front of `equal2`, so with ten overloads of a function each trip through text gives
  the overloads other names, and the text never stays as it is. `text_never_settles`. With two overloads
  in two spaces the second text can differ from the first. `text_not_fixed`.
* D108 (C66) SubstraitPlanLexer.g4:125-138: the mode `EXTENSIONS` has a rule for white space but none for
  comments. A comment between `extension_space` and the brace is a lexical error, for every comment
  (`layout_extensions`). Everywhere else comments are allowed.
* D109 (C66) SubstraitPlanLexer.g4:112-113: the closing quote of a string that ends in a backslash may also be
  read as an escaped one, and the longest match wins. A quote in a comment behind such a string moves the end
  of the string into the comment (`layout_backslash`).
* D110 (C67) SubstraitPlanRelationVisitor.cpp:339-365 and SubstraitPlanSubqueryRelationVisitor.cpp:395-424: both
  passes read the relations in the order of the text, and the fields of the inputs are taken as they are at
  that moment (`addInputFieldsToSchema`, 272-310). With `f` before its inputs and one input of a cross join
  behind it the second pass sees only a part of the fields: a filter on `s.a`, field 2, becomes a filter on
  field 0, the column of another table. Nothing is reported. `order_relations`. Other wrong orders are refused.
* D111 (C67) SubstraitPlanRelationVisitor.cpp:594-607 with SymbolTable.cpp `lookupSymbolByName`: base schemas are
  looked up by name among all symbols, columns too, and the columns at the place of the symbol are taken. A column
  with the name of a schema, in another schema that stands before it, silently gives the table the columns of that
  other schema; behind it, it does no harm. `order_names`.
* D112 (C68) Io.cpp:19-20 with the printer: a text plan with a name (of a table, a column or a file) that has a line
  break followed by `relations {` (or `extensions {` and so on) is taken for protobuf text when it is loaded. Names are
  printed in quotes with their line breaks, and the guess does not know of quotes. `text_file_as_protoText`; with D17,
  of which `text_file_as_json` is the end-to-end version, these are the only two ways a printed text is not recognised
  (`text_file_partial`).
* D113 (C69) SubstraitPlanVisitor.cpp:19, 244-249 with SubstraitPlanPipelineVisitor.cpp:36-50: the grammar takes the
  keyword `ROOT` in any case, but the section `root` defines a relation called `root` in small letters. A pipeline that
  ends in `ROOT` makes a stub of that name, and nothing leads to `root`: the plan silently gets an additional relation
  without contents in front of the right one (so it does if the pipeline ends in any other name). `case_root`.
* D114 (C70) SubstraitPlanVisitor.cpp:265-299 `visitRelation`: the name of a relation is looked for among all
  symbols, so that a text in which some schema, even one that no relation refers to, has a column called like a
  relation is refused: "relation ... already defined". `unused_clash`.
* D115 (C71) SubstraitPlanSubqueryRelationVisitor.cpp:1214-1219 `visitExpressionFunctionUse` (and the same code in
  SubstraitPlanRelationVisitor.cpp:1165): an argument is an enumeration if its text ends in `_enum`, so that
  `not(EXISTS IN SUBQUERY q_enum)` silently becomes a call with the enumerator `EXISTSINSUBQUERYq` and the subquery,
  with its relation, is missing in the plan; with the name `q` it is there. `rename_enum`.
* D116 (C72) Two functions of a binary plan with the same number are not reported (InitialPlanProtoVisitor.cpp:203-225,
  PlanPrinterVisitor.cpp:257-272): every call of the second one is printed as a call of the first one, without an
  error. `number_twice`.
* D117 (C75) `count` or `type` written twice in a relation is not reported
  (SubstraitPlanSubqueryRelationVisitor.cpp:824-871, 1103-1126): the last one silently replaces the first, while a
  second filter or join condition is an error. `common` and `advanced_extension` in a relation are accepted and
  ignored. `count_twice`.
* D118 (C76) The messages of exceptions are format strings (Exceptions.h:89-98), and `ParameterizedType::decode` pastes
  the type text into one (Type.cpp:296): a text with braces, such as `set<{}>`, ends in `fmt::format_error`, which is no
  `SubstraitException`; with doubled braces another text is named. `braces_misreported`, `unsupported_names`.
* D119 (C76) A wrong length of `fixedbinary` is reported as one of `binary` (Type.cpp:177-180: the traits of another
  kind are used). `length_names`.
* D120 (C78) A relation whose subquery is itself, or whose subquery leads back to it, is accepted by the parser:
  SubstraitPlanPipelineVisitor.cpp:173-246 adds the subquery without looking for loops. Making the binary plan then
  recurses until the stack overflows (SymbolTablePrinter.cpp:550-1085). `within_endless`, `own_query_endless`.
* D121 (C81) SymbolTable.cpp:253-265: the line of a generated field shows the alternative expression of another field.
  The key of `generatedFieldReferenceAlternativeExpression` is the place among the generated fields
  (InitialPlanProtoVisitor.cpp:535-544), but it is looked up with the number of the line, which counts the input fields
  too and has already been increased. `alternative_misplaced`, `alternative_wrong`.
* D122 (C82) converter/Tool.cpp:17-64 and parser/Tool.cpp:12-65 end with `EXIT_SUCCESS` whether or not the files could be
  read or converted. An argument of planconverter that stands for no file is passed over without a message: the result
  of `glob` is not looked at, and it is never freed. An exception ends planconverter, and the other files are not
  looked at. `converter_exit`, `converter_exit_wrong`, `converter_stops`.
* D123 (C82) parser/Tool.cpp:17-33 writes errors to the standard output, where the text would be. planconverter writes a
  text even if there are errors. `parser_mixed`.
* D124 (C83) SubstraitPlanParser.g4:19-21: nothing marks the end of a text plan. A text that was cut between two sections,
  also an empty one, has no syntax error, and a plan without the sections that are missing is made of it. Examples beside
  `cut_refused`.
* D125 (C84) SubstraitPlanLexer.g4:112-119: a quotation mark behind a backslash may also end the string, and the backticks of
  one kind of string may be part of another. So a text that was cut inside such a string can be accepted, with another
  string in it. `cut_anywhere_fails`.
* D126 (C85) InitialPlanProtoVisitor.h:99: `outerRelations_` is pushed to and popped from but never read; visitors with and
  without it do the same (`outer_unused`).
* D127 (C87) PlanPrinterVisitor.cpp:121-134: `pipelineStart` is written along only inputs, so from a relation below a join or set of a
  subquery the relation around the subquery is not found, although the relation is inside the subquery: the cause of D106, here for
  all plans. `below_join_lost`.
