{"id": "C01", "title": "Concrete type text decodes back to the type it spells", "statement": "Writing any concrete type (scalar, decimal, varchar, fixedchar, fixedbinary, list, map, struct, each optionally nullable with '?' placed directly after the base name) in the documented text syntax and calling ParameterizedType::decode(text, false) returns exactly that type.", "quantifier": "every concrete type tree of any depth and width, every parameter value in int range, every placement of nullability", "why_tests_cant": "the set of type trees is infinite; the comma/bracket splitting and the '?' search are non-local, so a nested shape not in the test table can be split wrongly", "anchors": ["src/substrait/type/Type.cpp: ParameterizedType::decode, findNextComma, decodeType", "include/substrait/type/Type.h: TypeTraits"]}
{"id": "C02", "title": "Type decoding ignores letter case and surrounding blanks", "statement": "decode(s) depends only on s with leading/trailing white space removed, and for every string whose decoding yields a concrete type, changing the case of any letters yields the same type.", "quantifier": "all strings, all case changes, all white-space paddings", "why_tests_cant": "the space of strings is infinite; case folding is done on one copy of the text and splitting on another", "anchors": ["src/substrait/type/Type.cpp: ParameterizedType::decode", "src/substrait/common/StringUtils.h: trim"]}
{"id": "C03", "title": "Type decoding is total: a type or an exception, never undefined behaviour", "statement": "For every input string and both values of isParameterized, decode terminates and either returns a non-null type whose components are all usable or throws; it never reads outside the parameter vector and never dereferences a null pointer.", "quantifier": "all strings, both modes", "why_tests_cant": "malformed text is unbounded; the fault needs a particular combination of base name and parameter count/kind", "anchors": ["src/substrait/type/Type.cpp: ParameterizedType::decode, decodeType, decodeLengthBaseType"]}
{"id": "C04", "title": "Parameters are split exactly at the top-level commas", "statement": "The text between the outer angle brackets is cut exactly at the commas that are not inside a nested pair of brackets: the pieces joined by ',' give the text back and no piece contains a comma at nesting depth zero.", "quantifier": "all strings, all nesting depths", "why_tests_cant": "nesting depth is unbounded", "anchors": ["src/substrait/type/Type.cpp: findNextComma, decode"]}
{"id": "C05", "title": "Every concrete type matches itself", "statement": "t.isMatch(t) is true for every concrete type t, and for the type obtained by decoding the same declaration twice.", "quantifier": "all concrete type trees", "why_tests_cant": "tree size unbounded", "anchors": ["src/substrait/type/Type.cpp: *::isMatch"]}
{"id": "C06", "title": "A non-nullable declared type never accepts a nullable argument", "statement": "If declared.isMatch(actual) is true and declared is not a wildcard then, at the top and at every nested position, the declared component is nullable or the actual component is not nullable.", "quantifier": "all pairs of declared/actual types", "why_tests_cant": "two unbounded trees", "anchors": ["src/substrait/type/Type.cpp: Struct::isMatch, List::isMatch, Map::isMatch", "include/substrait/type/Type.h: nullMatch, TypeBase::isMatch"]}
{"id": "C07", "title": "Matching of concrete types is exactly 'same shape and parameters, nullability weakened'", "statement": "For concrete declared and actual types, isMatch is true if and only if the two types are equal after deleting nullability and the declared one is nullable wherever the actual one is. In particular matching is transitive and antisymmetric.", "quantifier": "all pairs and triples of concrete types", "why_tests_cant": "infinite relation", "anchors": ["src/substrait/type/Type.cpp: *::isMatch"]}
{"id": "C08", "title": "Parameterised declarations accept every concrete instance", "statement": "A declaration with symbolic parameters such as varchar<L1>, fixedchar<L1>, fixedbinary<L1>, decimal<P,S>, list<any>, struct<..>, map<..> accepts every concrete type of that class with compatible nullability whatever the parameter values are; 'any...' accepts every type; any other bare placeholder accepts no concrete type.", "quantifier": "all declarations and all concrete types", "why_tests_cant": "infinite relation", "anchors": ["src/substrait/type/Type.cpp: Parameterized*::isMatch, StringLiteral::isMatch"]}
{"id": "C09", "title": "Type signatures identify types up to nullability", "statement": "Two concrete types have equal signature() if and only if they are equal after deleting nullability.", "quantifier": "all pairs of concrete types", "why_tests_cant": "injectivity over an infinite set", "anchors": ["src/substrait/type/Type.cpp: *::signature"]}
{"id": "C10", "title": "Function lookup returns the first declared implementation that matches, and finds one whenever one exists", "statement": "lookupFunction(signature) returns null iff no declared implementation of that name accepts the arguments; otherwise it returns the earliest declared one that does, of the kind (scalar, aggregate, window) asked for and of exactly the requested name.", "quantifier": "all extension registries and all call signatures", "why_tests_cant": "registry contents and order are unbounded", "anchors": ["src/substrait/function/FunctionLookup.cpp: lookupFunction", "src/substrait/function/Function.cpp: tryMatch", "src/substrait/function/Extension.cpp: addScalarFunctionImpl"]}
{"id": "C11", "title": "Declaring more functions never changes an answered lookup", "statement": "After any sequence of additional declarations, every lookup that already returned an implementation returns the same one, lookups of other names and other kinds are unaffected, and a lookup that failed can only be answered by one of the new declarations.", "quantifier": "all registries, all histories of declarations, all calls", "why_tests_cant": "histories are unbounded", "anchors": ["src/substrait/function/Extension.cpp", "src/substrait/function/FunctionLookup.cpp"]}
{"id": "C12", "title": "Arity rules of a call are respected", "statement": "An implementation without variadic behaviour accepts a call only if the number of call arguments equals the number of its value arguments and the argument types match position by position; with variadic behaviour only if the number of arguments lies between min and max (where given) and every argument matches the declared argument.", "quantifier": "all implementations and argument lists", "why_tests_cant": "lists are unbounded; min/max are compared across signedness", "anchors": ["src/substrait/function/Function.cpp: tryMatch, isMatch"]}
{"id": "C13", "title": "Aggregate intermediate fallback is exactly one argument of the intermediate type", "statement": "An aggregate implementation accepts a call iff the ordinary rules accept it, or it declares an intermediate type, the call has exactly one argument, and that argument matches the intermediate type.", "quantifier": "all aggregate implementations and calls", "why_tests_cant": "infinite domain", "anchors": ["src/substrait/function/Function.cpp: AggregateFunctionImpl::tryMatch"]}
{"id": "C14", "title": "Type variants: the first registration of a name wins and lookup returns it", "statement": "After any sequence of addTypeVariant calls, lookupType(name) returns the first variant registered under that name, or null if there is none.", "quantifier": "all histories", "why_tests_cant": "histories unbounded", "anchors": ["src/substrait/function/Extension.cpp: addTypeVariant, lookupType", "src/substrait/function/FunctionLookup.cpp"]}
{"id": "C15", "title": "Extension file paths resolve next to the base file", "statement": "Extension::load(basePath, files) opens, in order, exactly dirname(basePath)/file for each file, and the resulting registry is the in-order concatenation of the files' declarations.", "quantifier": "all base paths and file lists", "why_tests_cant": "infinite domain", "anchors": ["src/substrait/function/Extension.cpp: Extension::load"]}
{"id": "C16", "title": "A decimal literal prints the signed value of its bytes", "statement": "For every byte string of at most 16 bytes, toBaseString() is the decimal numeral of the little-endian two's complement integer the bytes denote.", "quantifier": "all byte strings of length 0..16 (2^128 values at full length)", "why_tests_cant": "2^128 values; carries propagate through all bytes", "anchors": ["src/substrait/expression/DecimalLiteral.cpp: toBaseString, negate"]}
{"id": "C17", "title": "Decimal text to bytes and back is the identity", "statement": "For every decimal numeral that denotes an integer representable in the literal, DecimalLiteral::fromString(s,p,sc).toBaseString() equals the canonical form of s; numerals outside the range are rejected.", "quantifier": "all integers representable in 16 bytes", "why_tests_cant": "2^128 values", "anchors": ["src/substrait/expression/DecimalLiteral.cpp: fromString, uint128ToBytes, toBaseString"]}
{"id": "C18", "title": "Decimal validity and proto conversion", "statement": "isValid() is true iff the literal has exactly 16 bytes and precision in 1..38; fromProto(toProto(d)) = d; toString() appends the exponent for the scale's sign and the precision.", "quantifier": "all literals", "why_tests_cant": "infinite domain", "anchors": ["src/substrait/expression/DecimalLiteral.cpp: isValid, toProto, fromProto, toString"]}
{"id": "C19", "title": "Trimming and integer recognition", "statement": "trim removes exactly the maximal white-space prefix and suffix and is idempotent; isInteger accepts exactly the optional-minus digit strings.", "quantifier": "all strings", "why_tests_cant": "infinite domain", "anchors": ["src/substrait/common/StringUtils.h", "src/substrait/common/NumberUtils.h"]}
{"id": "C20", "title": "startsWith / endsWith are prefix and suffix tests", "statement": "startsWith(h,n) is true iff n is a prefix of h and endsWith(h,n) iff n is a suffix of h, including h = n.", "quantifier": "all pairs of strings", "why_tests_cant": "infinite domain", "anchors": ["src/substrait/textplan/StringManipulation.cpp"]}
{"id": "C21", "title": "Format detection and dispatch", "statement": "loadPlan picks exactly one decoder for every file content, the same content always picks the same decoder, and a file written by savePlan in format f is detected as f again; planFileFormat names are recognised regardless of case.", "quantifier": "all file contents, all formats, all plans", "why_tests_cant": "contents are unbounded", "anchors": ["src/substrait/common/Io.cpp: detectFormat, loadPlan, savePlan", "src/substrait/common/PlanTransformerTool.cpp: planFileFormatFromText"]}
{"id": "C22", "title": "A failed save leaves the previous file intact", "statement": "If savePlan reports an error, the file that was at the output path before the call is unchanged; if it succeeds the file holds exactly the encoding of the plan.", "quantifier": "all prior file contents, all failure points", "why_tests_cant": "failure points inside I/O cannot be enumerated by tests", "anchors": ["src/substrait/textplan/converter/SaveBinary.cpp", "src/substrait/common/Io.cpp: savePlan"]}
{"id": "C23", "title": "C plan loader contract", "statement": "load_substrait_plan returns exactly one of a buffer (with its exact length) and an error message; save_substrait_plan returns an empty string / null on success and a readable error message on failure.", "quantifier": "all files and plans, including plans larger than 2 GiB", "why_tests_cant": "sizes unbounded; lifetime of returned pointer", "anchors": ["export/planloader/planloader.cpp", "export/planloader/planloader.h"]}
{"id": "C24", "title": "Symbol table: what was defined is what is found", "statement": "After any history of operations, looking up a name returns the first symbol defined with it, looking up a location returns all symbols defined there in definition order, the symbol list enumerates all definitions in order, and updates of one symbol change no other.", "quantifier": "all histories of define/alias/locate operations", "why_tests_cant": "histories unbounded", "anchors": ["src/substrait/textplan/SymbolTable.cpp"]}
{"id": "C25", "title": "Generated names are unique", "statement": "No two calls of getUniqueName on one table return the same string, whatever base names are passed.", "quantifier": "all sequences of base names", "why_tests_cant": "collisions need particular bases", "anchors": ["src/substrait/textplan/SymbolTable.cpp: getUniqueName"]}
{"id": "C26", "title": "Subquery indices are dense and distinct per parent", "statement": "After any history, the symbols attached to one parent query location carry the distinct indices 0..n-1 in attachment order and (location, index) identifies one symbol.", "quantifier": "all histories", "why_tests_cant": "histories unbounded", "anchors": ["src/substrait/textplan/SymbolTable.cpp: setParentQueryLocation, lookupSymbolByParentQueryAndType"]}
{"id": "C27", "title": "Symbol type names", "statement": "symbolTypeName(t) returns the name of every symbol type the library can create.", "quantifier": "all symbol types", "why_tests_cant": "the failing enumerators are only reached on error paths", "anchors": ["src/substrait/textplan/SymbolTable.cpp: symbolTypeName"]}
{"id": "C28", "title": "Locations are ordered and hashed consistently", "statement": "Location equality is an equivalence, equal locations hash equally, and operator< is a strict total order compatible with equality, so the maps keyed by locations behave as maps.", "quantifier": "all locations", "why_tests_cant": "infinite domain", "anchors": ["src/substrait/textplan/Location.cpp", "src/substrait/textplan/Location.h"]}
{"id": "C29", "title": "Parse results: success iff no error, and errors keep order and position", "statement": "ParseResult::successful() is true iff no syntax and no semantic error was recorded; getAllErrors lists all of them exactly once, syntax first, each in the order recorded; every listener message shows the line and column it was reported at.", "quantifier": "all histories of error reports", "why_tests_cant": "histories unbounded", "anchors": ["src/substrait/textplan/ParseResult.cpp", "src/substrait/textplan/parser/SubstraitParserErrorListener.cpp"]}
{"id": "C30", "title": "Reference normalisation is idempotent", "statement": "Normalising an already normalised plan changes nothing.", "quantifier": "all plans", "why_tests_cant": "plans are unbounded trees", "anchors": ["src/substrait/textplan/converter/ReferenceNormalizer.cpp"]}
{"id": "C31", "title": "Reference normalisation preserves meaning", "statement": "After normalisation every function reference in the plan resolves to the same (extension URI, function name) as before and nothing else in the plan changes.", "quantifier": "all plans with unique anchors", "why_tests_cant": "plans are unbounded trees; one unvisited expression position leaves a dangling reference", "anchors": ["src/substrait/textplan/converter/ReferenceNormalizer.cpp"]}
{"id": "C32", "title": "Reference normalisation is canonical", "statement": "Two plans that differ only in the order and numbering of their extension declarations normalise to the same plan.", "quantifier": "all pairs of such plans", "why_tests_cant": "all permutations and renumberings", "anchors": ["src/substrait/textplan/converter/ReferenceNormalizer.cpp"]}
{"id": "C33", "title": "String literals survive printing and re-reading", "statement": "For every string value, the text printed for the literal is one STRING token of the grammar and reading that token gives the value back.", "quantifier": "all byte strings", "why_tests_cant": "infinite domain; escape interactions", "anchors": ["src/substrait/textplan/PlanPrinterVisitor.cpp: stringEscape, visitLiteral", "src/substrait/textplan/parser/SubstraitPlanRelationVisitor.cpp: visitString, escapeText"]}
{"id": "C34", "title": "Escape processing is exact and total", "statement": "Reading a string literal maps each documented escape to its character, keeps all other characters, reports an error for every malformed escape and terminates with no out-of-range access on every input.", "quantifier": "all strings", "why_tests_cant": "infinite domain; index arithmetic on size_t wraps", "anchors": ["src/substrait/textplan/parser/SubstraitPlanRelationVisitor.cpp: escapeText"]}
{"id": "C35", "title": "Integer, boolean, date, interval and decimal literals survive printing and re-reading", "statement": "The text printed for a literal of each of these kinds is accepted by the text parser and gives the same literal value, type and nullability.", "quantifier": "all values of each kind", "why_tests_cant": "value spaces too large; kinds interact with nullability", "anchors": ["src/substrait/textplan/PlanPrinterVisitor.cpp: visitLiteral", "src/substrait/textplan/parser/SubstraitPlanRelationVisitor.cpp: visitConstantWithType, visitNumber"]}
{"id": "C36", "title": "Enumerations survive printing and re-reading", "statement": "Every join type, sort direction, aggregation phase, aggregation invocation, set operation and comparison operator printed in a text plan is read back as the same enumerator.", "quantifier": "all enumerators, and all spellings accepted by the reader", "why_tests_cant": "the reader accepts unboundedly many spellings", "anchors": ["src/substrait/textplan/PlanPrinterVisitor.cpp", "src/substrait/textplan/parser/SubstraitPlanRelationVisitor.cpp: normalizeProtoEnum, visitRelationJoinType, visitSortDirection", "src/substrait/proto/ProtoUtils.cpp"]}
{"id": "C37", "title": "Printed types survive re-reading", "statement": "For every type the text printer can print, the text is read back by the text plan parser as the same protobuf type, including nullability and parameters; types it cannot print are reported as errors.", "quantifier": "all protobuf types, nested to any depth", "why_tests_cant": "infinite domain", "anchors": ["src/substrait/textplan/PlanPrinterVisitor.cpp: visitType", "src/substrait/textplan/parser/SubstraitPlanTypeVisitor.cpp"]}
{"id": "C38", "title": "Field references survive printing and re-reading", "statement": "The name printed for field number i of a relation's input is resolved by the parser to field number i again, provided the names in scope are distinct; outer references keep their number of steps out.", "quantifier": "all schemas, indices and nesting depths", "why_tests_cant": "schemas unbounded", "anchors": ["src/substrait/textplan/PlanPrinterVisitor.cpp: lookupFieldReference", "src/substrait/textplan/parser/SubstraitPlanRelationVisitor.cpp: findFieldReferenceByName", "src/substrait/textplan/parser/SubstraitPlanSubqueryRelationVisitor.cpp: findFieldReferenceByName"]}
{"id": "C39", "title": "Expressions survive printing and re-reading", "statement": "For every expression built from literals, field references, casts, if-then and scalar function calls in scope, printing it and parsing the text gives the same expression.", "quantifier": "all expression trees of any depth", "why_tests_cant": "infinite domain", "anchors": ["src/substrait/textplan/PlanPrinterVisitor.cpp: visitExpression, visitScalarFunction, visitIfThen, visitCast", "src/substrait/textplan/parser/SubstraitPlanRelationVisitor.cpp: visitExpressionFunctionUse, visitExpressionIfThenUse, visitExpressionCast"]}
{"id": "C40", "title": "Relation trees survive the pipeline decomposition", "statement": "Splitting a relation tree into pipelines and reassembling the binary plan from the pipelines gives the same tree: same relations, same inputs, same order.", "quantifier": "all relation trees", "why_tests_cant": "infinite domain", "anchors": ["src/substrait/textplan/converter/PipelineVisitor.cpp", "src/substrait/textplan/SymbolTablePrinter.cpp: addInputsToRelation, outputToBinaryPlan", "src/substrait/textplan/parser/SubstraitPlanPipelineVisitor.cpp"]}
{"id": "C41", "title": "The pipelines section is rejected iff it has a loop or a relation with two consumers", "statement": "Parsing a pipelines section records an error for every pipeline that would make the relation graph cyclic or give one relation two continuations, and after any sequence of accepted pipelines the relation graph is a forest that can be walked without repetition.", "quantifier": "all sequences of pipelines", "why_tests_cant": "histories unbounded", "anchors": ["src/substrait/textplan/parser/SubstraitPlanPipelineVisitor.cpp: visitPipeline, continuingPipelineContains"]}
{"id": "C42", "title": "Every declared function is written out with its extension", "statement": "In text output every function symbol appears once, under the extension space it belongs to; in binary output every function gets a declaration whose URI reference resolves to its space.", "quantifier": "all sets of spaces and functions", "why_tests_cant": "ordering/comparator collisions need particular names", "anchors": ["src/substrait/textplan/SymbolTablePrinter.cpp: outputFunctionsSection, outputExtensionSpacesToBinaryPlan, outputFunctionsToBinaryPlan"]}
{"id": "C43", "title": "Output mappings select the named fields", "statement": "A relation's output schema after an emit list [i1..ik] consists of exactly the fields i1..ik of its unmapped output, in order; an index out of range is reported and never read.", "quantifier": "all schemas and emit lists", "why_tests_cant": "unbounded", "anchors": ["src/substrait/textplan/parser/SubstraitPlanRelationVisitor.cpp: applyOutputMappingToSchema, visitRelationEmit", "src/substrait/textplan/converter/InitialPlanProtoVisitor.cpp: updateLocalSchema", "src/substrait/textplan/SymbolTablePrinter.cpp"]}
{"id": "C44", "title": "Filters are accepted once and only where they belong", "statement": "In a relation's text each kind of filter (plain, best effort, post join) is accepted at most once and only on the relation types that have it; every other use is reported as an error and leaves the relation unchanged.", "quantifier": "all relation types and all sequences of filter clauses", "why_tests_cant": "histories unbounded", "anchors": ["src/substrait/textplan/parser/SubstraitPlanRelationVisitor.cpp: visitRelationFilter"]}
{"id": "C45", "title": "Nothing of a relation is silently lost between binary and text", "statement": "For each supported relation kind, every set field of the protobuf relation (offset, count, best effort filter, post join filter, grouping sets, measures, sorts, emit) is represented in the printed text in a form the grammar reads back into the same field, or an error is reported.", "quantifier": "all relations of the supported kinds", "why_tests_cant": "combinations of optional fields", "anchors": ["src/substrait/textplan/PlanPrinterVisitor.cpp: visit*Relation", "src/substrait/textplan/parser/SubstraitPlanRelationVisitor.cpp: visitRelation*"]}
{"id": "C46", "title": "UUID literals", "statement": "A uuid literal is accepted iff after removing dashes it consists of 32 hexadecimal digits, and yields the 16 bytes they denote.", "quantifier": "all strings", "why_tests_cant": "infinite domain", "anchors": ["src/substrait/textplan/parser/SubstraitPlanRelationVisitor.cpp: visitString"]}
{"id": "C47", "title": "Extension spaces and functions are numbered consistently when reading text", "statement": "Reading the extension spaces of a text plan numbers the spaces 1,2,.. in order of appearance, the functions 0,1,.. over all spaces, and each function records the space it was declared in.", "quantifier": "all sequences of declarations", "why_tests_cant": "unbounded", "anchors": ["src/substrait/textplan/parser/SubstraitPlanVisitor.cpp: visitExtensionspace, visitFunction"]}
{"id": "C48", "title": "Type text in schemas and literals decodes to the protobuf type", "statement": "For every type text in a text plan the protobuf type produced has the kind, nullability and parameters the text spells; every text that is not a type is reported as an error and nothing is thrown.", "quantifier": "all strings", "why_tests_cant": "infinite domain", "anchors": ["src/substrait/textplan/parser/SubstraitPlanTypeVisitor.cpp: textToTypeProto, typeToProto"]}
{"id": "C49", "title": "Enumerator names in messages", "statement": "Enumerator-to-name tables return the enumerator's name for every value in range and a fixed placeholder for every value out of range, never reading outside the table.", "quantifier": "all integers", "why_tests_cant": "2^32 values", "anchors": ["src/substrait/proto/ProtoUtils.cpp"]}
{"id": "C50", "title": "Extension files: a declaration becomes exactly what it says", "statement": "Loading a well-formed implementation entry yields an implementation with exactly the declared arguments in order (kind, required flag, type), the return type on the last line of the return expression, the variadic bounds, the intermediate type for aggregates, and the name and file it was declared under.", "quantifier": "all well-formed YAML entries", "why_tests_cant": "infinitely many combinations of optional keys, values and types", "anchors": ["src/substrait/function/Extension.cpp: decodeFunctionImpl, YAML::convert"]}
{"id": "C51", "title": "Raw strings are taken literally", "statement": "A string in one, two or three backticks stands for exactly the characters between the backticks, with no escape processing.", "quantifier": "every content that the corresponding lexer rule accepts", "why_tests_cant": "The marks are removed by prefix tests whose outcome depends on the content; tests use contents without backticks at the ends.", "anchors": ["src/substrait/textplan/parser/SubstraitPlanRelationVisitor.cpp: visitString", "src/substrait/textplan/parser/grammar/SubstraitPlanLexer.g4: RAW_LITERAL_*"]}
{"id": "C52", "title": "Reading a constant never reads outside its message", "statement": "Converting a constant of a text plan to a protobuf literal never reads a field that is not there, whatever the constant and its type.", "quantifier": "all constants the grammar accepts, nested to any depth, and all types", "why_tests_cant": "infinite domain; the out of range reads need a type that does not fit the number of fields", "anchors": ["src/substrait/textplan/parser/SubstraitPlanRelationVisitor.cpp: visitIntervalYear, visitIntervalDay, visitStruct", "src/substrait/textplan/parser/SubstraitPlanSubqueryRelationVisitor.cpp: the copies"]}
{"id": "C53", "title": "A constant is either read or reported", "statement": "A constant of a text plan becomes a protobuf literal with a value, or an error is reported.", "quantifier": "all constants the grammar accepts, with or without a type", "why_tests_cant": "infinite domain; every pairing of a value with a type matters", "anchors": ["src/substrait/textplan/parser/SubstraitPlanRelationVisitor.cpp: visitConstant, visitConstantWithType, visitNumber, visitString"]}
{"id": "C54", "title": "Constants are read as what is written", "statement": "A boolean, null, struct, list or map constant of a text plan that is read without an error has exactly the parts written, in order, each read with the type declared for it; a null gets the nullable version of its type.", "quantifier": "all constants the grammar accepts, at any nesting depth", "why_tests_cant": "infinite domain; depends on pairings of constants with types", "anchors": ["src/substrait/textplan/parser/SubstraitPlanRelationVisitor.cpp: visitConstantWithType, visitStructLiteralWithType, visitMapLiteralWithType, setNullable"]}
{"id": "C55", "title": "No relation of a text plan is dropped silently", "statement": "When a text plan without errors is converted to a binary plan, every relation named in its pipelines is in the binary plan, or the conversion fails with an error.", "quantifier": "all sets of relations and all accepted pipelines sections", "why_tests_cant": "the graphs are unbounded and the losses depend on where a relation stands in them", "anchors": ["src/substrait/textplan/SymbolTablePrinter.cpp: outputToBinaryPlan, addInputsToRelation, getNextSinglePipeline"]}
{"id": "C56", "title": "The fields of whole relation trees are those Substrait defines, and keep their meaning in text", "statement": "For every relation tree whose field numbers are in range, the fields the converter computes for each relation are the ones Substrait gives it, through all inputs and output mappings; and after printing the tree and reading the text, every field number in expressions, groupings, measures and output mappings denotes the same field of the same relation as before.", "quantifier": "all trees of reads, filters, sorts, fetches, joins, projects and aggregates, of any depth", "why_tests_cant": "trees of unbounded depth and width with arbitrary output mappings", "anchors": ["src/substrait/textplan/converter/InitialPlanProtoVisitor.cpp: updateLocalSchema, addFieldsToRelation", "src/substrait/textplan/converter/PipelineVisitor.cpp", "src/substrait/textplan/PlanPrinterVisitor.cpp: lookupFieldReference, emitToText", "src/substrait/textplan/parser/SubstraitPlanRelationVisitor.cpp: addInputFieldsToSchema, visitRelationEmit, visitRelationGrouping"]}
{"id": "C57", "title": "A condition that can be read is accepted by both passes of the reader", "statement": "The text reader reads every filter condition twice: a first pass resolves everything except subqueries, a second pass resolves those as well. Every condition the second pass reads is accepted by the first pass too, so no readable or printed condition is refused because of where its subqueries stand.", "quantifier": "all condition trees of any depth, all contexts of fields and functions, filters in and outside of reads", "why_tests_cant": "subqueries can stand at any place of trees of any depth", "anchors": ["src/substrait/textplan/parser/SubstraitPlanRelationVisitor.cpp: visitRelationFilter, visitExpression, visitExpressionFunctionUse, visitExpressionCast", "src/substrait/textplan/parser/SubstraitPlanSubqueryRelationVisitor.cpp: visitExpression"]}
{"id": "C58", "title": "A text plan is accepted exactly if its names are used once, and the names of its root survive", "statement": "A text plan is read without an error if and only if no two relations have the same name, no relation has the name of a schema, source, column, table, file, space or function, at most one root has names and nothing else is called root; and the output names of the root relation come back as they were printed.", "quantifier": "all lists of plan parts, all plans whose parts can be written, all lists of names", "why_tests_cant": "any number of parts in any order, and arbitrary names; tests have one plan of each kind", "anchors": ["src/substrait/textplan/parser/SubstraitPlanVisitor.cpp: visitPlan, visitRelation, visitRoot_relation", "src/substrait/textplan/SymbolTablePrinter.cpp: outputRootSection"]}
{"id": "C59", "title": "The schemas of a plan survive the text", "statement": "For every schema of a binary plan (names and a struct of types), the read relation that uses it has the same base schema after printing and reading the text, whatever other definitions the plan has.", "quantifier": "all named structs, all lists of other definitions around them", "why_tests_cant": "schemas of any length with any types and names, and any names elsewhere in the plan", "anchors": ["src/substrait/textplan/SymbolTablePrinter.cpp: outputSchemaSection", "src/substrait/textplan/parser/SubstraitPlanVisitor.cpp: visitSchema_definition, visitSchema_item", "src/substrait/textplan/parser/SubstraitPlanSubqueryRelationVisitor.cpp: visitRelationUsesSchema"]}
{"id": "C60", "title": "The sources of a plan survive the text", "statement": "For every source of a binary plan (named tables, local files with any path kind, partition, range and format), the read relation that uses it has the same source after printing and reading the text, whatever other definitions the plan has; or an error is reported.", "quantifier": "all sources, all lists of other definitions around them", "why_tests_cant": "arbitrary names and paths, lists of any length, any names elsewhere in the plan", "anchors": ["src/substrait/textplan/SymbolTablePrinter.cpp: outputSourcesSection, localFileToText", "src/substrait/textplan/parser/SubstraitPlanVisitor.cpp: visitSource_definition, visitFile, visitFile_detail, visitNamed_table_detail", "src/substrait/textplan/parser/grammar/SubstraitPlanParser.g4: local_files_detail, named_table_detail", "src/substrait/textplan/parser/SubstraitPlanSubqueryRelationVisitor.cpp: visitRelationSourceReference"]}
{"id": "C61", "title": "A whole plan survives the text", "statement": "For every plan that the text can express, the text of all its sections (pipelines, relations, root, schemas, sources, functions) is printed without an error, parsed without a syntax error, visited without an error, and every part is read as what it was printed from: pipelines, each relation in order, root names, schemas, sources and the functions with their URIs.", "quantifier": "all plans with any number of parts in every section", "why_tests_cant": "the product of all sections; one part can be taken for another depending on all names of the plan", "anchors": ["src/substrait/textplan/SymbolTablePrinter.cpp: outputToText", "src/substrait/textplan/parser/grammar/SubstraitPlanParser.g4: plan, plan_detail", "src/substrait/textplan/parser/SubstraitPlanVisitor.cpp: visitPlan"]}
{"id": "C62", "title": "A binary plan survives the way to text and back", "statement": "For every binary plan, the text that is made of it is read without an error, and the binary plan that is made of the text says the same: the same relations in the same tree, with the same expressions, sources, base schemas, output columns and root names, and the same functions up to their numbers.", "quantifier": "all binary plans: trees of relations of any size and shape, any schemas, names, sources, functions and expressions", "why_tests_cant": "the product of all parts of the program: names made up by the converter, scopes of columns, numbers of functions, all sections of the text, both passes of the reader; arbitrary trees and names", "anchors": ["src/substrait/textplan/converter/ParseBinary.cpp: parseBinaryPlan", "src/substrait/textplan/converter/InitialPlanProtoVisitor.cpp: visitRelation, updateLocalSchema, getUniqueName uses", "src/substrait/textplan/converter/PipelineVisitor.cpp", "src/substrait/textplan/SymbolTablePrinter.cpp: outputToText, outputToBinaryPlan", "src/substrait/textplan/parser/ParseText.cpp: parseStream", "src/substrait/textplan/parser/SubstraitPlanVisitor.cpp", "src/substrait/textplan/parser/SubstraitPlanRelationVisitor.cpp", "src/substrait/textplan/parser/SubstraitPlanSubqueryRelationVisitor.cpp"]}
{"id": "C63", "title": "A plan gives the same results after the way to text and back", "statement": "For every binary plan, every content of the tables and every meaning of the functions, literals and casts, the plan that is made of its text has the same results: the same rows, with the same columns in the same order under the same root names.", "quantifier": "all binary plans, all contents of tables, all meanings of scalar and aggregate functions, literals, casts and orders", "why_tests_cant": "results depend on all contents of tables and all functions; a wrong column number shows only for some rows; tests of the repository compare texts and never run a plan", "anchors": ["src/substrait/textplan/converter/ParseBinary.cpp: parseBinaryPlan", "src/substrait/textplan/converter/InitialPlanProtoVisitor.cpp: addGroupingToRelation, updateLocalSchema", "src/substrait/textplan/SymbolTablePrinter.cpp: outputToText, outputToBinaryPlan", "src/substrait/textplan/parser/ParseText.cpp: parseStream", "src/substrait/textplan/parser/SubstraitPlanRelationVisitor.cpp: visitRelationGrouping, visitRelationEmit"]}
{"id": "C64", "title": "The converter finds every relation of a binary plan, with its parent and its links", "statement": "For every binary plan, the first visitor gives exactly one symbol to every relation wherever it is (inputs, subqueries in any expression, view definitions), after the symbols of the relations inside it; it remembers for the relation of every subquery the innermost relation around it; the second visitor then never fails and links every relation to exactly its inputs and subqueries; no plan makes either of them use a null pointer.", "quantifier": "all trees of messages that follow algebra.proto: 21 kinds of relations, all kinds of expressions, literals, types and references, any depth and width", "why_tests_cant": "about 85 mutually recursive functions over messages; a field that is not visited shows only for plans that have a subquery just there; tests have a handful of plans", "anchors": ["src/substrait/textplan/converter/BasePlanProtoVisitor.cpp: all visit functions", "src/substrait/textplan/converter/InitialPlanProtoVisitor.cpp: visitExpression, visitRelation", "src/substrait/textplan/converter/PipelineVisitor.cpp: visitExpression, visitRelation"]}
{"id": "C65", "title": "Going through text again and again changes nothing more, and the text settles", "statement": "For every binary plan, the plan that is made of its text can be sent through text again, any number of times; what comes out each time says the same as the plan one began with and has the same results; and after the first time the text does not change any more.", "quantifier": "all binary plans, all numbers of trips through text, all contents of tables and meanings of functions", "why_tests_cant": "tests go through text once; numbers of functions and names are made up anew on every trip, so a drift shows only after several trips and only for some sets of overloads (never for fewer than ten)", "anchors": ["src/substrait/textplan/converter/ParseBinary.cpp: parseBinaryPlan", "src/substrait/textplan/parser/ParseText.cpp: parseStream", "src/substrait/textplan/SymbolTablePrinter.cpp: outputFunctionsSection, outputFunctionsToBinaryPlan", "src/substrait/textplan/SymbolTable.cpp: getUniqueName", "src/substrait/textplan/parser/SubstraitPlanVisitor.cpp: visitExtensionspace, visitFunction"]}
{"id": "C66", "title": "White space and comments between tokens do not matter", "statement": "If two texts have the same tokens in the same order and differ only in the blanks, line ends and // comments between them (with something between two tokens wherever the first text has something), then both are read as the same plan, or both are refused; in particular every text is read like its tokens with one blank before each. Strings must not end in a backslash before the closing quote, and between extension_space and the brace only blanks count as such.", "quantifier": "all texts, all token sequences, all gaps between tokens, both modes of the lexer", "why_tests_cant": "the lexer takes the longest match of many rules, so every pair of neighbouring tokens and everything that may stand between them is a case of its own", "anchors": ["src/substrait/textplan/parser/grammar/SubstraitPlanLexer.g4: all rules, SINGLE_LINE_COMMENT, SPACES, mode EXTENSIONS", "src/substrait/textplan/parser/ParseText.cpp: parseStream"]}
{"id": "C67", "title": "The parts of a text plan can be in any order", "statement": "A text plan says the same wherever its schemas, sources, extension spaces, root, pipelines and relations stand in the text: things may be defined before or after they are used. If such a text is accepted then it is accepted in the other order too and gives the same binary plan. The relations, the pipelines sections and the extension spaces keep their order among themselves; no two definitions give the same name (columns, tables and URIs may share names that are no base schema), and the relations of subqueries are defined. What the printer writes always meets these conditions.", "quantifier": "all text plans, all reorderings of their parts, all literals; all plans that text can express for what is printed", "why_tests_cant": "the number of orders of the parts of a text is the factorial of their number, and the table of symbols, the numbers of the places and the look up by name all change with the order", "anchors": ["src/substrait/textplan/parser/SubstraitPlanVisitor.cpp: visitPlan, visitPlan_detail, visitRelation, visitRoot_relation, visitSource_definition, visitSchema_definition", "src/substrait/textplan/parser/SubstraitPlanPipelineVisitor.cpp: visitPipelines, visitRelation", "src/substrait/textplan/parser/SubstraitPlanRelationVisitor.cpp: visitRelation, addInputFieldsToSchema", "src/substrait/textplan/parser/SubstraitPlanSubqueryRelationVisitor.cpp: visitRelation, lookupSymbolByName, lookupSymbolByParseContext", "src/substrait/textplan/SymbolTable.cpp: lookupSymbolByName, lookupSymbolByLocationAndType"]}
{"id": "C68", "title": "A plan saved as a text file and loaded again is the same plan", "statement": "If the transformer tool (or savePlan) writes a plan as a text plan file, then loadPlan, which guesses the format of a file from its contents, takes that file for a text plan and loads the same plan, so that the tool can convert it back to a binary plan with the same contents. The tool ends with success exactly if the input could be loaded and the output could be saved, and if the input could not be loaded it leaves the output file as it was.", "quantifier": "all plans that text can express, all input formats, all file contents, all failures of the operating system", "why_tests_cant": "the guess depends on every line and every quoted word of the printed text, which contains the user's names and strings", "anchors": ["src/substrait/common/PlanTransformerTool.cpp: main", "src/substrait/common/Io.cpp: detectFormat, loadPlan, savePlan", "src/substrait/textplan/parser/LoadText.cpp: loadFromText", "src/substrait/textplan/converter/SaveBinary.cpp: savePlanToText"]}
{"id": "C69", "title": "The case of letters does not matter outside of names, numbers and strings", "statement": "Whether a text is a plan does not depend on the case of its letters. Keywords, types, kinds of relations, the words before filter, and enumerators such as join types, sort directions, phases and invocations can be written in capital or small letters: two texts that differ only in the case of letters and spell their names, numbers and strings alike give the same binary plan, or are refused alike. As names count also root at the end of a pipeline, the text of a file of local_files, and arguments that end in _enum.", "quantifier": "all texts, all ways to write their letters, all literals", "why_tests_cant": "a text of n letters can be written in 2^n ways, and every stage (lexer, types, lookups, enumerators) compares texts on its own", "anchors": ["src/substrait/textplan/parser/grammar/SubstraitPlanLexer.g4: caseInsensitive, all rules", "src/substrait/textplan/parser/grammar/SubstraitPlanParser.g4: all rules", "src/substrait/textplan/parser/SubstraitPlanVisitor.cpp: visitRelation, visitRoot_relation, visitLocal_files_detail", "src/substrait/textplan/parser/SubstraitPlanRelationVisitor.cpp: normalizeProtoEnum, visitRelation_filter_behavior, visitExpressionFunctionUse", "src/substrait/textplan/parser/SubstraitPlanSubqueryRelationVisitor.cpp: comparisonToProto", "src/substrait/textplan/parser/SubstraitPlanTypeVisitor.cpp: visitLiteral_basic_type"]}
{"id": "C70", "title": "Definitions that nothing refers to do not change a plan", "statement": "A schema or a source of a text plan that can be read by itself and none of whose names (its own, those of its columns, tables and files) is used by a relation, a pipeline or an expression can be added anywhere in the text or taken out of it: the text gives the same binary plan, or is refused in the same way. Columns may have the names of the columns of other schemas.", "quantifier": "all texts, all places in them, all schemas and sources with such names, all literals", "why_tests_cant": "all symbols are in one table and are looked up by name whatever they are, so every lookup of every name in every text could find the new symbols; tests add a definition to a few texts", "anchors": ["src/substrait/textplan/parser/SubstraitPlanVisitor.cpp: visitSchema_definition, visitSource_definition, visitRelation, visitRoot_relation, visitFile_detail", "src/substrait/textplan/parser/SubstraitPlanPipelineVisitor.cpp: updateRelationSymbol, visitPipeline", "src/substrait/textplan/parser/SubstraitPlanRelationVisitor.cpp: visitExpression, visitRelation", "src/substrait/textplan/parser/SubstraitPlanSubqueryRelationVisitor.cpp: visitRelationUsesSchema, visitRelationSourceReference, visitExpressionFunctionUse", "src/substrait/textplan/SymbolTable.cpp: lookupSymbolByName, lookupSymbolsByLocation", "src/substrait/textplan/converter/SymbolTablePrinter.cpp: outputToBinaryPlan"]}
{"id": "C71", "title": "The names that a text makes up do not matter", "statement": "If the relations, sources, schemas, functions and computed columns of a text plan get other names throughout the text (in definitions, in pipelines, in references, in front of the dot of a column, in calls and subqueries), different ones for different ones, none of which is the name of something else (the columns of schemas, tables and files keep their names, and so do root and the names that the reader makes up), the text gives the same binary plan, or is refused in the same way. Names that make an argument with a subquery or a column end in _enum, and the name ifthen for a function, are excepted.", "quantifier": "all texts, all ways of renaming, all literals", "why_tests_cant": "names are keys in one table of symbols, are compared with each other, with location-dependent lookups, with fixed names and, with a dot between them, with the texts of columns, in four passes; tests use a few names", "anchors": ["src/substrait/textplan/parser/SubstraitPlanVisitor.cpp: visitRelation, visitSource_definition, visitSchema_definition, visitFunction", "src/substrait/textplan/parser/SubstraitPlanPipelineVisitor.cpp: updateRelationSymbol, visitPipeline", "src/substrait/textplan/parser/SubstraitPlanRelationVisitor.cpp: visitRelation, visitRelationSourceReference, visitExpression", "src/substrait/textplan/parser/SubstraitPlanSubqueryRelationVisitor.cpp: visitExpressionFunctionUse, visitExpressionColumn, findFieldReferenceByName, fullyQualifiedReference, visitExpressionScalarSubquery, visitExpressionInPredicateSubquery, visitExpressionSetPredicateSubquery, visitExpressionSetComparisonSubquery", "src/substrait/textplan/SymbolTable.cpp: lookupSymbolByName, lookupSymbolByLocationAndType", "src/substrait/textplan/converter/SymbolTablePrinter.cpp: outputToBinaryPlan"]}
{"id": "C72", "title": "The numbers of extension URIs and functions in a binary plan do not matter", "statement": "If a binary plan gets other numbers (anchors) for its extension URIs and its functions, different ones for different ones, where they are declared and everywhere they are used (calls, aggregate functions, comparison functions of sorts, references to URIs), it is printed as exactly the same text, or is refused in the same way. So the plan that is read back does not depend on the numbers either.", "quantifier": "all binary plans with any relations and subqueries, all injective renumberings of functions and of URIs", "why_tests_cant": "the numbers are looked up in expressions at any depth, are the keys of a map of spaces and the elements of a set of used spaces, and the order of the printed spaces must not come from them; tests use plans numbered from 0 or 1 in order", "anchors": ["src/substrait/textplan/converter/InitialPlanProtoVisitor.cpp: visitExtension, visitExtensionURI", "src/substrait/textplan/PlanPrinterVisitor.cpp: lookupFunctionReference, visitScalarFunction, visitAggregateFunction, visitSortRelation", "src/substrait/textplan/SymbolTablePrinter.cpp: outputFunctionsSection"]}
{"id": "C73", "title": "The order in which a binary plan declares its URIs and functions does not matter", "statement": "If a binary plan declares its extension URIs and functions in another order, in which functions with the same short name and functions with the same number keep their order among each other and every number a function refers to stands for the same URI as before, it is printed as exactly the same text, or is refused in the same way. URIs that no function refers to may come and go. This holds for plans in which different numbers that functions refer to stand for different URIs.", "quantifier": "all binary plans with any relations, all such reorderings of the declarations", "why_tests_cant": "unique names are counted in the order of the declarations, lookups take the first match, the spaces are a set ordered by URI into which numbers are inserted in order, and the functions of a space are sorted; that nothing of the order comes through is a statement about all orders", "anchors": ["src/substrait/textplan/converter/InitialPlanProtoVisitor.cpp: visitExtension, visitExtensionURI", "src/substrait/textplan/SymbolTable.cpp: getUniqueName", "src/substrait/textplan/SymbolTablePrinter.cpp: outputFunctionsSection", "src/substrait/textplan/PlanPrinterVisitor.cpp: lookupFunctionReference"]}
{"id": "C74", "title": "Converting any binary plan to text ends with a text or an error", "statement": "Whatever is in a binary plan - references to fields, functions, URIs or outputs that do not exist, kinds of relations, sources, types or expressions that have no text, any number of inputs, columns or names, functions called like relations - converting it to text returns a text or ends with an error. It never reads outside a vector, and following the inputs of relations ends after at most as many steps as there are relations, so that more room never changes the result.", "quantifier": "all binary plans with one root", "why_tests_cant": "the numbers in a plan come from outside and are used to index vectors at many places, each behind its own comparison, and the recursion over the graph of pipelines ends only because the names made up for the relations of any plan are all different; tests show some broken plans, not that none gets through", "anchors": ["src/substrait/textplan/converter/InitialPlanProtoVisitor.cpp: updateLocalSchema, addGroupingToRelation", "src/substrait/textplan/converter/PipelineVisitor.cpp", "src/substrait/textplan/SymbolTablePrinter.cpp: pipelineToPath, outputToText", "src/substrait/textplan/PlanPrinterVisitor.cpp: lookupFieldReference, lookupFunctionReference", "src/substrait/textplan/SymbolTable.cpp: getUniqueName"]}
{"id": "C75", "title": "Details of a relation of a text plan are where they belong and none is lost", "statement": "A text plan is accepted only if every relation in it is of a known kind and has only details that relations of this kind have: a base schema or a source only in a read, a filter only in a read, filter or join and with the behaviour that this kind has, an expression only in a project or join, groupings and measures only in an aggregate, sorts only in a sort, a count only in a fetch, a type only in a join, at most one condition and one filter in a join, one filter in a filter, one call and one filter in a measure. Every relation of the resulting plan is one of the text, with every expression, filter, grouping, sort, measure (with its filter and its sorts) and emit that is written there.", "quantifier": "all texts", "why_tests_cant": "details may be written in any relation and in any number and order as far as the grammar goes; each visitor tests the kind of its relation on its own, and what is assigned to a message field may be assigned twice", "anchors": ["src/substrait/textplan/parser/SubstraitPlanSubqueryRelationVisitor.cpp: visitRelationFilter, visitRelationUsesSchema, visitRelationExpression, visitRelationGrouping, visitRelationMeasure, visitMeasure_detail, visitRelationSort, visitRelationCount, visitRelationJoinType, visitRelationSourceReference, visitRelationEmit", "src/substrait/textplan/SymbolTablePrinter.cpp: outputToBinaryPlan"]}
{"id": "C76", "title": "The exception for a type text names what is wrong with it", "statement": "If the text of a type is refused, what is thrown is a SubstraitException (or std::out_of_range for a number that is too large). If it is a user error, its message names a part of the text, as it is written, that is not a type with parameters; what() has the code, the kind and the reason.", "quantifier": "all type texts", "why_tests_cant": "the text is pasted into the message and the message is used as a format string, so that what is reported depends on characters of the text that no test of types has", "anchors": ["include/substrait/common/Exceptions.h: errorMessage, SUBSTRAIT_THROW", "src/substrait/common/Exceptions.cpp: SubstraitException", "src/substrait/type/Type.cpp: ParameterizedType::decode, decodeLengthBaseType"]}
{"id": "C77", "title": "Different plans have different texts", "statement": "If two binary plans are printed as the same text, or as texts that are read as the same plan (other white space, order, letter case or names), then they say the same: the same relations, expressions, sources, schemas, output columns and root names, but for the numbers of functions; and they have the same results for all contents of tables and all meanings of functions.", "quantifier": "all pairs of binary plans", "why_tests_cant": "it compares the texts of all plans with each other: two details that are printed alike are only found by comparing the right two plans", "anchors": ["src/substrait/textplan/converter/ParseBinary.cpp", "src/substrait/textplan/SymbolTablePrinter.cpp: outputToText", "src/substrait/textplan/PlanPrinterVisitor.cpp"]}
{"id": "C78", "title": "Turning a text plan into a binary plan ends", "statement": "For every text the conversion to a binary plan ends: with a binary plan, with errors or with an exception. It does not recurse without end, and in a plan that it makes no relation is, by way of inputs and subqueries, a part of itself.", "quantifier": "all texts, all graphs of pipelines and subqueries of any size", "why_tests_cant": "a loop may go through any number of relations, pipelines and subqueries; a test shows the loops it has in it, and a passing test says nothing about the depth of the recursion", "anchors": ["src/substrait/textplan/SymbolTablePrinter.cpp: addInputsToRelation, addInputsToExpression, outputToBinaryPlan", "src/substrait/textplan/parser/SubstraitPlanPipelineVisitor.cpp: visitPipeline, visitExpressionSetComparisonSubquery, visitExpressionSetPredicateSubquery, visitExpressionInPredicateSubquery, visitExpressionScalarSubquery"]}
{"id": "C79", "title": "Reading a text plan has no undefined behaviour", "statement": "For every text the conversion to a binary plan ends with a plan, with errors or with an exception: no index past the end of a container, no use of a field of another alternative, no null pointer and no unbounded recursion.", "quantifier": "all texts without a syntax error, of any size", "why_tests_cant": "a test with undefined behaviour may pass; the texts and the depth of their expressions, types and pipelines are unbounded", "anchors": ["src/substrait/textplan/parser/SubstraitPlanRelationVisitor.cpp", "src/substrait/textplan/parser/SubstraitPlanPipelineVisitor.cpp", "src/substrait/textplan/parser/SubstraitPlanTypeVisitor.cpp", "src/substrait/textplan/parser/ParseText.cpp: parseStream", "src/substrait/textplan/SymbolTablePrinter.cpp: outputToBinaryPlan"]}
{"id": "C80", "title": "Types in a text plan are those the grammar can build", "statement": "For every text without a syntax error each type in a schema, a literal, a cast or a function call is a name with number parameters, or a list, map or struct of such types, where a name is not one of the words list, map and struct; so the type reader, which is given the text of the type, never meets a text it cannot handle.", "quantifier": "all strings", "why_tests_cant": "infinite domain: the parser passes texts to a second parser that has been written for a smaller language", "anchors": ["src/substrait/textplan/parser/grammar/SubstraitPlanLexer.g4", "src/substrait/textplan/parser/grammar/SubstraitPlanParser.g4: column_type, literal_basic_type, literal_complex_type, id", "src/substrait/textplan/parser/SubstraitPlanTypeVisitor.cpp: textToTypeProto"]}
{"id": "C81", "title": "The debug text of a symbol table shows its relations and their fields", "statement": "The debug text has a line for every relation and every field, with number, name, schema and alias or alternative expression of just that field; tables with different relations or fields have different debug texts.", "quantifier": "all symbol tables, with any number of relations and fields of any names", "why_tests_cant": "unbounded tables and names; the text is only looked at when a test fails, so no test looks at it", "anchors": ["src/substrait/textplan/SymbolTable.cpp: toDebugString"]}
{"id": "C82", "title": "The tools that print plans treat each file by itself and tell whether it worked", "statement": "planconverter and planparser write for each file, in the order of the arguments, a heading and what this file alone gives, plans to the standard output and messages to the error output; they succeed if and only if all files could be handled; the text printed for a plan stands for the same plan.", "quantifier": "all lists of arguments, all contents of files, all outcomes of loading and converting", "why_tests_cant": "any number of files with any outcomes; the tools have no tests", "anchors": ["src/substrait/textplan/converter/Tool.cpp: main, convertPlanToText", "src/substrait/textplan/parser/Tool.cpp: main, readText", "src/substrait/textplan/parser/ParseText.cpp: loadTextFile"]}
{"id": "C83", "title": "A text plan that was cut off inside a section is refused", "statement": "A text that is accepted without syntax errors is a row of sections, each with all of its braces closed, one section for each detail of the plan; a text that ends inside a section, whose braces are not balanced or whose last token is not a closing brace is refused; if a text and a start of it are both accepted, the cut is between two sections.", "quantifier": "all texts, all places to cut them between tokens", "why_tests_cant": "any nesting of constants, files and measures in braces, cut anywhere; tests refuse a few wrong texts", "anchors": ["src/substrait/textplan/parser/grammar/SubstraitPlanParser.g4: plan, plan_detail and all rules below", "src/substrait/textplan/parser/ParseText.cpp: parseStream"]}
{"id": "C84", "title": "A text plan that was cut off at any character is refused, or lacks whole sections", "statement": "If a text and a start of it, cut at any character, are both accepted without syntax errors, then the tokens of the start are the first tokens of the text, and what is missing is a row of whole sections.", "quantifier": "all texts, all places to cut them", "why_tests_cant": "the cut can be inside any token, string or comment of any text", "anchors": ["src/substrait/textplan/parser/grammar/SubstraitPlanLexer.g4: STRING, RAW_LITERAL_*_BACKTICK, SINGLE_LINE_COMMENT", "src/substrait/textplan/parser/grammar/SubstraitPlanParser.g4: plan"]}
{"id": "C85", "title": "A visitor of a binary plan always knows which relation it is in", "statement": "The visitors keep the relation they are in in a member that is changed when a relation is entered and reset when it is left. Whatever the plan, each function sees the innermost relation around the message it visits; after a visit, whether it returned or threw, the members are as before; the vector of surrounding relations is never popped when empty.", "quantifier": "all messages of binary plans, all states of the visitor, all ways in which the visit of a part can end", "why_tests_cant": "relations and subqueries nest without bound, and an exception can leave from any depth", "anchors": ["src/substrait/textplan/Finally.h: FinalAction, finally", "src/substrait/textplan/converter/InitialPlanProtoVisitor.cpp: visitRelation, visitExpression", "src/substrait/textplan/converter/PipelineVisitor.cpp: visitRelation, visitExpression"]}
{"id": "C86", "title": "The pipeline of a subquery is marked to its end, and no relation for two subqueries", "statement": "After a subquery of a binary plan has been read, the loop that writes the start of its pipeline into the relations of the pipeline ends. It marks the relation of the subquery, its only input, the only input of that, and so on up to a relation that has none or several, and nothing else. No relation is marked for two subqueries, so no mark is written over.", "quantifier": "all binary plans that follow algebra.proto and pass both visitors, all subqueries in them", "why_tests_cant": "the loop has no other end than a null pointer, and pipelines and subqueries can be of any length and depth", "anchors": ["src/substrait/textplan/converter/PipelineVisitor.cpp: visitExpression", "src/substrait/textplan/StructuredSymbolData.h: RelationData::continuingPipeline, RelationData::pipelineStart"]}
{"id": "C87", "title": "From every relation of a subquery the printer finds the relation the subquery is used in", "statement": "For every relation inside a subquery, the location that the printer uses for a reference one step out is that of the innermost relation the subquery is used in.", "quantifier": "all binary plans that follow algebra.proto and pass both visitors, all subqueries and relations in them", "why_tests_cant": "relations and subqueries nest without bound, and the location is found through marks that were written while other subqueries were read", "anchors": ["src/substrait/textplan/PlanPrinterVisitor.cpp: getParentQueryLocation", "src/substrait/textplan/converter/PipelineVisitor.cpp: visitExpression", "src/substrait/textplan/converter/InitialPlanProtoVisitor.cpp: visitExpression"]}
