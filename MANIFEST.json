{
 "claims": [
  {
   "property": "C01",
   "status": "partial",
   "theorems": [
    "Verif.Ty.decode_text",
    "Verif.Ty.decode_text_partial",
    "Verif.Ty.decode_text_iff",
    "Verif.Ty.decode_text_full_fails"
   ],
   "note": "Exact behaviour proved for all concrete types. The property as stated is false: a nullable container with a nullable part is rejected. Negation proved with a witness."
  },
  {
   "property": "C02",
   "status": "proved",
   "theorems": [
    "Verif.Ty.decode_trim",
    "Verif.Ty.decode_padded",
    "Verif.Ty.decode_caseInsensitive",
    "Verif.Ty.decode_caseInsensitive_concrete"
   ],
   "note": ""
  },
  {
   "property": "C03",
   "status": "partial",
   "theorems": [
    "Verif.Ty.decode_param_total_partial",
    "Verif.Ty.decode_concrete_ub",
    "Verif.Ty.decode_null_component",
    "Verif.Ty.decodeByName_concrete_ub_iff"
   ],
   "note": "No undefined behaviour in parameterised mode for every text. Concrete mode has undefined behaviour (witnesses, and the exact condition per level)."
  },
  {
   "property": "C04",
   "status": "proved",
   "theorems": [
    "Verif.Ty.topSplit_exists",
    "Verif.Ty.topSplit_unique",
    "Verif.Ty.decode_splits"
   ],
   "note": ""
  },
  {
   "property": "C05",
   "status": "partial",
   "theorems": [
    "Verif.Ty.match_refl",
    "Verif.Ty.match_decoded_twice",
    "Verif.Ty.match_refl_decl_iff",
    "Verif.Ty.match_refl_decl_fails"
   ],
   "note": "Proved for all concrete types. For types decoded in the default mode it is false (list<i32>); exact set proved."
  },
  {
   "property": "C06",
   "status": "partial",
   "theorems": [
    "Verif.Ty.match_nullable_partial",
    "Verif.Ty.match_nullable_decl",
    "Verif.Ty.match_nullable_struct_fails"
   ],
   "note": "Full for every declaration decoded from text in the default mode. False for concrete Struct objects (witness)."
  },
  {
   "property": "C07",
   "status": "partial",
   "theorems": [
    "Verif.Ty.match_concrete",
    "Verif.Ty.match_concrete_iff",
    "Verif.Ty.match_accepts_partial",
    "Verif.Ty.match_of_accepts",
    "Verif.Ty.match_accepts_full_fails",
    "Verif.Ty.match_trans",
    "Verif.Ty.match_antisymm_partial",
    "Verif.Ty.match_antisymm_noNullStruct"
   ],
   "note": "Exact behaviour proved. As stated it is false: the nullability of structs is ignored (witness)."
  },
  {
   "property": "C08",
   "status": "partial",
   "theorems": [
    "Verif.Ty.decode_decl",
    "Verif.Ty.match_decl_sound",
    "Verif.Ty.match_decl_partial",
    "Verif.Ty.match_fixedBinary_never",
    "Verif.Ty.match_wildcard",
    "Verif.Ty.match_placeholder"
   ],
   "note": "Full except fixedbinary, which accepts nothing (proved)."
  },
  {
   "property": "C09",
   "status": "proved",
   "theorems": [
    "Verif.Ty.signature_iff"
   ],
   "note": ""
  },
  {
   "property": "C10",
   "status": "proved",
   "theorems": [
    "Verif.Fn.lookup_sound",
    "Verif.Fn.lookup_none_iff",
    "Verif.Fn.lookup_total",
    "Verif.Fn.lookup_complete"
   ],
   "note": ""
  },
  {
   "property": "C11",
   "status": "proved",
   "theorems": [
    "Verif.Fn.lookup_stable",
    "Verif.Fn.lookup_unaffected",
    "Verif.Fn.lookup_new"
   ],
   "note": ""
  },
  {
   "property": "C12",
   "status": "partial",
   "theorems": [
    "Verif.Fn.tryMatch_fixed_iff",
    "Verif.Fn.tryMatch_variadic_partial",
    "Verif.Fn.tryMatch_accepts_iff",
    "Verif.Fn.variadic_only_first",
    "Verif.Fn.variadic_enum_accepts_all",
    "Verif.Fn.variadic_negative_max",
    "Verif.Fn.variadic_no_args_ub"
   ],
   "note": "Full for functions without variadic behaviour. Variadic functions: exact behaviour proved; the property is false there (four witnesses)."
  },
  {
   "property": "C13",
   "status": "proved",
   "theorems": [
    "Verif.Fn.aggregate_iff",
    "Verif.Fn.scalar_no_fallback"
   ],
   "note": ""
  },
  {
   "property": "C14",
   "status": "proved",
   "theorems": [
    "Verif.Fn.lookupType_first",
    "Verif.Fn.lookupType_addType",
    "Verif.Fn.lookupType_addImpl"
   ],
   "note": ""
  },
  {
   "property": "C15",
   "status": "partial",
   "theorems": [
    "Verif.Fn.load_paths_partial",
    "Verif.Fn.path_without_slash",
    "Verif.Fn.load_contents",
    "Verif.Fn.load_lookup",
    "Verif.Fn.lastLine_spec"
   ],
   "note": "Full for base paths with a slash; without one the derived path is wrong (witness)."
  },
  {
   "property": "C16",
   "status": "proved",
   "theorems": [
    "Verif.Decimal.toBaseString_eq",
    "Verif.Decimal.toBaseString_long"
   ],
   "note": ""
  },
  {
   "property": "C17",
   "status": "partial",
   "theorems": [
    "Verif.Decimal.fromString_natText",
    "Verif.Decimal.fromString_roundtrip_partial",
    "Verif.Decimal.fromString_tooBig",
    "Verif.Decimal.fromString_big_wraps",
    "Verif.Decimal.fromString_negative",
    "Verif.Decimal.bytes_roundtrip_partial",
    "Verif.Decimal.bytes_roundtrip_fails",
    "Verif.Decimal.fromString_accepts_iff",
    "Verif.Decimal.fromString_rejects"
   ],
   "note": "Exact set of accepted texts and the exact result proved. As stated false: negative numerals are refused, numerals from 2^127 print negative."
  },
  {
   "property": "C18",
   "status": "proved",
   "theorems": [
    "Verif.Decimal.isValid_iff",
    "Verif.Decimal.proto_roundtrip",
    "Verif.Decimal.toString_eq"
   ],
   "note": ""
  },
  {
   "property": "C19",
   "status": "proved",
   "theorems": [
    "Verif.StringSpec.trim_iff",
    "Verif.StringSpec.trim_idempotent",
    "Verif.StringSpec.isInteger_iff"
   ],
   "note": ""
  },
  {
   "property": "C20",
   "status": "partial",
   "theorems": [
    "Verif.StringSpec.startsWith_iff_partial",
    "Verif.StringSpec.endsWith_iff_partial",
    "Verif.StringSpec.startsWith_self"
   ],
   "note": "Proved exactly for different strings; false for equal strings."
  },
  {
   "property": "C21",
   "status": "partial",
   "theorems": [
    "Verif.Io.detect_iff",
    "Verif.Io.loadPlan_dispatch",
    "Verif.Io.loadPlan_binary",
    "Verif.Io.loadPlan_text",
    "Verif.Io.loadPlan_protoText",
    "Verif.Io.loadPlan_json",
    "Verif.Io.formatName_case",
    "Verif.Io.formatName_iff",
    "Verif.Io.saved_json_partial",
    "Verif.Io.saved_json_undetected",
    "Verif.Io.saved_protoText_partial",
    "Verif.Io.saved_as_json",
    "Verif.Io.saved_protoText_as_json",
    "Verif.Io.saved_text_as_json",
    "Verif.Io.capitals_undetected",
    "Verif.Io.saved_binary_misdetected",
    "Verif.Io.saved_binary_as_text"
   ],
   "note": "Exact condition for every detected format and the dispatch proved for all texts. Files written by the library are detected only under conditions; false otherwise (witnesses)."
  },
  {
   "property": "C22",
   "status": "partial",
   "theorems": [
    "Verif.Io.save_ok",
    "Verif.Io.save_ok_works",
    "Verif.Io.save_succeeds",
    "Verif.Io.save_error_keeps_partial",
    "Verif.Io.save_error_leaves",
    "Verif.Io.save_error_destroys"
   ],
   "note": "Success case full. A failing save keeps the file only if the file could not be opened; otherwise it is destroyed (witness)."
  },
  {
   "property": "C23",
   "status": "partial",
   "theorems": [
    "Verif.Io.load_exactly_one",
    "Verif.Io.load_size_partial",
    "Verif.Io.load_size_fails",
    "Verif.Io.save_null_iff_partial",
    "Verif.Io.save_message_unreadable",
    "Verif.Io.save_ignores_decode_failure"
   ],
   "note": "Buffer xor message proved; size holds below 2^31 only; the message of saving is dangling and decode failures are ignored (witnesses)."
  },
  {
   "property": "C24",
   "status": "partial",
   "theorems": [
    "Verif.Sym.runAll_shows",
    "Verif.Sym.runAll_ok_iff",
    "Verif.Sym.lookupSymbolByName_eq",
    "Verif.Sym.lookupSymbolsByLocation_eq",
    "Verif.Sym.lookup_stable",
    "Verif.Sym.update_target_partial",
    "Verif.Sym.update_hits_other",
    "Verif.Sym.update_unknown_ub",
    "Verif.Sym.nthSymbolByType_eq",
    "Verif.Sym.lookupByLocationAndTypes_eq"
   ],
   "note": "Refinement of an abstract log for every history. Updates reach the symbol meant only if no two symbols share name, location and type (witness)."
  },
  {
   "property": "C25",
   "status": "partial",
   "theorems": [
    "Verif.Sym.getUniqueName_issued",
    "Verif.Sym.uniqueNames_partial",
    "Verif.Sym.uniqueNames_collide",
    "Verif.Sym.uniqueName_ignores_definitions"
   ],
   "note": "Proved if no base ends in a digit; false otherwise (witness)."
  },
  {
   "property": "C26",
   "status": "partial",
   "theorems": [
    "Verif.Sym.parentIndex_partial",
    "Verif.Sym.lookupByParent_partial",
    "Verif.Sym.parentIndex_twice"
   ],
   "note": "Proved for histories that attach no symbol twice; false otherwise (witness)."
  },
  {
   "property": "C27",
   "status": "partial",
   "theorems": [
    "Verif.Sym.symbolTypeName_partial",
    "Verif.Sym.symbolTypeName_fails"
   ],
   "note": "Exact behaviour; false for roots, tables and measures."
  },
  {
   "property": "C28",
   "status": "proved",
   "theorems": [
    "Verif.Sym.location_eq",
    "Verif.Sym.location_hash",
    "Verif.Sym.location_order"
   ],
   "note": ""
  },
  {
   "property": "C29",
   "status": "proved",
   "theorems": [
    "Verif.Err.messages_eq",
    "Verif.Err.result_eq",
    "Verif.Err.addErrors_eq",
    "Verif.Err.hasErrors_iff"
   ],
   "note": ""
  },
  {
   "property": "C50",
   "status": "proved",
   "theorems": [
    "Verif.Fn.decodeImpl_of",
    "Verif.Fn.decodeArg_of",
    "Verif.Fn.lastLine_spec"
   ],
   "note": ""
  },
  {
   "property": "C30",
   "status": "partial",
   "theorems": [
    "Verif.Norm.normalize_idempotent_partial",
    "Verif.Norm.normalize_idempotent_valid_partial",
    "Verif.Norm.normalize_type_not_idempotent"
   ],
   "note": "Proved for plans that declare only functions, none twice; for every std::sort. False if a type is declared (witness)."
  },
  {
   "property": "C31",
   "status": "partial",
   "theorems": [
    "Verif.Norm.normalize_meaning_partial",
    "Verif.Norm.normalize_ok",
    "Verif.Norm.normalize_type_meaning",
    "Verif.Norm.normalize_window_meaning",
    "Verif.Norm.normalize_measure_argument",
    "Verif.Norm.normalize_creates",
    "Verif.Norm.normalize_undeclared"
   ],
   "note": "Proved for valid plans that declare only functions and have no reference in a forgotten place (list in Spec/Normalizer.lean: missed). False otherwise (witnesses)."
  },
  {
   "property": "C32",
   "status": "partial",
   "theorems": [
    "Verif.Norm.normalize_canonical_partial",
    "Verif.Norm.normalize_window_not_canonical"
   ],
   "note": "Proved under the same conditions and without duplicates, for every pair of std::sort implementations. False for forgotten places (witness)."
  },
  {
   "property": "C33",
   "status": "partial",
   "theorems": [
    "Verif.StrLit.quoted_token_partial",
    "Verif.StrLit.string_roundtrip_partial",
    "Verif.StrLit.string_roundtrip_fails"
   ],
   "note": "Proved for every value without a backslash and every following text. False for values with backslashes (witnesses)."
  },
  {
   "property": "C34",
   "status": "partial",
   "theorems": [
    "Verif.StrLit.escapeText_total",
    "Verif.StrLit.escapeText_pieces",
    "Verif.StrLit.escapeText_unknown",
    "Verif.StrLit.escapeText_silent",
    "Verif.StrLit.escapeText_signs",
    "Verif.StrLit.escapeText_not_utf8"
   ],
   "note": "Totality, well-formed text and unknown letters proved for all texts. Some malformed escapes are not reported and unicode escapes are not UTF-8 (witnesses)."
  },
  {
   "property": "C46",
   "status": "partial",
   "theorems": [
    "Verif.StrLit.uuid_accept_partial",
    "Verif.StrLit.uuid_bytes_fail"
   ],
   "note": "Acceptance proved as iff. The value is the digits, never the 16 bytes (proved for all accepted texts)."
  },
  {
   "property": "C51",
   "status": "partial",
   "theorems": [
    "Verif.StrLit.raw_string_partial",
    "Verif.StrLit.raw_string_three",
    "Verif.StrLit.raw_token",
    "Verif.StrLit.raw_token_one",
    "Verif.StrLit.raw_string_fails"
   ],
   "note": "Proved for contents that do not begin with a backtick, and for three backticks always. False for two backticks otherwise (witness)."
  },
  {
   "property": "C37",
   "status": "partial",
   "theorems": [
    "Verif.TyPb.printType_errors",
    "Verif.TyPb.printType_reread",
    "Verif.TyPb.printType_reread_partial",
    "Verif.TyPb.printType_unspecified_fails"
   ],
   "note": "Exact result of re-reading proved for every printable type (lists, maps and structs are never printable, proved as an iff); equal to the type except for unspecified nullability, which becomes required (witness)."
  },
  {
   "property": "C48",
   "status": "partial",
   "theorems": [
    "Verif.TyPb.typeText_total",
    "Verif.TyPb.typeText_reads",
    "Verif.TyPb.typeText_reads_partial",
    "Verif.TyPb.typeText_rejects_partial",
    "Verif.TyPb.typeText_full_fails",
    "Verif.TyPb.typeText_fixedBinary_fails",
    "Verif.TyPb.wellFormed_lengths",
    "Verif.TyPb.typeText_rejects_fails",
    "Verif.TyPb.typeText_inside_unknown",
    "Verif.TyPb.typeText_outside_grammar"
   ],
   "note": "Totality for every tree of the grammar and meaning for well-formed trees proved. The length of fixedbinary is dropped and malformed parameters are accepted (witnesses)."
  },
  {
   "property": "C35",
   "status": "partial",
   "theorems": [
    "Verif.Literal.literal_roundtrip",
    "Verif.Literal.literal_roundtrip_partial",
    "Verif.Literal.nested_not_printed",
    "Verif.Literal.boolean_fails",
    "Verif.Literal.nullable_lost",
    "Verif.Literal.nullable_decimal_fails",
    "Verif.Literal.date_wraps",
    "Verif.Literal.negative_decimal_fails",
    "Verif.Date.parseDate_dateText"
   ],
   "note": "Proved as an iff which literals survive printing, lexing, parsing and reading, for all values. False for booleans, nullable dates/intervals/decimals, dates outside the years -9999..9999 and negative decimals (witnesses)."
  },
  {
   "property": "C52",
   "status": "partial",
   "theorems": [
    "Verif.Literal.interval_defined",
    "Verif.Literal.constant_defined_partial",
    "Verif.Literal.interval_reads_past_end"
   ],
   "note": "Numbers and strings never reach undefined behaviour; intervals in braces do exactly if they have too few fields (iff, witnesses)."
  },
  {
   "property": "C53",
   "status": "partial",
   "theorems": [
    "Verif.Literal.constant_silent_iff",
    "Verif.Literal.constant_reported_partial",
    "Verif.Literal.number_silently_dropped",
    "Verif.Literal.struct_complete"
   ],
   "note": "Proved as an iff for every constant tree: only a number with a type that is not numeric is neither read nor reported (witness)."
  },
  {
   "property": "C36",
   "status": "partial",
   "theorems": [
    "Verif.Enum.relationType_roundtrip",
    "Verif.Enum.spellings",
    "Verif.Enum.spellings_join",
    "Verif.Enum.join_survives_iff",
    "Verif.Enum.phase_survives_iff",
    "Verif.Enum.direction_survives_iff",
    "Verif.Enum.invocation_survives_iff",
    "Verif.Enum.comparison_survives_iff",
    "Verif.Enum.reduction_survives_iff",
    "Verif.Enum.predicate_survives_iff",
    "Verif.Enum.join_unspecified_refused",
    "Verif.Enum.direction_unspecified_lost",
    "Verif.Enum.invocation_unknown_changed",
    "Verif.Enum.unknown_printed_empty",
    "Verif.Enum.unknown_operator_lost"
   ],
   "note": "For every integer an iff which enumerators survive, and for every text an iff how the reader takes it. All specified enumerators survive; join type 0, sort direction 0 and unknown numbers do not (witnesses). Set relations are never printed, so set operations are not covered."
  },
  {
   "property": "C49",
   "status": "proved",
   "theorems": [
    "Verif.Enum.caseName_eq",
    "Verif.Enum.caseNames_total"
   ],
   "note": ""
  },
  {
   "property": "C44",
   "status": "partial",
   "theorems": [
    "Verif.Filter.filters_accepted_partial",
    "Verif.Filter.reported_unchanged",
    "Verif.Filter.meaningless_words_accepted",
    "Verif.Filter.meaningless_words_reported"
   ],
   "note": "For every relation type and every sequence of clauses with meaningful words and readable conditions: exactly which filters result and exactly which clauses are reported. False for clauses with unknown words, which are reported and still set the filter (witness)."
  },
  {
   "property": "C42",
   "status": "partial",
   "theorems": [
    "Verif.Ext.functions_written_iff",
    "Verif.Ext.functions_complete_iff",
    "Verif.Ext.functions_sound",
    "Verif.Ext.functions_unplaced",
    "Verif.Ext.functions_reread_partial",
    "Verif.Ext.functions_dropped",
    "Verif.Ext.functions_dropped_unknown",
    "Verif.Ext.space_without_uri_fails",
    "Verif.Ext.unwritable_names",
    "Verif.Ext.binary_complete",
    "Verif.Ext.binary_resolves_iff",
    "Verif.Ext.binary_resolves_text",
    "Verif.Ext.binary_wrong_space",
    "Verif.Ext.binary_placed",
    "Verif.Ext.binary_roundtrip",
    "Verif.Ext.binary_names_collide"
   ],
   "note": "Text: an iff when the section is written and an iff when it lists every function once under its space; read back through lexer and parser. Binary: every function gets one declaration, and an iff when its reference resolves. False for spaces that share a URI, for functions without a space and for unknown spaces when number 0 is taken (witnesses)."
  },
  {
   "property": "C47",
   "status": "proved",
   "theorems": [
    "Verif.Ext.spaces_numbered",
    "Verif.Ext.function_numbered",
    "Verif.Ext.functions_counted",
    "Verif.Ext.untyped_reported"
   ],
   "note": "Spaces without a URI get no number and their functions record no space."
  },
  {
   "property": "C54",
   "status": "partial",
   "theorems": [
    "Verif.Literal.boolean_read",
    "Verif.Literal.null_read",
    "Verif.Literal.map_read",
    "Verif.Literal.list_read",
    "Verif.Literal.struct_read",
    "Verif.Literal.map_as_struct_lost",
    "Verif.Literal.boolean_words"
   ],
   "note": "Proved for booleans, nulls, maps, lists and structs. False for a map that is given a struct type: its pairs are lost (witness)."
  },
  {
   "property": "C40",
   "status": "partial",
   "theorems": [
    "Verif.Pipe.relations_roundtrip_partial",
    "Verif.Pipe.read_subquery_dropped",
    "Verif.Pipe.kinds_unreadable"
   ],
   "note": "Proved for every tree of relations that can be written as text, with the right number of inputs, distinct readable names and subqueries outside of reads; through printing, lexing, parsing, reading and reassembly. False for subqueries in reads and for the other relation types (witness; iff for the types)."
  },
  {
   "property": "C41",
   "status": "partial",
   "theorems": [
    "Verif.Pipe.pipelines_accepted_iff",
    "Verif.Pipe.pipelines_graph",
    "Verif.Pipe.pipelines_inputs",
    "Verif.Pipe.pipelines_forest_partial",
    "Verif.Pipe.cycle_accepted",
    "Verif.Pipe.two_consumers_accepted",
    "Verif.Pipe.order_matters",
    "Verif.Pipe.loop_with_schema_accepted",
    "Verif.Pipe.other_name_undefined"
   ],
   "note": "For every sequence of pipelines: an iff when there is no error, and the exact graph that results. The graph is a forest only under a further hypothesis; cycles over two pipelines and relations with two consumers are accepted (witnesses for all names)."
  },
  {
   "property": "C55",
   "status": "partial",
   "theorems": [
    "Verif.Pipe.relations_roundtrip_partial",
    "Verif.Pipe.no_root_dropped",
    "Verif.Pipe.second_root_dropped",
    "Verif.Pipe.join_in_the_middle_dropped",
    "Verif.Pipe.read_subquery_dropped",
    "Verif.Pipe.cycle_diverges"
   ],
   "note": "Nothing is dropped in the texts printed for a binary plan (C40). False in general: witnesses for a start other than root, a second input of root, a join without two ending pipelines, subqueries of reads; a cycle never ends."
  },
  {
   "property": "C43",
   "status": "partial",
   "theorems": [
    "Verif.Schema.emit_selects_text",
    "Verif.Schema.emit_selects_binary",
    "Verif.Schema.emit_exposes_partial",
    "Verif.Schema.emit_nothing_gives_all",
    "Verif.Schema.emit_out_of_range_gives_all"
   ],
   "note": "For every schema and every list of numbers: exactly the selected fields and exactly the reported numbers, in both directions. What later relations see is the selection only if it is not empty (witnesses for the rest)."
  },
  {
   "property": "C38",
   "status": "partial",
   "theorems": [
    "Verif.Schema.reference_roundtrip_partial",
    "Verif.Schema.find_innermost",
    "Verif.Schema.find_last",
    "Verif.Schema.outer_reference_captured",
    "Verif.Schema.emit_of_grouped_column_lost",
    "Verif.Schema.group_twice_undefined",
    "Verif.Schema.measure_of_grouped_field_moves",
    "Verif.Schema.read_filter_refused",
    "Verif.Schema.same_name_captured",
    "Verif.Schema.read_emit_lost"
   ],
   "note": "Proved for every nesting of scopes when the field is found by no other name in its scope or further in. False for equal names, for outer fields hidden by inner ones, for grouped columns in emits and measures, and for filters of reads (witnesses). Names are compared as texts; that they are lexed as one name is proved with C40."
  },
  {
   "property": "C56",
   "status": "partial",
   "theorems": [
    "Verif.Schema.binary_schema_partial",
    "Verif.Schema.fields_survive_text_partial",
    "Verif.Schema.computed_grouping_lost",
    "Verif.Schema.empty_aggregate_gives_input",
    "Verif.Schema.read_emit_lost",
    "Verif.Schema.same_name_captured"
   ],
   "note": "Proved for all trees under stated conditions on aggregates, names and the place of emits; each condition has a witness. Expressions are represented by the field numbers in them; sets, semi joins and subqueries are outside the model of trees."
  },
  {
   "property": "C39",
   "status": "partial",
   "theorems": [
    "Verif.Expr.expression_roundtrip_partial",
    "Verif.Expr.visit_image",
    "Verif.Expr.unproducible_lost",
    "Verif.Expr.unproducible_kinds",
    "Verif.Expr.printed_alike",
    "Verif.Expr.printed_throws",
    "Verif.Expr.empty_ifThen_lost",
    "Verif.Expr.enum_column_captured",
    "Verif.Expr.ifThen_function_captured",
    "Verif.Expr.null_column_captured",
    "Verif.Expr.type_argument_lost",
    "Verif.Expr.column_missing_reported"
   ],
   "note": "Proved for every expression of Readable, of any depth, through printing, lexing, parsing and reading. Everything outside the image of the reader is lost (for all contexts and texts); witnesses for the other conditions. Names of relations are resolved through C40, of fields through C38."
  },
  {
   "property": "C57",
   "status": "partial",
   "theorems": [
    "Verif.Expr.condition_accepted_iff",
    "Verif.Expr.condition_accepted_partial",
    "Verif.Expr.first_visit",
    "Verif.Expr.first_clean",
    "Verif.Expr.condition_refused",
    "Verif.Expr.printed_condition_refused"
   ],
   "note": "False as stated: a condition that is a subquery is refused. Exact: of the conditions the second pass reads the first pass accepts those of Acceptable, at every depth; outside subqueries both passes give the same expression and the same errors, except that only the second reports a missing column."
  },
  {
   "property": "C45",
   "status": "partial",
   "theorems": [
    "Verif.Rel.relation_roundtrip_partial",
    "Verif.Rel.relation_printed_alike",
    "Verif.Rel.relation_silently_changed",
    "Verif.Rel.relation_image",
    "Verif.Rel.unproducible_relation_lost",
    "Verif.Rel.unproducible_relations",
    "Verif.Rel.relation_reported",
    "Verif.Rel.comparison_replaces_sorts",
    "Verif.Rel.unspecified_direction_lost",
    "Verif.Rel.second_filter_refused",
    "Verif.Rel.source_ignored",
    "Verif.Rel.post_join_unreadable",
    "Verif.Rel.measure_undefined",
    "Verif.Rel.measure_column_undefined",
    "Verif.Rel.measure_name_taken_for_phase"
   ],
   "note": "False as stated. Proved for every relation of RelReadable (all kinds that can be printed, both passes, inside and outside subqueries) through printing, lexing, parsing and reading. Everything that differs from its forget is silently changed; everything outside BodyProducible has no text; what the printer reports is listed by Reported. Inputs of relations are C40, fields are C38 and C56, expressions are C39."
  },
  {
   "property": "C58",
   "status": "partial",
   "theorems": [
    "Verif.Sec.names_reported",
    "Verif.Sec.plan_errors",
    "Verif.Sec.root_name_split",
    "Verif.Sec.roots_refused",
    "Verif.Sec.roots_unnamed"
   ],
   "note": "Acceptance is an exact iff, for every list of plan details and for every printed plan. Names of roots survive in C61; false in general: names are not escaped, so one name can become two, and of two named roots the text is refused (proved for all such plans)."
  },
  {
   "property": "C59",
   "status": "partial",
   "theorems": [
    "Verif.Sec.plan_roundtrip_partial",
    "Verif.Sec.schema_found",
    "Verif.Sec.schema_unknown",
    "Verif.Sec.kept_iff",
    "Verif.Sec.schema_captured",
    "Verif.Sec.schemaText_same",
    "Verif.Sec.nested_schema_lost"
   ],
   "note": "For every list of definitions: the exact definition that is found by a name, and exactly what of a schema is left; an iff when that is everything. False: a column with the name of a later schema makes relations use the wrong schema without an error; types the printer does not support are printed without an error (witnesses)."
  },
  {
   "property": "C60",
   "status": "partial",
   "theorems": [
    "Verif.Sec.plan_roundtrip_partial",
    "Verif.Sec.source_printed",
    "Verif.Sec.plan_printed",
    "Verif.Sec.source_found",
    "Verif.Sec.source_unknown",
    "Verif.Sec.file_read",
    "Verif.Sec.keptFile_iff",
    "Verif.Sec.source_captured",
    "Verif.Sec.table_split",
    "Verif.Sec.table_empty_refused",
    "Verif.Sec.files_empty_refused",
    "Verif.Sec.files_many_refused",
    "Verif.Sec.unreadable_plan",
    "Verif.Sec.format_refused",
    "Verif.Sec.path_lost",
    "Verif.Sec.file_twice"
   ],
   "note": "For every list of definitions: what is found by a name; an iff what is printed. Survives: tables with at least one name, single files given by uri_file in parquet or orc. False for everything else, each for all names and files: two or more files, none, arrow and dwrf cannot be read, whatever else is in the plan; other paths are lost without an error; the same file in a second source becomes an empty item."
  },
  {
   "property": "C61",
   "status": "partial",
   "theorems": [
    "Verif.Sec.plan_roundtrip_partial",
    "Verif.Sec.plan_errors",
    "Verif.Sec.definitions_read"
   ],
   "note": "Proved for every plan of PlanOk, of any size, through printing of all sections, lexing, parsing and the visitors. The contexts of relations are those of the table actually read for schemas and sources; the numbers of functions are taken to be the same on both sides."
  },
  {
   "property": "C62",
   "status": "partial",
   "theorems": [
    "Verif.Whole.binary_text_binary_partial",
    "Verif.Whole.shadowed_function",
    "Verif.Whole.same_columns",
    "Verif.Whole.other_schema",
    "Verif.Whole.same_names_refused",
    "Verif.Whole.fresh_distinct",
    "Verif.Whole.related_below_join"
   ],
   "note": "Proved for every plan of Expressible, for trees of any size: one root, expressions of C39, names that cannot be mistaken, subqueries of all four kinds nested to any depth, with references to the columns of filters, sorts and joins around them, any number of steps out. The whole way is composed: names made up by the converter, columns of each relation, all sections of the text, lexing, parsing, both passes and the new binary plan. False as stated: witnesses, each outside one condition, where another function is called, other columns are compared, another schema is used, or the text is refused."
  },
  {
   "property": "C63",
   "status": "partial",
   "theorems": [
    "Verif.Whole.results_kept_partial",
    "Verif.Whole.computed_groups",
    "Verif.Whole.outer_column_replaced"
   ],
   "note": "Proved for every plan of Expressible (C62) whose groupings are columns, for all contents of tables and meanings of functions, orders included. False as stated: a plan of Expressible that groups by a computed value has other results afterwards, and so has one with a project of a column of the relation around a subquery (witnesses). Subqueries are evaluated for each row, with the rows around it."
  },
  {
   "property": "C64",
   "status": "partial",
   "theorems": [
    "Verif.Trav.noted",
    "Verif.Trav.every_relation_noted_partial",
    "Verif.Trav.passes_iff_complete",
    "Verif.Trav.answered_no_null",
    "Verif.Trav.second_follows",
    "Verif.Trav.linked",
    "Verif.Trav.needle_not_noted",
    "Verif.Trav.unanswered_null"
   ],
   "note": "For every plan that follows algebra.proto: exactly which relations get symbols, in which order, with which parents and links; which plans are refused (iff); the second visitor never fails after the first. Every relation gets a symbol if none is in a field that is not visited; false otherwise (witness), and a subquery without a relation uses a null pointer (witness)."
  },
  {
   "property": "C65",
   "status": "partial",
   "theorems": [
    "Verif.Whole.trip_onward",
    "Verif.Whole.again_and_again_partial",
    "Verif.Whole.results_again_partial",
    "Verif.Whole.text_fixed_partial",
    "Verif.Whole.text_settles_partial",
    "Verif.Whole.text_never_settles",
    "Verif.Whole.text_not_fixed"
   ],
   "note": "Proved for every plan of Expressible (C62), for any number of trips: each trip succeeds, what comes out says the same as the first plan and is again Expressible. Without overloads the first text is reproduced exactly; with at most nine overloads of a name the second text is. False as stated: with ten overloads the text never settles (witness, for all numbers of trips)."
  },
  {
   "property": "C66",
   "status": "proved",
   "theorems": [
    "Verif.Lex.layout_free",
    "Verif.Lex.layout_spaced",
    "Verif.Lex.layout_before",
    "Verif.Lex.layout_extensions",
    "Verif.Lex.layout_backslash",
    "Verif.Lex.layout_joined",
    "Verif.Whole.layout_plan",
    "Verif.Whole.layout_trip"
   ],
   "note": "For all texts, tokens and gaps, in both modes of the lexer, up to the binary plan that is made of the text. The two exceptions the statement names are real (theorem for all comments after extension_space; witness for strings that end in a backslash)."
  },
  {
   "property": "C67",
   "status": "proved",
   "theorems": [
    "Verif.Whole.order_details",
    "Verif.Whole.order_text",
    "Verif.Whole.order_trip",
    "Verif.Whole.order_relations",
    "Verif.Whole.order_names"
   ],
   "note": "For all texts with unambiguous names and all orders that keep the relations, the pipelines and the extension spaces in order among themselves, up to the binary plan; and all printed texts are such texts. The exceptions the statement names are real: with its relations in another order a text is accepted and means something else (witness), and a column with the name of a base schema makes the order matter (witness)."
  },
  {
   "property": "C68",
   "status": "partial",
   "theorems": [
    "Verif.Tools.transform_success",
    "Verif.Tools.transform_unloaded",
    "Verif.Tools.text_detected",
    "Verif.Tools.saved_text",
    "Verif.Tools.unsaved_text",
    "Verif.Tools.text_file_partial",
    "Verif.Tools.tool_trip_partial",
    "Verif.Tools.text_file_as_json",
    "Verif.Tools.text_file_as_protoText"
   ],
   "note": "The exit code and the output file: for all inputs. The trip through a text file: for all plans that text can express (C62) whose text is not mistaken for JSON or protobuf text; witnesses show that both mistakes happen (D17, D112), so the unconditional claim is false. Text is never mistaken for a binary plan."
  },
  {
   "property": "C69",
   "status": "proved",
   "theorems": [
    "Verif.Whole.case_grammar",
    "Verif.Whole.case_plan",
    "Verif.Whole.case_trip",
    "Verif.Whole.case_root",
    "Verif.Whole.case_file",
    "Verif.Whole.case_enum"
   ],
   "note": "For all texts, up to the binary plan that is made of them or the failure. The three exceptions that the statement names are real (witnesses)."
  },
  {
   "property": "C70",
   "status": "proved",
   "theorems": [
    "Verif.Whole.unused_details",
    "Verif.Whole.unused_text",
    "Verif.Whole.unused_trip",
    "Verif.Whole.unused_clash"
   ],
   "note": "For all texts and places, as an equality of what becomes of the text (plan or failure), also for several such definitions and for all printed plans. The condition on names is needed: a column called like a relation has the text refused (witness)."
  },
  {
   "property": "C71",
   "status": "proved",
   "theorems": [
    "Verif.Whole.rename_details",
    "Verif.Whole.rename_text",
    "Verif.Whole.rename_trip",
    "Verif.Whole.rename_clash",
    "Verif.Whole.rename_enum"
   ],
   "note": "For all texts and all injective renamings of relations, sources, schemas, functions and computed columns that keep every other name, as an equality of what becomes of the text (plan or failure), and for all printed plans. The exceptions are real: a source called like a column has the text refused, and a subquery whose relation has a name in _enum is lost (witnesses)."
  },
  {
   "property": "C72",
   "status": "proved",
   "theorems": [
    "Verif.Whole.renumber_text",
    "Verif.Whole.renumber_trip",
    "Verif.Whole.number_twice"
   ],
   "note": "For all binary plans and all injective renumberings of functions and of URIs, as an equality of what becomes of the plan (text or failure); for plans that text can express (C62) the plan read back is one and the same for all numberings. Numbers must stay different: with one number for two functions the plan is printed without an error as another one (witness)."
  },
  {
   "property": "C73",
   "status": "proved",
   "theorems": [
    "Verif.Whole.redeclared_text",
    "Verif.Whole.redeclared_perm",
    "Verif.Whole.overloads_order",
    "Verif.Whole.sameUri_order"
   ],
   "note": "For all binary plans and all such orders, as an equality of what becomes of the plan (text or failure), for every correct std::sort. The conditions are needed: overloads get other names in another order, and with two numbers for one URI the order decides which functions are missing (witnesses)."
  },
  {
   "property": "C74",
   "status": "proved",
   "theorems": [
    "Verif.Whole.toText_defined",
    "Verif.Whole.toText_room",
    "Verif.Whole.relations_named"
   ],
   "note": "For all binary plans of the model, without any condition on what they contain, and with as many steps as there are relations. The plans of the model have one root and all inputs of their relations set; running out of stack on deep plans is not modelled."
  },
  {
   "property": "C75",
   "status": "proved",
   "theorems": [
    "Verif.Rel.relation_holds",
    "Verif.Rel.misplaced_reported",
    "Verif.Whole.plan_placed",
    "Verif.Whole.count_twice"
   ],
   "note": "For all texts. Expressions, filters, groupings, sorts, measures and emits are counted (their values are the subject of C45 and C62). count and type are not counted because the last one replaces the others without an error (witness); a schema or source name that is not known is ignored (C45)."
  },
  {
   "property": "C76",
   "status": "partial",
   "theorems": [
    "Verif.Fault.decode_kind",
    "Verif.Fault.decode_names_partial",
    "Verif.Fault.unsupported_names",
    "Verif.Fault.what_says",
    "Verif.Fault.braces_misreported",
    "Verif.Fault.length_names"
   ],
   "note": "For all type texts without braces. With braces the claim is false (witness: fmt::format_error instead of a SubstraitException), and the condition is exact for the part that is named. fmt is modelled with text arguments and plain fields."
  },
  {
   "property": "C77",
   "status": "partial",
   "theorems": [
    "Verif.Whole.same_reading_partial",
    "Verif.Whole.same_text_partial",
    "Verif.Whole.different_plans_same_text"
   ],
   "note": "For all pairs of plans that text can express (Expressible, C62); results for plans that group by columns (C63). For other plans the claim is false (witness: columns without a type)."
  },
  {
   "property": "C78",
   "status": "partial",
   "theorems": [
    "Verif.Whole.text_room",
    "Verif.Whole.accepted_apart",
    "Verif.Whole.text_ends_partial",
    "Verif.Whole.within_never",
    "Verif.Whole.within_endless",
    "Verif.Whole.own_query_endless"
   ],
   "note": "For all accepted texts in which no relation is within itself, with the bound on the depth; otherwise the claim is false: the recursion has no end (for all such texts with all inputs in place, and a concrete witness)."
  },
  {
   "property": "C79",
   "status": "partial",
   "theorems": [
    "Verif.Whole.text_defined_partial",
    "Verif.Whole.details_defined_partial",
    "Verif.Whole.text_undefined",
    "Verif.Whole.text_defined_fails"
   ],
   "note": "For all texts that keep to SoundPlan, with a library whose number readers return or throw. For other texts the claim is false; text_undefined has a text against each condition."
  },
  {
   "property": "C80",
   "status": "proved",
   "theorems": [
    "Verif.Sec.text_formed",
    "Verif.Sec.text_schemas_defined",
    "Verif.TyPb.type_formed",
    "Verif.TyPb.type_total",
    "Verif.TyPb.type_reads"
   ],
   "note": "For all texts; the grammar is modelled by a recursive descent parser (trusted base)."
  },
  {
   "property": "C81",
   "status": "partial",
   "theorems": [
    "Verif.Debug.debug_shows_partial",
    "Verif.Debug.debug_lines",
    "Verif.Debug.debug_numbers",
    "Verif.Debug.alternative_misplaced",
    "Verif.Debug.alternative_wrong",
    "Verif.Debug.dotted_name"
   ],
   "note": "For all tables with names without blanks, dots and ends of lines and without alternative expressions; the number of lines for all tables. With alternative expressions or dotted names the claim is false (D121, witnesses)."
  },
  {
   "property": "C82",
   "status": "partial",
   "theorems": [
    "Verif.CommandLine.converter_each_partial",
    "Verif.CommandLine.converter_stops",
    "Verif.CommandLine.converter_exit",
    "Verif.CommandLine.converter_exit_wrong",
    "Verif.CommandLine.parser_each_partial",
    "Verif.CommandLine.parser_mixed",
    "Verif.CommandLine.converter_file_partial"
   ],
   "note": "For all lists of files for which no exception leaves the library; the text for all plans that text can express. The exit code does not tell whether it worked and planparser mixes errors with plans (D122, D123, witnesses). glob is external."
  },
  {
   "property": "C83",
   "status": "proved",
   "theorems": [
    "Verif.Braces.text_sections",
    "Verif.Braces.unbalanced_refused",
    "Verif.Braces.open_end_refused",
    "Verif.Braces.cut_between",
    "Verif.Braces.cut_refused"
   ],
   "note": "For all texts. Refused means a syntax error, as in the model of the parser (the real one reports it and goes on). Cuts inside a token change that token; unbalanced_refused and open_end_refused hold of the tokens that are left."
  },
  {
   "property": "C84",
   "status": "partial",
   "theorems": [
    "Verif.Braces.cut_anywhere_partial",
    "Verif.Braces.cut_anywhere_fails"
   ],
   "note": "For all starts of texts without backslashes and backticks. With them the claim is false (D125, witnesses)."
  },
  {
   "property": "C85",
   "status": "proved",
   "theorems": [
    "Verif.Scope.scope_member",
    "Verif.Scope.place_restored",
    "Verif.Scope.outer_unused",
    "Verif.Scope.parents_innermost",
    "Verif.Scope.broken_restored"
   ],
   "note": "For all messages and all hooks, for the two visitors that read binary plans. What a hook has written before it throws is left out; the depth and scope of PlanPrinterVisitor are arguments in the model (C39, C62)."
  },
  {
   "property": "C86",
   "status": "proved",
   "theorems": [
    "Verif.Trav.pipeline_ends",
    "Verif.Trav.subquery_marked",
    "Verif.Trav.marks_disjoint"
   ],
   "note": "For all plans in which the addresses of relations differ. The loop is modelled on the links of the whole plan; those it uses have been made when it runs."
  },
  {
   "property": "C87",
   "status": "partial",
   "theorems": [
    "Verif.Trav.query_parent_partial",
    "Verif.Trav.query_parent_none",
    "Verif.Trav.below_join_lost"
   ],
   "note": "For the relations on the line of only inputs of a subquery; for the others nothing is found, so the claim is false for relations below a join of a subquery (D127, witness). Addresses of relations differ."
  }
 ]
}