import Verif.Prop.SectionsNames

/-!
# C59 and C60: schemas and sources

What is found by the name of a schema or a source, whatever else has the name.
-/

namespace Verif.Sec

open Verif Verif.TyPb Verif.Tree Verif.Literal Verif.Lex Verif.Parse Verif.Expr
open Verif.Rel (Line GoodLine openTok closeTok semiTok)

/-! ## The definitions alone -/

/-- The text of definitions. -/
def Defines (ds : List Def) (text : Str) : Prop :=
  ∃ texts : List Str, ds.map defText = texts.map .ok ∧ text = separated texts

theorem planText_one (s : Str) : planText [s] = s := by
  unfold planText
  cases h : s.isEmpty with
  | true => simp [separated, List.isEmpty_iff.mp h]
  | false => simp [h, separated]

/-- The text of definitions is read as their symbols. -/
theorem definitions_read (ds : List Def) (h : ∀ d ∈ ds, DefOk d) (hf : FreshFiles [] ds) :
    ∃ text details, Defines ds text ∧ detailsOf text = some details ∧
      visitPlan details = .ok ⟨groups 0 ds, ds.foldl extAfter {}, []⟩ := by
  refine ⟨separated (ds.map fun d => (defLine d).text), ds.map fun d => (defLine d).detail,
    ⟨ds.map fun d => (defLine d).text, ?_, rfl⟩, ?_, ?_⟩
  · rw [List.map_map]
    apply List.map_congr_left
    intro d hd
    exact (defLine_ok (h d hd)).text
  · have h1 := detailsOf_sections [ds.map defLine] (by
      intro s hs l hl
      simp only [List.mem_singleton] at hs
      subst hs
      obtain ⟨d, hd, rfl⟩ := List.mem_map.mp hl
      exact (defLine_ok (h d hd)).good)
    rw [List.map_cons, List.map_nil, planText_one] at h1
    simpa [Function.comp_def] using h1
  · have h1 := visitDefinitions_defs defLine ds 0 {} (fun d hd => defLine_ok (h d hd)) hf
    rw [visitPlan, h1]
    simp only [Outcome.map]
    rw [visitRelations_neutral _ _ _ (by
        intro x hx
        obtain ⟨d, hd, rfl⟩ := List.mem_map.mp hx
        exact isDef_noRelation (defLine_ok (h d hd)).isDef), visitRoots_neutral _ _ _ (by
        intro x hx
        obtain ⟨d, hd, rfl⟩ := List.mem_map.mp hx
        exact isDef_noRoot (defLine_ok (h d hd)).isDef)]
    simp

/-! ## What is found by a name -/

/-- The first definition that has the name. -/
def firstWith (n : Str) (ds : List Def) : Option Def := ds.find? fun d => n ∈ d.names

theorem lookup_first (n : Str) : ∀ (ds : List Def) (k : Nat) (d : Def), firstWith n ds = some d →
    ∃ i : Nat, ds[i]? = some d ∧ lookup (groups k ds) n = lookup (groupOf (k + i) d) n ∧
      ∃ s, lookup (groups k ds) n = some s ∧ s.loc = k + i
  | [], _, _, h => by simp [firstWith] at h
  | e :: ds, k, d, h => by
    by_cases hn : n ∈ e.names
    · simp only [firstWith, List.find?_cons, hn, decide_true, Option.some.injEq] at h
      subst h
      have hs : (lookup (groupOf k e) n).isSome := by rw [lookup_isSome, groupOf_names]; exact hn
      obtain ⟨s, hs⟩ := Option.isSome_iff_exists.mp hs
      have hg : lookup (groups k (e :: ds)) n = some s := by
        rw [groups]; exact lookup_append_left hs
      refine ⟨0, rfl, by rw [hg, Nat.add_zero, hs], s, hg, ?_⟩
      exact groupOf_loc k e s (List.mem_of_find?_eq_some hs)
    · have h' : firstWith n ds = some d := by
        simpa [firstWith, List.find?_cons, hn] using h
      obtain ⟨i, h1, h2, s, h3, h4⟩ := lookup_first n ds (k + 1) d h'
      have hg : lookup (groups k (e :: ds)) n = lookup (groups (k + 1) ds) n := by
        rw [groups, lookup_append_right]
        rw [groupOf_names]
        exact hn
      refine ⟨i + 1, h1, ?_, s, by rw [hg, h3], by omega⟩
      rw [hg, h2]
      congr 2
      omega

/-- The schema that is taken for that of a definition. -/
def schemaTaken : Def → NamedStruct
  | .schema _ s => kept s
  | _ => ⟨[], none⟩

theorem columns_groupOf (loc : Nat) (d : Def) (h : DefOk d) :
    structOf (columnsAt (groupOf loc d) loc) = schemaTaken d := by
  cases d with
  | schema n s =>
    have : columnsAt (groupOf loc (.schema n s)) loc = s.names.zip s.types := by
      simp [columnsAt, groupOf, List.filterMap_map, Function.comp_def]
    rw [this, structOf_zip (schemaOk_of h)]
    rfl
  | source n s =>
    have : columnsAt (groupOf loc (.source n s)) loc = [] := by
      cases s <;> simp [columnsAt, groupOf]
    rw [this]
    rfl
  | space b =>
    have : columnsAt (groupOf loc (.space b)) loc = [] := by
      simp [columnsAt, groupOf, spaceSymbols]
    rw [this]
    rfl

theorem columnsAt_groups {ds : List Def} {i : Nat} {d : Def} (hi : ds[i]? = some d) :
    columnsAt (groups 0 ds) i = columnsAt (groupOf i d) i := by
  unfold columnsAt
  have := filterMap_groups (fun s : Symbol => match s.info with
    | .column t => if s.loc = i then some (s.name, t) else none
    | _ => none) ds 0 i d hi (by
      intro x hx
      cases x.info <;> simp_all)
  rw [Nat.zero_add] at this
  exact this

/-- **C59, exactly.**  By the name of a schema the reader finds the columns of the first
definition with a symbol of that name: a schema, or a schema with a column of that name, or
nothing. -/
theorem schema_found (ds : List Def) (h : ∀ d ∈ ds, DefOk d) (n : Str) (d : Def)
    (hd : firstWith n ds = some d) : schemaOf (groups 0 ds) n = some (schemaTaken d) := by
  obtain ⟨i, h1, h2, s, h3, h4⟩ := lookup_first n ds 0 d hd
  rw [Nat.zero_add] at h4
  unfold schemaOf
  rw [h3, Option.map_some, h4, columnsAt_groups h1,
    columns_groupOf i d (h d (List.mem_of_getElem? h1))]

theorem schema_unknown (ds : List Def) (n : Str) (hd : firstWith n ds = none) :
    schemaOf (groups 0 ds) n = none := by
  unfold schemaOf
  rw [lookup_none]
  · rfl
  · rw [groups_names_iff]
    rintro ⟨d, hm, hn⟩
    simp only [firstWith, List.find?_eq_none, decide_eq_true_eq] at hd
    exact hd d hm hn

/-- **C59 as stated is false**: a column of an earlier schema with the name of the schema takes
its place, and nothing is reported. -/
theorem schema_captured (a b : Str) (s1 s2 : NamedStruct) (h1 : SchemaOk a s1)
    (h2 : SchemaOk b s2) (hc : b ∈ (kept s1).names) :
    ∃ details st, detailsOf (schemaSection [(a, s1), (b, s2)]) = some details ∧
      visitPlan details = .ok st ∧ st.errs = [] ∧ schemaOf st.symbols b = some (kept s1) := by
  have hok : ∀ d ∈ [Def.schema a s1, .schema b s2], DefOk d := by
    intro d hd
    simp only [List.mem_cons, List.not_mem_nil, or_false] at hd
    rcases hd with rfl | rfl
    · exact .schema h1
    · exact .schema h2
  obtain ⟨text, details, ⟨texts, ht, rfl⟩, h4, h5⟩ := definitions_read [.schema a s1, .schema b s2]
    hok ⟨by simp [Def.fileKeys], by simp [Def.fileKeys], trivial⟩
  have e : texts = [schemaText a s1, schemaText b s2] := by
    match texts, ht with
    | [x, y], ht =>
      simp only [List.map_cons, List.map_nil, defText, List.cons.injEq, Outcome.ok.injEq,
        and_true] at ht
      rw [ht.1, ht.2]
  subst e
  refine ⟨details, _, h4, h5, rfl, ?_⟩
  exact schema_found _ hok b (.schema a s1) (by simp [firstWith, Def.names, hc])

/-- Non-vacuity. -/
example : SchemaOk "a".toList ⟨["b".toList], some ([.scalar .i32 .required], .required)⟩ ∧
    "b".toList ∈ (kept ⟨["b".toList], some ([.scalar .i32 .required], .required)⟩).names := by
  refine ⟨⟨sample_names _ (by decide), fun n hn => sample_names n (by revert n; decide), ?_⟩,
    by decide⟩
  intro t ht
  simp only [NamedStruct.types, List.mem_singleton] at ht
  subst ht
  exact Rel.type_i32

/-- **C59, exactly**: what the text keeps of a schema is the schema if and only if there is a type
for every name and a name for every type, the struct is required, and it is absent if there are no
columns. -/
theorem kept_iff (s : NamedStruct) : kept s = s ↔ Plain s := by
  obtain ⟨names, struct⟩ := s
  cases struct with
  | none =>
    constructor
    · intro h
      have h1 : names.take 0 = names := congrArg NamedStruct.names h
      rw [List.take_zero] at h1
      subst h1
      exact ⟨rfl, rfl⟩
    · rintro ⟨h1, -⟩
      have h2 : names = [] := List.length_eq_zero_iff.mp h1
      subst h2
      rfl
  | some q =>
    obtain ⟨ts, nl⟩ := q
    constructor
    · intro h
      have h1 : names.take ts.length = names := congrArg NamedStruct.names h
      have h2 : (if names = [] ∨ ts = [] then none else
          some (ts.take names.length, Nullability.required)) = some (ts, nl) :=
        congrArg NamedStruct.struct h
      split at h2
      · cases h2
      · next h3 =>
        rw [not_or] at h3
        injection h2 with h2
        injection h2 with h2 h4
        have h5 := congrArg List.length h1
        have h6 := congrArg List.length h2
        rw [List.length_take] at h5 h6
        refine ⟨?_, ?_⟩
        · simp only [NamedStruct.types]; omega
        · simp only [NamedStruct.types, if_neg h3.1, h4]
    · rintro ⟨h1, h2⟩
      simp only [NamedStruct.types] at h1 h2
      by_cases hn : names = []
      · rw [if_pos hn] at h2; cases h2
      · rw [if_neg hn] at h2
        injection h2 with h2
        injection h2 with _ h2
        subst h2
        have ht : ts ≠ [] := by
          intro e
          rw [e] at h1
          exact hn (List.length_eq_zero_iff.mp h1)
        have e1 : names.take ts.length = names := List.take_of_length_le (by omega)
        have e2 : ts.take names.length = ts := List.take_of_length_le (by omega)
        simp [kept, NamedStruct.types, hn, ht, e1, e2]

/-! ## Types that are not printed -/

theorem columnsText_same : ∀ (names : List Str) (ts us : List PbType),
    ts.map (fun t => (printType t).1) = us.map (fun t => (printType t).1) →
      columnsText names ts = columnsText names us
  | _, [], us, h => by
    cases us with
    | nil => rfl
    | cons u us => simp at h
  | names, t :: ts, us, h => by
    cases us with
    | nil => simp at h
    | cons u us =>
      simp only [List.map_cons, List.cons.injEq] at h
      cases names with
      | nil => rfl
      | cons n ns =>
        have ih := columnsText_same ns ts us h.2
        simp only [columnsText, columnText, h.1, ih]

/-- The printer does not look at the errors of types: two schemas have the same text as soon as
the texts of their types are the same, and those of all unsupported types are. -/
theorem schemaText_same (n : Str) (names : List Str) (ts us : List PbType) (a b : Nullability)
    (h : ts.map (fun t => (printType t).1) = us.map (fun t => (printType t).1)) :
    schemaText n ⟨names, some (ts, a)⟩ = schemaText n ⟨names, some (us, b)⟩ := by
  have e : columnsText names ts = columnsText names us := columnsText_same names _ _ h
  unfold schemaText
  simp only [NamedStruct.types, e]

/-- A schema with a struct: three names for two types. -/
def nestedSchema : NamedStruct :=
  ⟨["a".toList, "b".toList, "c".toList],
    some ([.struct [.scalar .i8 .required] .required, .scalar .i8 .required], .required)⟩

/-- The details of its text. -/
def nestedText : Str := "schema s {\n  a UNSUPPORTED_TYPE;\n  b i8;\n}\n".toList

theorem nestedSchema_text : schemaText "s".toList nestedSchema = nestedText := by
  decide +kernel

/-- **C59 as stated is false**: a schema with a struct is printed without an error, and of its
text the reader reports an error.  The column of the struct loses its type, the next column is
taken to have the name of a field of the struct, and its own name is lost. -/
theorem nested_schema_lost : ∃ details st,
    detailsOf (schemaText "s".toList nestedSchema) = some details ∧ visitPlan details = .ok st ∧
      st.errs = [.type (.type .unrecognized)] ∧
      schemaOf st.symbols "s".toList = some ⟨["a".toList, "b".toList],
        some ([.scalar .i8 .required], .required)⟩ := by
  rw [nestedSchema_text]
  have hl : lex nestedText = some [⟨.schema, "schema".toList⟩, idTok "s", openTok,
      idTok "a", idTok "UNSUPPORTED", ⟨.underscore, "_".toList⟩, ⟨.type, "TYPE".toList⟩, semiTok,
      idTok "b", idTok "i8", semiTok, closeTok] := by decide +kernel
  have hd : detailsOf nestedText = some [.schema "s".toList
      [("a".toList, .basic "UNSUPPORTED_TYPE".toList false []),
        ("b".toList, .basic "i8".toList false [])]] := by
    unfold detailsOf
    rw [hl]
    rfl
  exact ⟨_, _, hd, rfl, rfl, rfl⟩

/-! ## Sources -/

/-- The source that is taken for that of a definition; a cast of anything else throws. -/
def sourceTaken (n : Str) : Def → Outcome (Option Source)
  | .source m s => if n = m then .ok (some s) else .throw .invalidArgument
  | _ => .throw .invalidArgument

theorem filesAt_groups {ds : List Def} {i : Nat} {d : Def} (hi : ds[i]? = some d) :
    filesAt (groups 0 ds) i = filesAt (groupOf i d) i := by
  unfold filesAt
  have := filterMap_groups (fun s : Symbol => match s.info with
    | .file f => if s.loc = i then some f else none
    | _ => none) ds 0 i d hi (by
      intro x hx
      cases x.info <;> simp_all)
  rw [Nat.zero_add] at this
  exact this

theorem tablesAt_groups {ds : List Def} {i : Nat} {d : Def} (hi : ds[i]? = some d) :
    tablesAt (groups 0 ds) i = tablesAt (groupOf i d) i := by
  unfold tablesAt
  have := filterMap_groups (fun s : Symbol => match s.info with
    | .table => if s.loc = i then some s.name else none
    | _ => none) ds 0 i d hi (by
      intro x hx
      cases x.info <;> simp_all)
  rw [Nat.zero_add] at this
  exact this

/-- No source. -/
def NoSource : Info → Prop
  | .source _ => False
  | .rootNames _ => False
  | _ => True

theorem sourceOf_other {l : List Symbol} {n : Str} {s : Symbol} (h : lookup l n = some s)
    (hs : NoSource s.info) : sourceOf l n = .throw .invalidArgument := by
  unfold sourceOf
  rw [h]
  cases hi : s.info <;> rw [hi] at hs <;> first | exact False.elim hs | simp only [hi]

/-- **C60, exactly.**  By the name of a source the reader finds the first definition with a
symbol of that name; if that is not the source itself, the cast throws. -/
theorem source_found (ds : List Def) (h : ∀ d ∈ ds, DefOk d) (n : Str) (d : Def)
    (hd : firstWith n ds = some d) : sourceOf (groups 0 ds) n = sourceTaken n d := by
  obtain ⟨i, h1, h2, s, h3, h4⟩ := lookup_first n ds 0 d hd
  rw [Nat.zero_add] at h2 h4
  have hok := h d (List.mem_of_getElem? h1)
  have hs : lookup (groupOf i d) n = some s := by rw [← h2, h3]
  have hm := List.mem_of_find?_eq_some hs
  cases d with
  | schema m t =>
    refine sourceOf_other h3 ?_
    simp only [groupOf, List.mem_cons, List.mem_map] at hm
    rcases hm with rfl | ⟨c, _, rfl⟩ <;> trivial
  | space b =>
    refine sourceOf_other h3 ?_
    simp only [groupOf, spaceSymbols, List.mem_append, List.mem_map] at hm
    rcases hm with ⟨c, _, rfl⟩ | ⟨c, _, rfl⟩ <;> trivial
  | source m src =>
    have hsrc := sourceOk_of hok
    by_cases hn : n = m
    · subst hn
      simp only [sourceTaken, if_true]
      cases hsrc with
      | named names _ _ =>
        simp only [groupOf, lookup, List.find?_cons, decide_true, Option.some.injEq] at hs
        subst hs
        simp only [sourceOf, h3]
        rw [tablesAt_groups h1]
        simp [tablesAt, groupOf, List.filterMap_map, Function.comp_def]
      | files f _ =>
        simp only [groupOf, lookup, List.find?_cons, decide_true, Option.some.injEq] at hs
        subst hs
        simp only [sourceOf, h3]
        rw [filesAt_groups h1]
        simp [filesAt, groupOf]
    · simp only [sourceTaken, if_neg hn]
      refine sourceOf_other h3 ?_
      have hname := List.find?_some hs
      simp only [decide_eq_true_eq] at hname
      cases hsrc with
      | named names _ _ =>
        simp only [groupOf, List.mem_cons, List.mem_map] at hm
        rcases hm with rfl | ⟨c, _, rfl⟩
        · exact absurd hname.symm hn
        · trivial
      | files f _ =>
        simp only [groupOf, List.map_cons, List.map_nil, List.mem_cons, List.not_mem_nil,
          or_false] at hm
        rcases hm with rfl | rfl
        · exact absurd hname.symm hn
        · trivial

theorem source_unknown (ds : List Def) (n : Str) (hd : firstWith n ds = none) :
    sourceOf (groups 0 ds) n = .ok none := by
  unfold sourceOf
  rw [lookup_none]
  rw [groups_names_iff]
  rintro ⟨d, hm, hn⟩
  simp only [firstWith, List.find?_eq_none, decide_eq_true_eq] at hd
  exact hd d hm hn

/-- **C60 as stated is false**: if a column of a schema has the name of a source, reading a
relation with that source throws. -/
theorem source_captured (a n : Str) (s : NamedStruct) (src : Source) (h1 : SchemaOk a s)
    (hn : Ext.IsName n) (h2 : SourceOk src) (hc : n ∈ (kept s).names) :
    ∃ details st, (sourceText n src).map (fun t => detailsOf (separated [schemaText a s, t])) =
        .ok (some details) ∧
      visitPlan details = .ok st ∧ st.errs = [] ∧
      sourceOf st.symbols n = .throw .invalidArgument := by
  have hok : ∀ d ∈ [Def.schema a s, .source n src], DefOk d := by
    intro d hd
    simp only [List.mem_cons, List.not_mem_nil, or_false] at hd
    rcases hd with rfl | rfl
    · exact .schema h1
    · exact .source hn h2
  have hkey : FreshFiles [] [Def.schema a s, .source n src] := by
    refine ⟨by simp [Def.fileKeys], ?_, trivial⟩
    intro k hk
    cases h2 with
    | named _ _ _ => simp [Def.fileKeys] at hk
    | files f hf =>
      simp only [Def.fileKeys, List.map_cons, List.map_nil, List.mem_singleton] at hk
      subst hk
      simp only [List.nil_append, Def.names, List.mem_cons, not_or]
      refine ⟨fun e => name_ne_fileKey h1.name f e.symm, fun hm => ?_⟩
      exact name_ne_fileKey (h1.names _ (List.mem_of_mem_take hm)) f rfl
  obtain ⟨text, details, ⟨texts, ht, rfl⟩, h4, h5⟩ := definitions_read _ hok hkey
  match texts, ht with
  | [], ht => simp at ht
  | [x], ht => simp at ht
  | x :: y :: z :: l, ht => simp at ht
  | [x, y], ht =>
    simp only [List.map_cons, List.map_nil, defText, List.cons.injEq, Outcome.ok.injEq,
      and_true] at ht
    obtain ⟨rfl, hy⟩ := ht
    refine ⟨details, _, ?_, h5, rfl, ?_⟩
    · rw [hy]
      simp only [Outcome.map, h4]
    · exact source_found _ hok n (.schema a s) (by simp [firstWith, Def.names, hc])

end Verif.Sec
