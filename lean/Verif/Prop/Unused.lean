import Verif.Lemmas.UnusedPlan
import Verif.Prop.Order

/-! # C70: definitions that nothing refers to -/

namespace Verif.Whole

open Verif Verif.Expr

/-- **C70.**  A schema or a source whose names are not used can be anywhere in a text: the binary plan is
the same with and without it, and so is the way in which the text is refused if it is. -/
theorem unused_details {a b : List Sec.PlanDetail} {d : Sec.PlanDetail} (h : Unused a d b)
    (lib : Literal.Lib) (fuel : Nat) :
    fromDetails lib fuel (a ++ d :: b) = fromDetails lib fuel (a ++ b) :=
  fromDetails_unused h

/-- More and more definitions that are not used. -/
inductive Fuller : List Sec.PlanDetail → List Sec.PlanDetail → Prop
  | same (ds) : Fuller ds ds
  | more {ds a d b} : Fuller ds (a ++ b) → Unused a d b → Fuller ds (a ++ d :: b)

/-- **C70, for texts.** -/
theorem unused_text {text text' : Str} {ds ds' : List Sec.PlanDetail}
    (h : Sec.detailsOf text = some ds) (h' : Sec.detailsOf text' = some ds') (hf : Fuller ds ds')
    (lib : Literal.Lib) (fuel : Nat) : fromText lib fuel text' = fromText lib fuel text := by
  simp only [fromText, h, h', Option.map_some]
  congr 1
  clear h h'
  induction hf with
  | same => rfl
  | more _ hu ih => rw [unused_details hu, ih]

/-- **C70, for printed plans.**  The text that is printed for a plan is read as the same plan if unused
definitions are put into it. -/
theorem unused_trip (lib : Literal.Lib) (hl : lib.Numerals) (sort : Ext.Sorter)
    (hs : Ext.Rearranges sort) (p : Input) (h : Expressible lib p) (fuel : Nat)
    (hf : (owns p.rel).length ≤ fuel) :
    ∃ text ds b, toText lib sort fuel p = .ok text ∧ Sec.detailsOf text = some ds ∧ SamePlan p b ∧
      ∀ text' ds', Sec.detailsOf text' = some ds' → Fuller ds ds' →
        fromText lib fuel text' = some (.ok b) := by
  obtain ⟨text, ds, b, h1, h2, h3, h4, -⟩ := order_trip lib hl sort hs p h fuel hf
  refine ⟨text, ds, b, h1, h2, h4, fun text' ds' hd' hr => ?_⟩
  rw [unused_text h2 hd' hr lib fuel, h3]

/-! ### Non-vacuity -/

def readsAlone (d : Sec.PlanDetail) : Bool :=
  match Sec.visitPlan [d] with
  | .ok st => st.errs.isEmpty
  | _ => false

theorem readsAlone_spec {d : Sec.PlanDetail} (h : readsAlone d = true) :
    ∃ st, Sec.visitPlan [d] = .ok st ∧ st.errs = [] := by
  unfold readsAlone at h
  split at h
  · exact ⟨_, by assumption, by simpa using h⟩
  · cases h

/-- A schema that has the column names of the other schema, with other types. -/
def idleSchema : Sec.PlanDetail :=
  .schema "u".toList [("b".toList, .basic "string".toList true []),
    ("a".toList, .basic "i64".toList false [])]

def idleSource : Sec.PlanDetail :=
  .source (.localFiles "v".toList
    [⟨"{uri_file:\"x.parquet\"parquet:{}}".toList, [.file "\"x.parquet\"".toList, .parquet]⟩])

def fullText : Str := ("schema u { b string?; a i64; }" ++
  "pipelines { r -> f -> root; } read relation r { source t; base_schema s; }" ++
  "filter relation f { filter s.a; } schema s { a boolean; b i32; }" ++
  "source local_files v { items = [{ uri_file: \"x.parquet\" parquet: {} }] }" ++
  "source named_table t { names = [\"t\"] }").toList

def fullParts : List Sec.PlanDetail :=
  [idleSchema, aPipelines, aRead, aFilter, aSchema, idleSource, aSource]

def fullToks : List Lex.Token :=
  [⟨.schema, "schema".toList⟩, ⟨.identifier, "u".toList⟩, ⟨.leftBrace, "{".toList⟩,
   ⟨.identifier, "b".toList⟩, ⟨.identifier, "string".toList⟩, ⟨.question, "?".toList⟩,
   ⟨.semicolon, ";".toList⟩, ⟨.identifier, "a".toList⟩, ⟨.identifier, "i64".toList⟩,
   ⟨.semicolon, ";".toList⟩, ⟨.rightBrace, "}".toList⟩, ⟨.pipelines, "pipelines".toList⟩,
   ⟨.leftBrace, "{".toList⟩, ⟨.identifier, "r".toList⟩, ⟨.arrow, "->".toList⟩,
   ⟨.identifier, "f".toList⟩, ⟨.arrow, "->".toList⟩, ⟨.root, "root".toList⟩,
   ⟨.semicolon, ";".toList⟩, ⟨.rightBrace, "}".toList⟩, ⟨.identifier, "read".toList⟩,
   ⟨.relation, "relation".toList⟩, ⟨.identifier, "r".toList⟩, ⟨.leftBrace, "{".toList⟩,
   ⟨.source, "source".toList⟩, ⟨.identifier, "t".toList⟩, ⟨.semicolon, ";".toList⟩,
   ⟨.baseSchema, "base_schema".toList⟩, ⟨.identifier, "s".toList⟩, ⟨.semicolon, ";".toList⟩,
   ⟨.rightBrace, "}".toList⟩, ⟨.filter, "filter".toList⟩, ⟨.relation, "relation".toList⟩,
   ⟨.identifier, "f".toList⟩, ⟨.leftBrace, "{".toList⟩, ⟨.filter, "filter".toList⟩,
   ⟨.identifier, "s".toList⟩, ⟨.period, ".".toList⟩, ⟨.identifier, "a".toList⟩,
   ⟨.semicolon, ";".toList⟩, ⟨.rightBrace, "}".toList⟩, ⟨.schema, "schema".toList⟩,
   ⟨.identifier, "s".toList⟩, ⟨.leftBrace, "{".toList⟩, ⟨.identifier, "a".toList⟩,
   ⟨.identifier, "boolean".toList⟩, ⟨.semicolon, ";".toList⟩, ⟨.identifier, "b".toList⟩,
   ⟨.identifier, "i32".toList⟩, ⟨.semicolon, ";".toList⟩, ⟨.rightBrace, "}".toList⟩,
   ⟨.source, "source".toList⟩, ⟨.localFiles, "local_files".toList⟩, ⟨.identifier, "v".toList⟩,
   ⟨.leftBrace, "{".toList⟩, ⟨.items, "items".toList⟩, ⟨.equal, "=".toList⟩,
   ⟨.leftBracket, "[".toList⟩, ⟨.leftBrace, "{".toList⟩, ⟨.uriFile, "uri_file".toList⟩,
   ⟨.colon, ":".toList⟩, ⟨.string, "\"x.parquet\"".toList⟩, ⟨.parquet, "parquet".toList⟩,
   ⟨.colon, ":".toList⟩, ⟨.leftBrace, "{".toList⟩, ⟨.rightBrace, "}".toList⟩,
   ⟨.rightBrace, "}".toList⟩, ⟨.rightBracket, "]".toList⟩, ⟨.rightBrace, "}".toList⟩,
   ⟨.source, "source".toList⟩, ⟨.namedTable, "named_table".toList⟩, ⟨.identifier, "t".toList⟩,
   ⟨.leftBrace, "{".toList⟩, ⟨.names, "names".toList⟩, ⟨.equal, "=".toList⟩,
   ⟨.leftBracket, "[".toList⟩, ⟨.string, "\"t\"".toList⟩, ⟨.rightBracket, "]".toList⟩,
   ⟨.rightBrace, "}".toList⟩]

set_option maxRecDepth 10000 in
theorem fullText_details : Sec.detailsOf fullText = some fullParts := by
  have h : Lex.lex fullText = some fullToks := by decide +kernel
  unfold Sec.detailsOf
  rw [h]
  rfl

theorem c_fuller : Fuller [aPipelines, aRead, aFilter, aSchema, aSource] fullParts := by
  have h1 : Unused [aPipelines, aRead, aFilter, aSchema] idleSource [aSource] :=
    ⟨rfl, readsAlone_spec (by decide +kernel), by decide, by decide, by decide, by decide⟩
  have h2 : Unused [] idleSchema [aPipelines, aRead, aFilter, aSchema, idleSource, aSource] :=
    ⟨rfl, readsAlone_spec (by decide +kernel), by decide, by decide, by decide, by decide⟩
  exact .more (a := []) (.more (a := [aPipelines, aRead, aFilter, aSchema]) (.same _) h1) h2

/-- Non-vacuity of `unused_text`. -/
example : ∃ b, fromText sampleLib 3 aText = some (.ok b) ∧
    fromText sampleLib 3 fullText = some (.ok b) := by
  have ha : filterField (fromText sampleLib 3 aText) = some 0 := by decide +kernel
  obtain ⟨b, -, -, -, -, -, -, hb, -⟩ := filterField_some ha
  exact ⟨b, hb, by rw [unused_text aText_details fullText_details c_fuller, hb]⟩

/-! ### Names that are used -/

/-- A schema that no relation refers to, with a column that is called like a relation. -/
def clashText : Str := ("schema u { r i64; }" ++
  "pipelines { r -> f -> root; } read relation r { source t; base_schema s; }" ++
  "filter relation f { filter s.a; } schema s { a boolean; b i32; }" ++
  "source named_table t { names = [\"t\"] }").toList

def isThrown : Option (Outcome Binary) → Bool
  | some (.ok _) => false
  | some _ => true
  | none => false

/-- **C70, names that are used** (why they are excluded).  If a column of a schema that no relation
refers to is called like a relation, the text is refused. -/
theorem unused_clash : isThrown (fromText sampleLib 3 clashText) = true ∧
    isThrown (fromText sampleLib 3 aText) = false :=
  ⟨by decide +kernel, by decide +kernel⟩

end Verif.Whole
