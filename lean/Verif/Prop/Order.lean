import Verif.Lemmas.OrderTidy
import Verif.Prop.WholeLoss

/-! # C67: the order of the parts of a text plan -/

namespace Verif.Whole

open Verif Verif.Expr

/-- **C67.**  A text whose names are not ambiguous gives the same binary plan in every order of its
parts in which the relations, the pipelines and the extension spaces keep their order among
themselves. -/
theorem order_details {ds ds' : List Sec.PlanDetail} (ht : Tidy ds) (hr : Reordered ds ds')
    (lib : Literal.Lib) (fuel : Nat) (b : Binary) :
    fromDetails lib fuel ds = .ok b ↔ fromDetails lib fuel ds' = .ok b :=
  ⟨fromDetails_steps hr.steps ht, fromDetails_steps hr.symm.steps (ht.perm hr.perm hr.relations)⟩

/-- **C67, for texts.** -/
theorem order_text {text text' : Str} {ds ds' : List Sec.PlanDetail}
    (h : Sec.detailsOf text = some ds) (h' : Sec.detailsOf text' = some ds') (ht : Tidy ds)
    (hr : Reordered ds ds') (lib : Literal.Lib) (fuel : Nat) (b : Binary) :
    fromText lib fuel text = some (.ok b) ↔ fromText lib fuel text' = some (.ok b) := by
  simp only [fromText, h, h', Option.map_some, Option.some.injEq]
  exact order_details ht hr lib fuel b

/-- **C67, for printed plans.**  The parts of the text that is printed for a plan can be put into
another order, and the text is still read as the same plan. -/
theorem order_trip (lib : Literal.Lib) (hl : lib.Numerals) (sort : Ext.Sorter)
    (hs : Ext.Rearranges sort) (p : Input) (h : Expressible lib p) (fuel : Nat)
    (hf : (owns p.rel).length ≤ fuel) :
    ∃ text ds b, toText lib sort fuel p = .ok text ∧ Sec.detailsOf text = some ds ∧
      fromText lib fuel text = some (.ok b) ∧ SamePlan p b ∧
      ∀ text' ds', Sec.detailsOf text' = some ds' → Reordered ds ds' →
        fromText lib fuel text' = some (.ok b) := by
  obtain ⟨bs, r, hb, hfit, he, -, -, hfine, hu, ht, hsame⟩ := trip_of hl hs h hf
  have hd := Sec.parsed hfine.parts
  refine ⟨_, _, _, ht.1, hd, ht.2, ⟨_, _, sameFunctions hfit rfl rfl, rfl, hsame⟩, ?_⟩
  intro text' ds' hd' hr
  exact (order_text hd hd' hfine.tidy hr lib fuel _).mp ht.2

/-! ### Non-vacuity -/

def aPipelines : Sec.PlanDetail :=
  .pipelines [[⟨"root".toList, "root".toList⟩, ⟨"f".toList, "f".toList⟩, ⟨"r".toList, "r".toList⟩]]

def aRead : Sec.PlanDetail :=
  .relation ⟨"read".toList, ⟨"r".toList, none⟩, [.source "t".toList, .schema "s".toList]⟩

def aFilter : Sec.PlanDetail :=
  .relation ⟨"filter".toList, ⟨"f".toList, none⟩,
    [.filter none (.column (some "s".toList) "a".toList)]⟩

def aSchema : Sec.PlanDetail :=
  .schema "s".toList [("a".toList, .basic "boolean".toList false []),
    ("b".toList, .basic "i32".toList false [])]

def aSource : Sec.PlanDetail := .source (.namedTable "t".toList ["\"t\"".toList])

def aText : Str := ("pipelines { r -> f -> root; } read relation r { source t; base_schema s; }" ++
  "filter relation f { filter s.a; } schema s { a boolean; b i32; }" ++
  "source named_table t { names = [\"t\"] }").toList

/-- The same parts, but the source and the schema first and the pipelines last. -/
def bText : Str := ("source named_table t { names = [\"t\"] } schema s { a boolean; b i32; }" ++
  "read relation r { source t; base_schema s; } filter relation f { filter s.a; }" ++
  "pipelines { r -> f -> root; }").toList

def aToks : List Lex.Token :=
  [⟨.pipelines, "pipelines".toList⟩, ⟨.leftBrace, "{".toList⟩, ⟨.identifier, "r".toList⟩,
   ⟨.arrow, "->".toList⟩, ⟨.identifier, "f".toList⟩, ⟨.arrow, "->".toList⟩,
   ⟨.root, "root".toList⟩, ⟨.semicolon, ";".toList⟩, ⟨.rightBrace, "}".toList⟩,
   ⟨.identifier, "read".toList⟩, ⟨.relation, "relation".toList⟩, ⟨.identifier, "r".toList⟩,
   ⟨.leftBrace, "{".toList⟩, ⟨.source, "source".toList⟩, ⟨.identifier, "t".toList⟩,
   ⟨.semicolon, ";".toList⟩, ⟨.baseSchema, "base_schema".toList⟩, ⟨.identifier, "s".toList⟩,
   ⟨.semicolon, ";".toList⟩, ⟨.rightBrace, "}".toList⟩, ⟨.filter, "filter".toList⟩,
   ⟨.relation, "relation".toList⟩, ⟨.identifier, "f".toList⟩, ⟨.leftBrace, "{".toList⟩,
   ⟨.filter, "filter".toList⟩, ⟨.identifier, "s".toList⟩, ⟨.period, ".".toList⟩,
   ⟨.identifier, "a".toList⟩, ⟨.semicolon, ";".toList⟩, ⟨.rightBrace, "}".toList⟩,
   ⟨.schema, "schema".toList⟩, ⟨.identifier, "s".toList⟩, ⟨.leftBrace, "{".toList⟩,
   ⟨.identifier, "a".toList⟩, ⟨.identifier, "boolean".toList⟩, ⟨.semicolon, ";".toList⟩,
   ⟨.identifier, "b".toList⟩, ⟨.identifier, "i32".toList⟩, ⟨.semicolon, ";".toList⟩,
   ⟨.rightBrace, "}".toList⟩, ⟨.source, "source".toList⟩, ⟨.namedTable, "named_table".toList⟩,
   ⟨.identifier, "t".toList⟩, ⟨.leftBrace, "{".toList⟩, ⟨.names, "names".toList⟩,
   ⟨.equal, "=".toList⟩, ⟨.leftBracket, "[".toList⟩, ⟨.string, "\"t\"".toList⟩,
   ⟨.rightBracket, "]".toList⟩, ⟨.rightBrace, "}".toList⟩]

def bToks : List Lex.Token :=
  [⟨.source, "source".toList⟩, ⟨.namedTable, "named_table".toList⟩, ⟨.identifier, "t".toList⟩,
   ⟨.leftBrace, "{".toList⟩, ⟨.names, "names".toList⟩, ⟨.equal, "=".toList⟩,
   ⟨.leftBracket, "[".toList⟩, ⟨.string, "\"t\"".toList⟩, ⟨.rightBracket, "]".toList⟩,
   ⟨.rightBrace, "}".toList⟩, ⟨.schema, "schema".toList⟩, ⟨.identifier, "s".toList⟩,
   ⟨.leftBrace, "{".toList⟩, ⟨.identifier, "a".toList⟩, ⟨.identifier, "boolean".toList⟩,
   ⟨.semicolon, ";".toList⟩, ⟨.identifier, "b".toList⟩, ⟨.identifier, "i32".toList⟩,
   ⟨.semicolon, ";".toList⟩, ⟨.rightBrace, "}".toList⟩, ⟨.identifier, "read".toList⟩,
   ⟨.relation, "relation".toList⟩, ⟨.identifier, "r".toList⟩, ⟨.leftBrace, "{".toList⟩,
   ⟨.source, "source".toList⟩, ⟨.identifier, "t".toList⟩, ⟨.semicolon, ";".toList⟩,
   ⟨.baseSchema, "base_schema".toList⟩, ⟨.identifier, "s".toList⟩, ⟨.semicolon, ";".toList⟩,
   ⟨.rightBrace, "}".toList⟩, ⟨.filter, "filter".toList⟩, ⟨.relation, "relation".toList⟩,
   ⟨.identifier, "f".toList⟩, ⟨.leftBrace, "{".toList⟩, ⟨.filter, "filter".toList⟩,
   ⟨.identifier, "s".toList⟩, ⟨.period, ".".toList⟩, ⟨.identifier, "a".toList⟩,
   ⟨.semicolon, ";".toList⟩, ⟨.rightBrace, "}".toList⟩, ⟨.pipelines, "pipelines".toList⟩,
   ⟨.leftBrace, "{".toList⟩, ⟨.identifier, "r".toList⟩, ⟨.arrow, "->".toList⟩,
   ⟨.identifier, "f".toList⟩, ⟨.arrow, "->".toList⟩, ⟨.root, "root".toList⟩,
   ⟨.semicolon, ";".toList⟩, ⟨.rightBrace, "}".toList⟩]

set_option maxRecDepth 10000 in
theorem aText_details :
    Sec.detailsOf aText = some [aPipelines, aRead, aFilter, aSchema, aSource] := by
  have h : Lex.lex aText = some aToks := by decide +kernel
  unfold Sec.detailsOf
  rw [h]
  rfl

set_option maxRecDepth 10000 in
theorem bText_details :
    Sec.detailsOf bText = some [aSource, aSchema, aRead, aFilter, aPipelines] := by
  have h : Lex.lex bText = some bToks := by decide +kernel
  unfold Sec.detailsOf
  rw [h]
  rfl

theorem clear_nil {bases : List Str} {d e : Sec.PlanDetail} (h : given d = []) : Clear bases d e :=
  .inr fun n a b hn => by rw [h] at hn; simp at hn

theorem a_tidy : Tidy [aPipelines, aRead, aFilter, aSchema, aSource] where
  names := by
    have h : ∀ x ∈ given aSchema, ∀ y ∈ given aSource, x.1 ≠ y.1 := by decide
    refine .cons (fun _ _ => clear_nil rfl) (.cons (fun _ _ => clear_nil rfl)
      (.cons (fun _ _ => clear_nil rfl) (.cons (fun d hd => ?_) (.cons (by simp) .nil))))
    rw [List.mem_singleton.mp hd]
    exact .inr fun n a b h1 h2 => absurd rfl (h (n, a) h1 (n, b) h2)
  queries := by
    have : ([aPipelines, aRead, aFilter, aSchema, aSource].filterMap relationOf).flatMap refsOf = [] := rfl
    intro t ht n hn
    have := List.flatMap_eq_nil_iff.mp this t ht
    rw [this] at hn
    simp at hn

theorem a_reordered : Reordered [aPipelines, aRead, aFilter, aSchema, aSource]
    [aSource, aSchema, aRead, aFilter, aPipelines] where
  perm := by
    refine (List.reverse_perm _).symm.trans ?_
    exact .cons _ (.cons _ (.swap ..))
  relations := rfl
  pipelines := rfl
  roots := rfl
  spaces := rfl

/-- The number of the field that the outermost filter looks at. -/
def filterField : Option (Outcome Binary) → Option Int
  | some (.ok b) =>
    match b.rels with
    | [(_, .node ⟨.filter (some e), _, _, _⟩ _)] => Rel.fieldOf e
    | _ => none
  | _ => none

theorem filterField_some {x : Option (Outcome Binary)} {k : Int} (h : filterField x = some k) :
    ∃ b names e emit schema source ins, x = some (.ok b) ∧
      b.rels = [(names, .node ⟨.filter (some e), emit, schema, source⟩ ins)] ∧
      Rel.fieldOf e = some k := by
  unfold filterField at h
  split at h
  · next b =>
    split at h
    · next e => exact ⟨b, _, _, _, _, _, _, rfl, e, h⟩
    · cases h
  · cases h

/-- Non-vacuity of `order_text`: the plan is read, in both orders. -/
example : ∃ b, fromText sampleLib 3 aText = some (.ok b) ∧ fromText sampleLib 3 bText = some (.ok b) := by
  have h : filterField (fromText sampleLib 3 aText) = some 0 := by decide +kernel
  obtain ⟨b, -, -, -, -, -, -, hb, -⟩ := filterField_some h
  exact ⟨b, hb, (order_text aText_details bText_details a_tidy a_reordered _ _ b).mp hb⟩

/-! ### Where the order matters -/

def aPieces : List String :=
  ["pipelines { q -> j; r -> j; j -> f -> root; }\n", "schema s2 { d boolean; c i32; }\n",
   "schema s { a boolean; b i32; }\n", "source named_table t { names = [\"t\"] }\n",
   "read relation r { source t; base_schema s; }\n", "read relation q { source t; base_schema s2; }\n",
   "cross relation j { }\n", "filter relation f { filter s.a; }\n"]

/-- The relations in another order. -/
def bPieces : List String :=
  ["pipelines { q -> j; r -> j; j -> f -> root; }\n", "schema s2 { d boolean; c i32; }\n",
   "schema s { a boolean; b i32; }\n", "source named_table t { names = [\"t\"] }\n",
   "filter relation f { filter s.a; }\n", "read relation r { source t; base_schema s; }\n",
   "cross relation j { }\n", "read relation q { source t; base_schema s2; }\n"]

def written (l : List String) : Str := l.flatMap String.toList

/-- **C67, the order of the relations** (why it has to be kept).  With its relations in another order the text is accepted too,
but the filter looks at another column, of the other table. -/
theorem order_relations : ∃ l l' : List String, l.Perm l' ∧
    filterField (fromText sampleLib 6 (written l)) = some 2 ∧
    filterField (fromText sampleLib 6 (written l')) = some 0 :=
  ⟨aPieces, bPieces, by decide, by decide +kernel, by decide +kernel⟩

/-- **C67, ambiguous names** (why they are excluded).  A column with the name of the schema of a
table, in a schema that comes before this schema, gives the table the columns of that schema. -/
theorem order_names : ∃ a b c : String,
    filterField (fromText sampleLib 6 (written [a, b, c])) = some 0 ∧
    filterField (fromText sampleLib 6 (written [a, c, b])) = some 1 :=
  ⟨"pipelines { r -> f -> root; } read relation r { source t; base_schema s; } \
      filter relation f { filter a; } source named_table t { names = [\"t\"] }",
    "schema s { a boolean; b i32; }", "schema s2 { s boolean; a i32; }",
    by decide +kernel, by decide +kernel⟩

end Verif.Whole
