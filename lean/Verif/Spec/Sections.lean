import Verif.Model.Sections
import Verif.Spec.Extension
import Verif.Spec.Expression
import Verif.Spec.Relation
import Verif.Spec.Pipeline

/-! # Vocabulary for the properties of the sections of a text plan -/

namespace Verif.Sec

open Verif Verif.TyPb Verif.Tree Verif.Lex Verif.Parse Verif.Expr

/-- A text that can stand between quotes: the quotes in it come after a backslash, and it does
not end in one. -/
def Quotable (s : Str) : Prop :=
  (∀ a b, s = a ++ '"' :: b → a.getLast? = some '\\') ∧ s.getLast? ≠ some '\\'

/-- A name and a type for every column, and nothing else to say: what the text of a schema can
express. -/
structure Plain (s : NamedStruct) : Prop where
  lengths : s.names.length = s.types.length
  struct : s.struct = if s.names = [] then none else some (s.types, .required)

/-- The text of the schema can be read: the names of columns are identifiers, the types are
those that text can express. -/
structure SchemaOk (name : Str) (s : NamedStruct) : Prop where
  name : Ext.IsName name
  names : ∀ n ∈ s.names, Ext.IsName n
  types : ∀ t ∈ s.types, TypeOk t

/-- What is left of a schema: the columns that have both a name and a type. -/
def kept (s : NamedStruct) : NamedStruct where
  names := s.names.take s.types.length
  struct :=
    if s.names = [] ∨ s.types = [] then none
    else some (s.types.take s.names.length, .required)

/-- A number of 64 bits. -/
def U64 (n : Nat) : Prop := n < 18446744073709551616

/-- A file that survives: named by `uri_file`, in one of the two formats the grammar has. -/
structure FileOk (f : File) : Prop where
  path : ∃ s, f.path = .uriFile s ∧ Quotable s
  format : f.format = .parquet ∨ f.format = .orc
  partition : U64 f.partition
  start : U64 f.start
  length : U64 f.length

/-- The text of a path. -/
def Path.value : Path → Str
  | .uriPath s => s
  | .uriPathGlob s => s
  | .uriFile s => s
  | .uriFolder s => s
  | .notSet => []

/-- A file whose text can be read. -/
structure FileReads (f : File) : Prop where
  path : f.path ≠ .notSet ∧ Quotable f.path.value
  format : f.format = .parquet ∨ f.format = .orc
  partition : U64 f.partition
  start : U64 f.start
  length : U64 f.length

/-- What is left of a file. -/
def keptFile (f : File) : File :=
  { f with path := match f.path with
    | .uriFile s => .uriFile s
    | _ => .notSet }

/-- A source that survives: a table with at least one name, or exactly one file. -/
inductive SourceOk : Source → Prop
  | named (names : List Str) : names ≠ [] → (∀ n ∈ names, Quotable n) → SourceOk (.named names)
  | files (f : File) : FileOk f → SourceOk (.files [f])

/-- What the name of a file's symbol says of its place. -/
def pathKey : Path → Str
  | .uriPath s => "uri_path:".toList ++ '"' :: (s ++ ['"'])
  | .uriPathGlob s => "uri_path_glob:".toList ++ '"' :: (s ++ ['"'])
  | .uriFile s => "uri_file:".toList ++ '"' :: (s ++ ['"'])
  | .uriFolder s => "uri_folder:".toList ++ '"' :: (s ++ ['"'])
  | .notSet => []

/-- What it says of its format. -/
def formatKey : Format → Str
  | .parquet => "parquet:{}".toList
  | .orc => "orc:{}".toList
  | _ => []

/-- What it says of its partition, and of the part of the file. -/
def partitionKey (n : Nat) : Str :=
  if n = 0 then [] else "partition_index:".toList ++ natText n
def rangeKey (start length : Nat) : Str :=
  if start = 0 ∧ length = 0 then []
  else "start:".toList ++ natText start ++ ("length:".toList ++ natText length)

/-- The name that the symbol of a file gets: the text of its item without the blanks. -/
def fileKey (f : File) : Str :=
  '{' :: (pathKey f.path ++ (partitionKey f.partition ++ (rangeKey f.start f.length ++
    (formatKey f.format ++ ['}']))))

/-! ## Whole plans -/

/-- Functions the grammar can read, all with a signature. -/
structure BlockOk (b : Ext.Block) : Prop where
  uri : ∀ u, b.uri = some u → Ext.IsUri u
  symbols : ∀ f ∈ b.functions, Ext.IsName f.1
  names : ∀ f ∈ b.functions, Ext.IsFunctionName f.2
  typed : ∀ f ∈ b.functions, Ext.lacksType f.2 = false

/-- One of the definitions at the end of a text plan. -/
inductive Def where
  | schema (name : Str) (s : NamedStruct)
  | source (name : Str) (s : Source)
  | space (b : Ext.Block)

/-- The names a symbol table gets from a definition. -/
def Def.names : Def → List Str
  | .schema n s => n :: (kept s).names
  | .source n (.named ns) => n :: ns
  | .source n (.files fs) => n :: fs.map fileKey
  | .source n _ => [n]
  | .space b => b.uri.toList ++ b.functions.map (·.1)

/-- The names by which something of the definition is looked up. -/
def Def.keys : Def → List Str
  | .schema n _ => [n]
  | .source n (.files fs) => n :: fs.map fileKey
  | .source n _ => [n]
  | .space _ => []

/-- Nothing before a definition has a name by which something of it is looked up. -/
def Fresh (seen : List Str) : List Def → Prop
  | [] => True
  | d :: ds => (∀ k ∈ d.keys, k ∉ seen) ∧ Fresh (seen ++ d.names) ds

/-- The names of the symbols of files. -/
def Def.fileKeys : Def → List Str
  | .source _ (.files fs) => fs.map fileKey
  | _ => []

/-- Nothing before a file has the name of its symbol. -/
def FreshFiles (seen : List Str) : List Def → Prop
  | [] => True
  | d :: ds => (∀ k ∈ d.fileKeys, k ∉ seen) ∧ FreshFiles (seen ++ d.names) ds

/-- The text can express the definition. -/
inductive DefOk : Def → Prop
  | schema {n : Str} {s : NamedStruct} : SchemaOk n s → DefOk (.schema n s)
  | source {n : Str} {s : Source} : Ext.IsName n → SourceOk s → DefOk (.source n s)
  | space {b : Ext.Block} : BlockOk b → DefOk (.space b)

/-- What a plan is printed from, with its relations. -/
structure Plan where
  pipelines : List (List Str)
  relations : List (Rel.RelContext × Rel.PbRel)
  roots : List (List Str)
  schemas : List (Str × NamedStruct)
  sources : List (Str × Source)
  blocks : List Ext.Block

/-- The definitions in the order in which they are printed. -/
def Plan.defs (p : Plan) : List Def :=
  p.schemas.map (fun e => .schema e.1 e.2) ++ (p.sources.map (fun e => .source e.1 e.2) ++
    p.blocks.map .space)

/-- The names of the roots that have names. -/
def Plan.rootNames (p : Plan) : List (List Str) := p.roots.filter fun r => !r.isEmpty

/-- The names of the relations. -/
def Plan.relationNames (p : Plan) : List Str := p.relations.map fun x => x.1.name

/-- The kind of a source. -/
def sourceKind : Source → Rel.SourceSymbol
  | .named _ => .named
  | .files _ => .files
  | .virtual => .virtual
  | .extension => .extension

/-- The fields of a schema. -/
def schemaFields (n : Str) (s : NamedStruct) : List Schema.Field :=
  (kept s).names.mapIdx fun k c => ⟨.column n k, c, [], some n⟩

/-- The context of a relation, with what the plan says of sources and schemas. -/
def Plan.context (p : Plan) (c : Rel.RelContext) : Rel.RelContext :=
  { c with
    source := fun n => (p.sources.find? fun e => e.1 = n).map fun e => sourceKind e.2
    schema := fun n => (p.schemas.find? fun e => e.1 = n).map fun e => schemaFields n e.2 }

/-- The context of a relation, with what the table of the reader says of sources and schemas. -/
def readContext (st : State) (c : Rel.RelContext) : Rel.RelContext :=
  { c with source := sourceSymbol st.symbols, schema := columnFields st.symbols }

/-- The parts of the plan can be written and read. -/
structure PartsOk (p : Plan) : Prop where
  pipelines : ∀ q ∈ p.pipelines, q ≠ [] ∧ ∀ n ∈ q, Ext.IsName n
  relations : ∀ x ∈ p.relations, x.1.expr.lib.Numerals ∧
    Rel.RelReadable (p.context x.1) x.2
  rootIds : ∀ r ∈ p.rootNames, ∀ n ∈ r, Ext.IsName n
  defs : ∀ d ∈ p.defs, DefOk d

/-- No name is used twice where that is reported. -/
structure NamesOk (p : Plan) : Prop where
  relationsOnce : p.relationNames.Nodup
  relationsFresh : ∀ n ∈ p.relationNames, ∀ d ∈ p.defs, n ∉ d.names
  /-- At most one root has names. -/
  roots : p.rootNames.length ≤ 1
  rootFresh : p.rootNames ≠ [] → ∀ n, n = "root".toList ∨ n = "root.names".toList →
    n ∉ p.relationNames ∧ ∀ d ∈ p.defs, n ∉ d.names

/-- A plan that text can express: its parts are, and nothing is taken for something else. -/
structure PlanOk (p : Plan) : Prop extends PartsOk p, NamesOk p where
  fresh : Fresh [] p.defs

/-- The plan is printed as this text: the relations without an error, then everything. -/
def Plan.Prints (p : Plan) (text : Str) : Prop :=
  ∃ texts : List Str, p.relations.map (fun x => Rel.printRelation x.1 x.2) =
      texts.map (fun t => .ok (t, [])) ∧
    Parts.text ⟨p.pipelines, texts, p.roots, p.schemas, p.sources, p.blocks⟩ = .ok text

def asRelation : PlanDetail → Option Rel.RelTree
  | .relation t => some t
  | _ => none

def asPipelines : PlanDetail → Option (List (List Pipe.Ref))
  | .pipelines ps => some ps
  | _ => none

/-- The relations of a plan, as trees. -/
def relationTrees (ds : List PlanDetail) : List Rel.RelTree := ds.filterMap asRelation

/-- The pipelines of a plan. -/
def pipelineTrees (ds : List PlanDetail) : List (List Pipe.Ref) :=
  (ds.filterMap asPipelines).flatten

def asRoot : PlanDetail → Option (List Str)
  | .root ns => some ns
  | _ => none

/-- The roots of a plan. -/
def rootTrees (ds : List PlanDetail) : List (List Str) := ds.filterMap asRoot

/-- The names in a table. -/
def State.names (st : State) : List Str := st.symbols.map (·.name)

/-- The text is read as the plan. -/
structure ReadAs (p : Plan) (text : Str) (ds : List PlanDetail) (st : State) : Prop where
  /-- There is no error of syntax. -/
  parsed : detailsOf text = some ds
  /-- Nothing is thrown, and no error is reported. -/
  visited : visitPlan ds = .ok st
  errs : st.errs = []
  pipelines : pipelineTrees ds = p.pipelines.map Pipe.refs
  /-- The relations come in order, and each is read as what was printed. -/
  count : (relationTrees ds).length = p.relations.length
  relations : ∀ (i : Nat) x, p.relations[i]? = some x → ∃ t, (relationTrees ds)[i]? = some t ∧
    t.ref.id = x.1.name ∧ Rel.readTree (readContext st x.1) t = .ok (x.2, [])
  roots : rootNamesOf st.symbols = p.rootNames.head?
  schemas : ∀ e ∈ p.schemas, schemaOf st.symbols e.1 = some (kept e.2)
  sources : ∀ e ∈ p.sources, sourceOf st.symbols e.1 = .ok (some e.2)
  functions : Ext.described st.ext.table = Ext.written p.blocks

end Verif.Sec
