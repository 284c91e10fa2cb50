import Verif.Lemmas.CaseRead
import Verif.Prop.Order

/-! # C69: the case of letters in a text plan -/

namespace Verif.Whole

open Verif Verif.Expr Verif.Case

/-- **C69, the grammar.**  Whether a text is a plan does not depend on the case of its letters. -/
theorem case_grammar {s s' : Str} (h : Case.Same s s') : (Sec.detailsOf s).isSome = (Sec.detailsOf s').isSome := by
  have h1 := Sec.detailsOf_low s
  have h2 := Sec.detailsOf_low s'
  rw [show Lex.lowS s = Lex.lowS s' from h, h2] at h1
  cases ha : Sec.detailsOf s <;> cases hb : Sec.detailsOf s' <;> simp_all

/-- **C69.**  Two texts that are the same but for the case of letters, and in which names, numbers and
strings are spelled alike, give the same binary plan or fail alike. -/
theorem case_plan {s s' : Str} (h : Case.Same s s') (hs : spelled s = spelled s') (lib : Literal.Lib) (fuel : Nat) :
    fromText lib fuel s = fromText lib fuel s' := by
  have h1 := Sec.detailsOf_low s
  have h2 := Sec.detailsOf_low s'
  rw [show Lex.lowS s = Lex.lowS s' from h, h2] at h1
  unfold spelled at hs
  unfold fromText
  cases ha : Sec.detailsOf s with
  | none => cases hb : Sec.detailsOf s' <;> simp_all
  | some ds =>
    cases hb : Sec.detailsOf s' with
    | none => simp_all
    | some ds' =>
      rw [ha, hb] at h1 hs
      simp only [Option.map_some, Option.some.injEq, Option.getD_some] at h1 hs ⊢
      rw [← fromDetails_bare lib fuel ds, bare_eq h1.symm hs, fromDetails_bare]

/-- **C69, for printed plans.** -/
theorem case_trip {lib : Literal.Lib} {sort : Ext.Sorter} {fuel : Nat} {p q : Input} {text text' : Str}
    (ht : Trip lib sort fuel p text q) (h : Case.Same text text') (hs : spelled text = spelled text') :
    fromText lib fuel text' = some (.ok q.binary) := by
  rw [← case_plan h hs]
  exact ht.2

def cText : Str := ("Pipelines { r -> f -> root; } READ Relation r { Source t; BASE_SCHEMA s; }" ++
  "fILTER RELATION f { FILTER s.a; } SCHEMA s { a BOOLEAN; b I32; }" ++
  "SOURCE Named_Table t { NAMES = [\"t\"] }").toList

/-- Non-vacuity of `case_plan`: the plan is read. -/
example : Case.Same aText cText ∧ aText ≠ cText ∧ spelled aText = spelled cText ∧
    ∃ b, fromText sampleLib 3 cText = some (.ok b) := by
  have h1 : Case.Same aText cText := by unfold Case.Same; decide +kernel
  have h2 : spelled aText = spelled cText := by decide +kernel
  refine ⟨h1, by decide +kernel, h2, ?_⟩
  rw [← case_plan h1 h2]
  have h : filterField (fromText sampleLib 3 aText) = some 0 := by decide +kernel
  obtain ⟨b, -, -, -, -, -, -, hb, -⟩ := filterField_some h
  exact ⟨b, hb⟩

/-! ### Where the case matters -/

/-- The names of the roots of a plan and the kinds of their relations. -/
def rootKinds : Option (Outcome Binary) → List (List Str × Pipe.RelKind)
  | some (.ok b) => b.rels.map fun r => match r.2 with | .node o _ => (r.1, pipeKind o.body)
  | _ => []

def rootText (word : String) : Str :=
  ("pipelines { r -> " ++ word ++ "; } read relation r { source t; base_schema s; }" ++
    "schema s { a boolean; } source named_table t { names = [\"t\"] } root { names = [a] }").toList

/-- **C69, `root`** (why it counts as a name).  Written with capital letters at the end of a pipeline it
is another relation than the one of the section `root`: the plan gets a second, empty relation. -/
theorem case_root : ∃ s s' : Str, Case.Same s s' ∧
    rootKinds (fromText sampleLib 3 s) = [(["a".toList], .read)] ∧
    rootKinds (fromText sampleLib 3 s') = [([], .unknown), (["a".toList], .read)] :=
  ⟨rootText "root", rootText "ROOT", by unfold Case.Same; decide +kernel, by decide +kernel, by decide +kernel⟩

/-- The source of the second input of the only relation of a plan. -/
def secondSource : Option (Outcome Binary) → Option Sec.Source
  | some (.ok b) =>
    match b.rels with
    | [(_, .node _ [_, .node o _])] => o.source
    | _ => none
  | _ => none

def filesText (word : String) : Str :=
  ("pipelines { r -> j; q -> j; j -> root; } schema s { a boolean; }" ++
    "source local_files t { items = [ { uri_file: \"x\" parquet: {} } ] }" ++
    "source local_files u { items = [ { " ++ word ++ ": \"x\" parquet: {} } ] }" ++
    "read relation r { source t; base_schema s; } read relation q { source u; base_schema s; }" ++
    "cross relation j { }").toList

/-- **C69, files** (why the text of a file counts as it is).  A file that occurs in two sources is lost in
the second one, but not if a keyword is written in another way there. -/
theorem case_file : ∃ s s' : Str, Case.Same s s' ∧
    secondSource (fromText sampleLib 6 s) = some (.files [Sec.File.empty]) ∧
    secondSource (fromText sampleLib 6 s') = some (.files [⟨.uriFile "x".toList, 0, 0, 0, .parquet⟩]) :=
  ⟨filesText "uri_file", filesText "URI_FILE", by unfold Case.Same; decide +kernel, by decide +kernel,
    by decide +kernel⟩

/-- The enumerators among the arguments of the condition of the outermost filter. -/
def filterEnums : Option (Outcome Binary) → List Str
  | some (.ok b) =>
    match b.rels with
    | [(_, .node ⟨.filter (some (.call _ _ as _ _)), _, _, _⟩ _)] =>
      as.filterMap fun a => match a with | .enum s => some s | _ => none
    | _ => []
  | _ => []

def enumText (word : String) : Str :=
  ("pipelines { r -> f -> root; } read relation r { source t; base_schema s; }" ++
    "filter relation f { filter g(a " ++ word ++ " b_enum); } schema s { a boolean; }" ++
    "source named_table t { names = [\"t\"] } extension_space u { function g:x as g; }").toList

/-- **C69, enumerators** (why arguments that end in `_enum` count as they are).  A cast to a type with
such a name is not a cast: its text is the enumerator. -/
theorem case_enum : ∃ s s' : Str, Case.Same s s' ∧
    filterEnums (fromText sampleLib 3 s) = ["aasb".toList] ∧
    filterEnums (fromText sampleLib 3 s') = ["aASb".toList] :=
  ⟨enumText "as", enumText "AS", by unfold Case.Same; decide +kernel, by decide +kernel, by decide +kernel⟩

end Verif.Whole
