import Verif.Lemmas.RenamePlan
import Verif.Lemmas.Spelling
import Verif.Prop.Order

/-! # C71: other names for what a text gives names to -/

namespace Verif.Whole

open Verif Verif.Expr

/-- **C71.**  The names of relations, sources, schemas, functions and computed columns do not matter: with
other ones, different for different ones, the parts of a text give the same binary plan, or are refused in
the same way. -/
theorem rename_details {ρ : Str → Str} {ds : List Sec.PlanDetail} (h : Renames ρ ds)
    (lib : Literal.Lib) (fuel : Nat) :
    fromDetails lib fuel (ds.map (renPart ρ)) = fromDetails lib fuel ds :=
  fromDetails_ren h lib fuel

/-- **C71, for texts.** -/
theorem rename_text {ρ : Str → Str} {text text' : Str} {ds : List Sec.PlanDetail}
    (h : Sec.detailsOf text = some ds) (h' : Sec.detailsOf text' = some (ds.map (renPart ρ)))
    (hr : Renames ρ ds) (lib : Literal.Lib) (fuel : Nat) :
    fromText lib fuel text' = fromText lib fuel text := by
  simp only [fromText, h, h', Option.map_some, rename_details hr]

/-- **C71, for printed plans.**  The text that is printed for a plan is read as the same plan with other
names. -/
theorem rename_trip (lib : Literal.Lib) (hl : lib.Numerals) (sort : Ext.Sorter)
    (hs : Ext.Rearranges sort) (p : Input) (h : Expressible lib p) (fuel : Nat)
    (hf : (owns p.rel).length ≤ fuel) :
    ∃ text ds b, toText lib sort fuel p = .ok text ∧ Sec.detailsOf text = some ds ∧ SamePlan p b ∧
      ∀ ρ text', Renames ρ ds → Sec.detailsOf text' = some (ds.map (renPart ρ)) →
        fromText lib fuel text' = some (.ok b) := by
  obtain ⟨text, ds, b, h1, h2, h3, h4, -⟩ := order_trip lib hl sort hs p h fuel hf
  refine ⟨text, ds, b, h1, h2, h4, fun ρ text' hr hd' => ?_⟩
  rw [rename_text h2 hd' hr lib fuel, h3]

/-! ### Non-vacuity -/

/-- The names in each pair are exchanged. -/
def exchange : List (Str × Str) → Str → Str
  | [], n => n
  | p :: l, n => exchange l (if n = p.1 then p.2 else if n = p.2 then p.1 else n)

theorem exchange_different : ∀ {l : List (Str × Str)} {a b : Str}, exchange l a = exchange l b → a = b
  | [], _, _, h => h
  | p :: l, a, b, h => by
    have h := exchange_different (l := l) h
    obtain ⟨x, y⟩ := p
    by_cases h1 : a = x <;> by_cases h2 : b = x <;> by_cases h3 : a = y <;> by_cases h4 : b = y <;>
      simp only [h1, h2, h3, h4, if_true, if_false] at h ⊢ <;> grind

theorem exchange_plain {l : List (Str × Str)} (hl : ∀ p ∈ l, Plain p.1 ∧ Plain p.2) :
    ∀ {n : Str}, Plain n → Plain (exchange l n) := by
  induction l with
  | nil => exact fun h => h
  | cons p l ih =>
    intro n hn
    unfold exchange
    have hp := hl p (by simp)
    refine ih (fun q hq => hl q (by simp [hq])) ?_
    split
    · exact hp.2
    · split
      · exact hp.1
      · exact hn

theorem exchange_kept {l : List (Str × Str)} {n : Str} (h : ∀ p ∈ l, n ≠ p.1 ∧ n ≠ p.2) :
    exchange l n = n := by
  induction l with
  | nil => rfl
  | cons p l ih =>
    have hp := h p (by simp)
    unfold exchange
    rw [if_neg hp.1, if_neg hp.2]
    exact ih fun q hq => h q (by simp [hq])

def pairs : List (Str × Str) :=
  [("r".toList, "n1".toList), ("q".toList, "n2".toList), ("t".toList, "n3".toList),
   ("s".toList, "n4".toList), ("x".toList, "n5".toList), ("n".toList, "n6".toList),
   ("c".toList, "n7".toList)]

def newNames : Str → Str := spell (exchange pairs)

theorem newNames_spelling : Spelling newNames :=
  spell_spelling exchange_different
    (exchange_plain (by unfold Plain; decide +kernel)) (by decide +kernel)

theorem newNames_made : newNames intermediate = intermediate ∧
    ∀ k, newNames (intermediate ++ natText k) = intermediate ++ natText k := by
  refine ⟨by decide +kernel, fun k => ?_⟩
  have hp : Plain (intermediate ++ natText k) := by
    intro c hc e
    subst e
    rcases List.mem_append.mp hc with h | h
    · exact absurd h (by decide)
    · exact absurd (natText_digits k _ h) (by decide)
  unfold newNames
  rw [spell_plain _ hp]
  apply exchange_kept
  have : ∀ p ∈ pairs, p.1.length < intermediate.length ∧ p.2.length < intermediate.length := by
    decide +kernel
  intro p hq
  have := this p hq
  constructor
  · intro e
    rw [← e] at this
    simp at this
    omega
  · intro e
    rw [← e] at this
    simp at this
    omega

def oldText : Str := ("pipelines { q; r -> p -> f -> root; }" ++
  "read relation r { source t; base_schema s; }" ++
  "read relation q { source t; base_schema s; }" ++
  "project relation p { expression n(s.a)->boolean NAMED x; }" ++
  "filter relation f { filter c(x, EXISTS IN SUBQUERY q)->boolean; emit s.b; emit x; }" ++
  "schema s { a boolean; b i32; }" ++
  "source named_table t { names = [\"u\"] }" ++
  "extension_space { function not:bool as n; function and:bool as c; }").toList

def newText : Str := ("pipelines { n2; n1 -> p -> f -> root; }" ++
  "read relation n1 { source n3; base_schema n4; }" ++
  "read relation n2 { source n3; base_schema n4; }" ++
  "project relation p { expression n6(n4.a)->boolean NAMED n5; }" ++
  "filter relation f { filter n7(n5, EXISTS IN SUBQUERY n2)->boolean; emit n4.b; emit n5; }" ++
  "schema n4 { a boolean; b i32; }" ++
  "source named_table n3 { names = [\"u\"] }" ++
  "extension_space { function not:bool as n6; function and:bool as n7; }").toList

def oldParts : List Sec.PlanDetail :=
  [.pipelines [[⟨"q".toList, "q".toList⟩],
      [⟨"root".toList, "root".toList⟩, ⟨"f".toList, "f".toList⟩, ⟨"p".toList, "p".toList⟩,
       ⟨"r".toList, "r".toList⟩]],
   .relation ⟨"read".toList, ⟨"r".toList, none⟩, [.source "t".toList, .schema "s".toList]⟩,
   .relation ⟨"read".toList, ⟨"q".toList, none⟩, [.source "t".toList, .schema "s".toList]⟩,
   .relation ⟨"project".toList, ⟨"p".toList, none⟩,
     [.expression (.call "n".toList [.column (some "s".toList) "a".toList] [false]
       (some (.basic "boolean".toList false []))) (some "x".toList)]⟩,
   .relation ⟨"filter".toList, ⟨"f".toList, none⟩,
     [.filter none (.call "c".toList [.column none "x".toList,
       .setPredicate true "EXISTSINSUBQUERY".toList ⟨"q".toList, none⟩]
       [true, false] (some (.basic "boolean".toList false []))),
      .emit (some "s".toList) "b".toList, .emit none "x".toList]⟩,
   .schema "s".toList [("a".toList, .basic "boolean".toList false []),
     ("b".toList, .basic "i32".toList false [])],
   .source (.namedTable "t".toList ["\"u\"".toList]),
   .space ⟨none, [⟨"not:bool".toList, some "n".toList⟩, ⟨"and:bool".toList, some "c".toList⟩]⟩]

def oldToks : List Lex.Token :=
  [⟨.pipelines, "pipelines".toList⟩, ⟨.leftBrace, "{".toList⟩, ⟨.identifier, "q".toList⟩,
   ⟨.semicolon, ";".toList⟩, ⟨.identifier, "r".toList⟩, ⟨.arrow, "->".toList⟩,
   ⟨.identifier, "p".toList⟩, ⟨.arrow, "->".toList⟩, ⟨.identifier, "f".toList⟩,
   ⟨.arrow, "->".toList⟩, ⟨.root, "root".toList⟩, ⟨.semicolon, ";".toList⟩,
   ⟨.rightBrace, "}".toList⟩, ⟨.identifier, "read".toList⟩, ⟨.relation, "relation".toList⟩,
   ⟨.identifier, "r".toList⟩, ⟨.leftBrace, "{".toList⟩, ⟨.source, "source".toList⟩,
   ⟨.identifier, "t".toList⟩, ⟨.semicolon, ";".toList⟩, ⟨.baseSchema, "base_schema".toList⟩,
   ⟨.identifier, "s".toList⟩, ⟨.semicolon, ";".toList⟩, ⟨.rightBrace, "}".toList⟩,
   ⟨.identifier, "read".toList⟩, ⟨.relation, "relation".toList⟩, ⟨.identifier, "q".toList⟩,
   ⟨.leftBrace, "{".toList⟩, ⟨.source, "source".toList⟩, ⟨.identifier, "t".toList⟩,
   ⟨.semicolon, ";".toList⟩, ⟨.baseSchema, "base_schema".toList⟩, ⟨.identifier, "s".toList⟩,
   ⟨.semicolon, ";".toList⟩, ⟨.rightBrace, "}".toList⟩, ⟨.identifier, "project".toList⟩,
   ⟨.relation, "relation".toList⟩, ⟨.identifier, "p".toList⟩, ⟨.leftBrace, "{".toList⟩,
   ⟨.expression, "expression".toList⟩, ⟨.identifier, "n".toList⟩, ⟨.leftParen, "(".toList⟩,
   ⟨.identifier, "s".toList⟩, ⟨.period, ".".toList⟩, ⟨.identifier, "a".toList⟩,
   ⟨.rightParen, ")".toList⟩, ⟨.arrow, "->".toList⟩, ⟨.identifier, "boolean".toList⟩,
   ⟨.named, "NAMED".toList⟩, ⟨.identifier, "x".toList⟩, ⟨.semicolon, ";".toList⟩,
   ⟨.rightBrace, "}".toList⟩, ⟨.filter, "filter".toList⟩, ⟨.relation, "relation".toList⟩,
   ⟨.identifier, "f".toList⟩, ⟨.leftBrace, "{".toList⟩, ⟨.filter, "filter".toList⟩,
   ⟨.identifier, "c".toList⟩, ⟨.leftParen, "(".toList⟩, ⟨.identifier, "x".toList⟩,
   ⟨.comma, ",".toList⟩, ⟨.exists, "EXISTS".toList⟩, ⟨.in, "IN".toList⟩,
   ⟨.subquery, "SUBQUERY".toList⟩, ⟨.identifier, "q".toList⟩, ⟨.rightParen, ")".toList⟩,
   ⟨.arrow, "->".toList⟩, ⟨.identifier, "boolean".toList⟩, ⟨.semicolon, ";".toList⟩,
   ⟨.emit, "emit".toList⟩, ⟨.identifier, "s".toList⟩, ⟨.period, ".".toList⟩,
   ⟨.identifier, "b".toList⟩, ⟨.semicolon, ";".toList⟩, ⟨.emit, "emit".toList⟩,
   ⟨.identifier, "x".toList⟩, ⟨.semicolon, ";".toList⟩, ⟨.rightBrace, "}".toList⟩,
   ⟨.schema, "schema".toList⟩, ⟨.identifier, "s".toList⟩, ⟨.leftBrace, "{".toList⟩,
   ⟨.identifier, "a".toList⟩, ⟨.identifier, "boolean".toList⟩, ⟨.semicolon, ";".toList⟩,
   ⟨.identifier, "b".toList⟩, ⟨.identifier, "i32".toList⟩, ⟨.semicolon, ";".toList⟩,
   ⟨.rightBrace, "}".toList⟩, ⟨.source, "source".toList⟩, ⟨.namedTable, "named_table".toList⟩,
   ⟨.identifier, "t".toList⟩, ⟨.leftBrace, "{".toList⟩, ⟨.names, "names".toList⟩,
   ⟨.equal, "=".toList⟩, ⟨.leftBracket, "[".toList⟩, ⟨.string, "\"u\"".toList⟩,
   ⟨.rightBracket, "]".toList⟩, ⟨.rightBrace, "}".toList⟩,
   ⟨.extensionSpace, "extension_space".toList⟩, ⟨.leftBrace, "{".toList⟩,
   ⟨.function, "function".toList⟩, ⟨.identifier, "not".toList⟩, ⟨.colon, ":".toList⟩,
   ⟨.identifier, "bool".toList⟩, ⟨.as, "as".toList⟩, ⟨.identifier, "n".toList⟩,
   ⟨.semicolon, ";".toList⟩, ⟨.function, "function".toList⟩, ⟨.identifier, "and".toList⟩,
   ⟨.colon, ":".toList⟩, ⟨.identifier, "bool".toList⟩, ⟨.as, "as".toList⟩,
   ⟨.identifier, "c".toList⟩, ⟨.semicolon, ";".toList⟩, ⟨.rightBrace, "}".toList⟩]

def newToks : List Lex.Token :=
  [⟨.pipelines, "pipelines".toList⟩, ⟨.leftBrace, "{".toList⟩, ⟨.identifier, "n2".toList⟩,
   ⟨.semicolon, ";".toList⟩, ⟨.identifier, "n1".toList⟩, ⟨.arrow, "->".toList⟩,
   ⟨.identifier, "p".toList⟩, ⟨.arrow, "->".toList⟩, ⟨.identifier, "f".toList⟩,
   ⟨.arrow, "->".toList⟩, ⟨.root, "root".toList⟩, ⟨.semicolon, ";".toList⟩,
   ⟨.rightBrace, "}".toList⟩, ⟨.identifier, "read".toList⟩, ⟨.relation, "relation".toList⟩,
   ⟨.identifier, "n1".toList⟩, ⟨.leftBrace, "{".toList⟩, ⟨.source, "source".toList⟩,
   ⟨.identifier, "n3".toList⟩, ⟨.semicolon, ";".toList⟩, ⟨.baseSchema, "base_schema".toList⟩,
   ⟨.identifier, "n4".toList⟩, ⟨.semicolon, ";".toList⟩, ⟨.rightBrace, "}".toList⟩,
   ⟨.identifier, "read".toList⟩, ⟨.relation, "relation".toList⟩, ⟨.identifier, "n2".toList⟩,
   ⟨.leftBrace, "{".toList⟩, ⟨.source, "source".toList⟩, ⟨.identifier, "n3".toList⟩,
   ⟨.semicolon, ";".toList⟩, ⟨.baseSchema, "base_schema".toList⟩, ⟨.identifier, "n4".toList⟩,
   ⟨.semicolon, ";".toList⟩, ⟨.rightBrace, "}".toList⟩, ⟨.identifier, "project".toList⟩,
   ⟨.relation, "relation".toList⟩, ⟨.identifier, "p".toList⟩, ⟨.leftBrace, "{".toList⟩,
   ⟨.expression, "expression".toList⟩, ⟨.identifier, "n6".toList⟩, ⟨.leftParen, "(".toList⟩,
   ⟨.identifier, "n4".toList⟩, ⟨.period, ".".toList⟩, ⟨.identifier, "a".toList⟩,
   ⟨.rightParen, ")".toList⟩, ⟨.arrow, "->".toList⟩, ⟨.identifier, "boolean".toList⟩,
   ⟨.named, "NAMED".toList⟩, ⟨.identifier, "n5".toList⟩, ⟨.semicolon, ";".toList⟩,
   ⟨.rightBrace, "}".toList⟩, ⟨.filter, "filter".toList⟩, ⟨.relation, "relation".toList⟩,
   ⟨.identifier, "f".toList⟩, ⟨.leftBrace, "{".toList⟩, ⟨.filter, "filter".toList⟩,
   ⟨.identifier, "n7".toList⟩, ⟨.leftParen, "(".toList⟩, ⟨.identifier, "n5".toList⟩,
   ⟨.comma, ",".toList⟩, ⟨.exists, "EXISTS".toList⟩, ⟨.in, "IN".toList⟩,
   ⟨.subquery, "SUBQUERY".toList⟩, ⟨.identifier, "n2".toList⟩, ⟨.rightParen, ")".toList⟩,
   ⟨.arrow, "->".toList⟩, ⟨.identifier, "boolean".toList⟩, ⟨.semicolon, ";".toList⟩,
   ⟨.emit, "emit".toList⟩, ⟨.identifier, "n4".toList⟩, ⟨.period, ".".toList⟩,
   ⟨.identifier, "b".toList⟩, ⟨.semicolon, ";".toList⟩, ⟨.emit, "emit".toList⟩,
   ⟨.identifier, "n5".toList⟩, ⟨.semicolon, ";".toList⟩, ⟨.rightBrace, "}".toList⟩,
   ⟨.schema, "schema".toList⟩, ⟨.identifier, "n4".toList⟩, ⟨.leftBrace, "{".toList⟩,
   ⟨.identifier, "a".toList⟩, ⟨.identifier, "boolean".toList⟩, ⟨.semicolon, ";".toList⟩,
   ⟨.identifier, "b".toList⟩, ⟨.identifier, "i32".toList⟩, ⟨.semicolon, ";".toList⟩,
   ⟨.rightBrace, "}".toList⟩, ⟨.source, "source".toList⟩, ⟨.namedTable, "named_table".toList⟩,
   ⟨.identifier, "n3".toList⟩, ⟨.leftBrace, "{".toList⟩, ⟨.names, "names".toList⟩,
   ⟨.equal, "=".toList⟩, ⟨.leftBracket, "[".toList⟩, ⟨.string, "\"u\"".toList⟩,
   ⟨.rightBracket, "]".toList⟩, ⟨.rightBrace, "}".toList⟩,
   ⟨.extensionSpace, "extension_space".toList⟩, ⟨.leftBrace, "{".toList⟩,
   ⟨.function, "function".toList⟩, ⟨.identifier, "not".toList⟩, ⟨.colon, ":".toList⟩,
   ⟨.identifier, "bool".toList⟩, ⟨.as, "as".toList⟩, ⟨.identifier, "n6".toList⟩,
   ⟨.semicolon, ";".toList⟩, ⟨.function, "function".toList⟩, ⟨.identifier, "and".toList⟩,
   ⟨.colon, ":".toList⟩, ⟨.identifier, "bool".toList⟩, ⟨.as, "as".toList⟩,
   ⟨.identifier, "n7".toList⟩, ⟨.semicolon, ";".toList⟩, ⟨.rightBrace, "}".toList⟩]

set_option maxRecDepth 10000 in
theorem oldText_details : Sec.detailsOf oldText = some oldParts := by
  have h : Lex.lex oldText = some oldToks := by decide +kernel
  unfold Sec.detailsOf
  rw [h]
  rfl

set_option maxRecDepth 10000 in
theorem newText_details : Sec.detailsOf newText = some (oldParts.map (renPart newNames)) := by
  have h : Lex.lex newText = some newToks := by decide +kernel
  unfold Sec.detailsOf
  rw [h]
  rfl

theorem old_renames : Renames newNames oldParts :=
  ⟨newNames_spelling, by decide +kernel, newNames_made, by decide +kernel, by decide +kernel⟩

/-- The relation of a subquery in a filter, by the number of its subqueries and of the relations in it. -/
def filterQueries : Option (Outcome Binary) → Option (Nat × Nat)
  | some (.ok b) =>
    match b.rels with
    | [(_, .node ⟨.filter (some e), _, _, _⟩ kids)] => some (queries e, kids.length)
    | _ => none
  | _ => none

theorem filterQueries_some {x : Option (Outcome Binary)} {k : Nat × Nat} (h : filterQueries x = some k) :
    ∃ b, x = some (.ok b) := by
  unfold filterQueries at h
  split at h
  · exact ⟨_, rfl⟩
  · cases h

/-- Non-vacuity of `rename_text`: a plan with a subquery. -/
example : ∃ b, fromText sampleLib 4 oldText = some (.ok b) ∧
    fromText sampleLib 4 newText = some (.ok b) := by
  have ha : filterQueries (fromText sampleLib 4 oldText) = some (1, 2) := by decide +kernel
  obtain ⟨b, hb⟩ := filterQueries_some ha
  exact ⟨b, hb, by rw [rename_text oldText_details newText_details old_renames, hb]⟩

/-- Non-vacuity of `rename_trip`: a plan with subqueries. -/
example : ∃ text ds b, toText sampleLib id 13 sampleQueries = .ok text ∧ Sec.detailsOf text = some ds ∧
    SamePlan sampleQueries b ∧
      ∀ ρ text', Renames ρ ds → Sec.detailsOf text' = some (ds.map (renPart ρ)) →
        fromText sampleLib 13 text' = some (.ok b) :=
  rename_trip sampleLib sampleLib_numerals id (fun l => .refl l) sampleQueries
    sampleQueries_expressible 13 (by decide)

/-! ### Where names matter -/

def namedText (q t : String) : Str := ("pipelines { " ++ q ++ "; r -> f -> root; }" ++
  "read relation r { source " ++ t ++ "; base_schema s; }" ++
  "read relation " ++ q ++ " { source " ++ t ++ "; base_schema s; }" ++
  "filter relation f { filter not(EXISTS IN SUBQUERY " ++ q ++ ")->boolean; }" ++
  "schema s { a boolean; b i32; } source named_table " ++ t ++ " { names = [\"u\"] }" ++
  "extension_space { function not:bool as not; }").toList

def turnedAway : Option (Outcome Binary) → Bool
  | some (.ok _) => false
  | some _ => true
  | none => false

/-- **C71, names of other things** (why they are kept).  If a source is called like a column of a schema,
which the text can only mean in one way, the text is refused. -/
theorem rename_clash : turnedAway (fromText sampleLib 4 (namedText "q" "t")) = false ∧
    turnedAway (fromText sampleLib 4 (namedText "q" "a")) = true :=
  ⟨by decide +kernel, by decide +kernel⟩

/-- **C71, names that end in `_enum`** (why they are excluded).  If the relation of a subquery that is an
argument has such a name, the argument becomes an enumerator and the subquery is lost. -/
theorem rename_enum : filterQueries (fromText sampleLib 4 (namedText "q" "t")) = some (1, 2) ∧
    filterQueries (fromText sampleLib 4 (namedText "q_enum" "t")) = some (0, 1) :=
  ⟨by decide +kernel, by decide +kernel⟩

end Verif.Whole
