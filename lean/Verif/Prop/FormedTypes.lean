import Verif.Lemmas.FormedParse
import Verif.Lemmas.Reads
import Verif.Prop.TypeProto

/-! # C80: the types of a text plan are those the grammar can build -/

namespace Verif.TyPb

open Verif Lex Parse Tree Ty

/-- **C80.**  The type at the start of any text has the form of the grammar. -/
theorem type_formed {s : Str} {ts rest : List Token} {t : TypeTree} (hl : lex s = some ts)
    (ht : typeOf ts = some (t, rest)) : WellFormed t :=
  (parseType_keep _ ts (lexF_good _ _ _ _ hl) _ ht).1

/-- **C48 and C80, nothing is thrown.**  Whatever the text, the type at its start is read. -/
theorem type_total (inside : Bool) {s : Str} {ts rest : List Token} {t : TypeTree}
    (hl : lex s = some ts) (ht : typeOf ts = some (t, rest)) :
    ∃ r, textToTypeProto inside t.text = .ok r :=
  typeText_total inside t (type_formed hl ht)

/-- **C48 and C80.**  Whatever the text, the type at its start is read as what it says, without
fixed binary parts. -/
theorem type_reads (inside : Bool) {s : Str} {ts rest : List Token} {t : TypeTree} {c : CType}
    (hl : lex s = some ts) (ht : typeOf ts = some (t, rest)) (hm : meaning t = some c)
    (hf : noFixedBinary c = true) :
    textToTypeProto inside t.text =
      .ok (if c.noNullInNull = true then (pbOf c, []) else (.notSet, [.cannotDecode])) :=
  typeText_reads inside t c (type_formed hl ht) hm hf

/-- A text with a type of several parts at its start. -/
example : ((lex "map<string, list?<decimal<10, 2>>> and more".toList).bind typeOf).map
    (fun r => ((meaning r.1).isSome, r.2.length)) = some (true, 2) := by decide +kernel

end Verif.TyPb

namespace Verif.Sec

open Verif Lex

/-- **C80.**  Whatever the text: if it has no syntax error, every type in it has the form of the
grammar, so the first condition of C48 holds of it. -/
theorem text_formed {text : Str} {ds : List PlanDetail} (h : detailsOf text = some ds) :
    ∀ d ∈ ds, FormedPart d := by
  unfold detailsOf at h
  cases hl : lex text with
  | none => rw [hl] at h; simp at h
  | some ts =>
    rw [hl] at h
    exact parsePlan_formed _ ts ds (lexF_good _ _ _ _ hl) h

/-- **C80.**  The schemas of a text plan are read without undefined behaviour. -/
theorem text_schemas_defined {text : Str} {ds : List PlanDetail} (h : detailsOf text = some ds) :
    (visitPlan ds).Defined :=
  visitPlan_defined fun _ _ hm => text_formed h _ hm

/-- The types of the schemas of a plan. -/
def schemaTypes : PlanDetail → List (Str × Tree.TypeTree)
  | .schema _ cs => cs
  | _ => []

/-- A plan with types of all forms: four columns in its schema. -/
example : (detailsOf ("schema s { a list<i64>; b map<string, decimal?<10, 2>>; " ++
    "c struct<i32, list?<fp64>>; my_column i8?; }").toList).map
      (fun ds => (ds.flatMap schemaTypes).length) = some 4 := by decide +kernel

end Verif.Sec
