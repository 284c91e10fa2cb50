import Verif.Lemmas.Settles
import Verif.Prop.Whole
import Verif.Prop.Tools

/-!
# C74: any binary plan is converted or refused

Nothing is asked of the plan here.  It may refer to fields, functions and URIs that do not exist,
use kinds of relations, sources and expressions that have no text, or have too many or too few
inputs and names.
-/

namespace Verif.Whole

open Verif Verif.Expr

/-- **C74**: converting a binary plan to text returns a text or ends with an error.  It never goes
outside a vector and never runs forever, whatever is in the plan: going along the inputs takes at
most as many steps as there are relations. -/
theorem toText_defined (lib : Literal.Lib) (sort : Ext.Sorter) (fuel : Nat) (p : Input)
    (hf : relations p.rel ≤ fuel) :
    (∃ text, toText lib sort fuel p = .ok text) ∨ ∃ e, toText lib sort fuel p = .throw e := by
  have h : (toText lib sort fuel p).Defined := by
    obtain ⟨h1, h2, h3⟩ := named_any p
    obtain ⟨l, hl⟩ := Pipe.lines_end h1 h2
    refine treeText_defined _ _ _ _ _ _ ?_
    have := hl fuel (by omega)
    simp only at this
    rw [this]
    trivial
  cases e : toText lib sort fuel p with
  | ok text => exact .inl ⟨text, rfl⟩
  | throw x => exact .inr ⟨x, rfl⟩
  | ub => rw [e] at h; exact h.elim

/-- **C74**: with room for as many steps as there are relations the result does not depend on how
much room there is. -/
theorem toText_room (lib : Literal.Lib) (sort : Ext.Sorter) (f g : Nat) (p : Input)
    (hf : relations p.rel ≤ f) (hg : relations p.rel ≤ g) :
    toText lib sort f p = toText lib sort g p := by
  obtain ⟨h1, h2, h3⟩ := named_any p
  obtain ⟨l, hl⟩ := Pipe.lines_end h1 h2
  exact treeText_lines ((hl f (by omega)).trans (hl g (by omega)).symm)

/-- Only the names of the relations make the conversion end: in any plan they differ from each
other and from the name of the plan relation, whatever the functions are called. -/
theorem relations_named (p : Input) :
    let t := nameTree (startCounters p) p.rel
    (Pipe.names (skeleton t.2)).Nodup ∧
      (t.1.getUniqueName Sec.rootName).2 ∉ Pipe.names (skeleton t.2) :=
  ⟨(named_any p).1, (named_any p).2.1⟩

/-! ## Cases -/

/-- A plan with nothing right: a project with three inputs, of which one has no source, one is of a
kind that has no text and one has an output that is not there; it asks for field 7, function 9
and output 5, and the only function has the name of a relation and a URI that is not there. -/
def brokenPlan : Input where
  uris := []
  functions := [⟨4, "project:x".toList, 3⟩]
  names := []
  rel := .node ⟨.project [.field (.field 7 false) .root, .call 9 0 [] [] .notSet], [5], none, none⟩
    [.node ⟨.read none none none none false, [], none, none⟩ [], .node ⟨.other, [], none, none⟩ [],
      .node ⟨.filter none, [-1], none, none⟩ []]

/-- It is refused. -/
example : ∃ e, toText sampleLib id 4 brokenPlan = .throw e :=
  ⟨.other, by decide +kernel⟩

/-- So it is not saved as text either (C68). -/
example (enc : Io.Encoders Binary) (other : Binary → Io.TextResult) (file : Option Str) :
    Io.savePlan (Tools.withSaver sampleLib id 4 enc other) ⟨true, none, true⟩ brokenPlan.binary .text
      file = (.thrown, some []) :=
  Tools.unsaved_text (x := .other) rfl (by decide +kernel)

/-- The sample is converted, with the room that its relations need. -/
example : (toText sampleLib id (relations sampleInput.rel) sampleInput).map (fun _ => ()) = .ok () := by
  decide +kernel

/-- Three filters on top of each other, on top of a read. -/
def deepPlan : Input where
  uris := []
  functions := []
  names := []
  rel := .node ⟨.filter none, [], none, none⟩ [.node ⟨.filter none, [], none, none⟩
    [.node ⟨.filter none, [], none, none⟩ [.node ⟨.read none none none none false, [],
      some ⟨[], none⟩, some (.named ["t".toList])⟩ []]]]

/-- The bound cannot be better: with less room than relations there is no result. -/
example : toText sampleLib id 3 deepPlan = .ub ∧
    (toText sampleLib id 4 deepPlan).map (fun _ => ()) = .ok () := by decide +kernel

end Verif.Whole
