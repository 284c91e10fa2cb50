import Verif.Spec.Renumber
import Verif.Spec.Extension

/-! # Another order of the declarations of a binary plan -/

namespace Verif.Whole

open Verif Verif.Expr

/-- Declarations of functions in another order: those with the same short name, and those with the same
number, keep their order. -/
inductive Shuffled : List Ext.PbFunction → List Ext.PbFunction → Prop where
  | nil : Shuffled [] []
  | cons (f : Ext.PbFunction) {l l' : List Ext.PbFunction} : Shuffled l l' → Shuffled (f :: l) (f :: l')
  | swap (f g : Ext.PbFunction) (l : List Ext.PbFunction) :
      Ext.shortName f.name ≠ Ext.shortName g.name → f.anchor ≠ g.anchor →
      Shuffled (f :: g :: l) (g :: f :: l)
  | trans {a b c : List Ext.PbFunction} : Shuffled a b → Shuffled b c → Shuffled a c

/-- The same plan with its URIs and functions declared in another order.  A URI that no function
refers to may come, go or change. -/
structure Redeclared (p p' : Input) : Prop where
  functions : Shuffled p.functions p'.functions
  uris : ∀ f ∈ p.functions, Ext.resolve p'.uris f.uriRef = Ext.resolve p.uris f.uriRef
  names : p'.names = p.names
  rel : p'.rel = p.rel

/-- Different numbers of URIs that functions refer to stand for different URIs, and at most one for
none. -/
def UrisApart (p : Input) : Prop :=
  ∀ f ∈ p.functions, ∀ g ∈ p.functions,
    Ext.resolve p.uris f.uriRef = Ext.resolve p.uris g.uriRef → f.uriRef = g.uriRef

end Verif.Whole
