import Verif.Spec.Whole

/-! # Other numbers for the URIs and functions of a binary plan -/

namespace Verif.Whole

open Verif Verif.Expr

/-- A relation without its inputs with other numbers for the functions. -/
def numOwn (σ : Nat → Nat) (o : Own) : Own := { o with body := renumberBody σ o.body }

mutual
def numRel (σ : Nat → Nat) : BRel → BRel
  | .node o kids => .node (numOwn σ o) (numRels σ kids)
def numRels (σ : Nat → Nat) : List BRel → List BRel
  | [] => []
  | r :: rs => numRel σ r :: numRels σ rs
end

def numUri (τ : Nat → Nat) (u : Ext.PbUri) : Ext.PbUri := { u with anchor := τ u.anchor }

def numFunction (σ τ : Nat → Nat) (f : Ext.PbFunction) : Ext.PbFunction :=
  ⟨σ f.anchor, f.name, τ f.uriRef⟩

/-- The plan with the numbers of its functions changed by `σ` and those of its URIs by `τ`, where they
are declared and where they are used. -/
def renumberPlan (σ τ : Nat → Nat) (p : Input) : Input where
  uris := p.uris.map (numUri τ)
  functions := p.functions.map (numFunction σ τ)
  names := p.names
  rel := numRel σ p.rel

/-- Different numbers for different ones. -/
def Distinct (σ : Nat → Nat) : Prop := ∀ {a b}, σ a = σ b → a = b

end Verif.Whole
