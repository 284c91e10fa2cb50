import Verif.Spec.Expression

/-! # The printer on parts that are set -/

namespace Verif.Expr

open Verif

theorem leftPrinted_set {e : PbExpr} (h : e.isSet = true) (r : Printed) :
    leftPrinted e r = r.map fun r => (r.1 ++ [' '], r.2) := by
  cases e <;> first
    | rfl
    | simp [PbExpr.isSet] at h

theorem elsePieces_set {e : PbExpr} (h : e.isSet = true) (r : Printed) :
    elsePieces e r = piece r := by
  cases e <;> first
    | rfl
    | simp [PbExpr.isSet] at h

theorem clausePieces_set {a b : PbExpr} (ha : a.isSet = true) (hb : b.isSet = true)
    (r q : Printed) : clausePieces a b r q = both (piece r) (piece q) := by
  unfold clausePieces
  split
  · simp [PbExpr.isSet] at ha
  · simp [PbExpr.isSet] at hb
  · rfl

theorem printClause_set (c : Context) (d : Nat) {a b : PbExpr} (ha : a.isSet = true)
    (hb : b.isSet = true) :
    printClause c d (.mk a b) = both (piece (printExpr c d a)) (piece (printExpr c d b)) := by
  rw [printClause, clausePieces_set ha hb]

end Verif.Expr
