import Verif.Lemmas.CaseLex
import Verif.Model.Sections

/-!
The parser does not look at the case of letters: tokens in lower case have the trees of the tokens,
in lower case.
-/

namespace Verif.Tree

open Verif Lex

mutual
/-- A type in lower case. -/
def TypeTree.low : TypeTree → TypeTree
  | .absent => .absent
  | .basic id q ns => .basic (lowS id) q (ns.map lowS)
  | .list kw q e => .list (lowS kw) q e.low
  | .map kw q k c v => .map (lowS kw) q k.low c v.low
  | .struct kw q items => .struct (lowS kw) q (TypeTree.lowL items)
def TypeTree.lowL : List TypeTree → List TypeTree
  | [] => []
  | t :: ts => t.low :: TypeTree.lowL ts
end

mutual
/-- A constant in lower case. -/
def ConstTree.low : ConstTree → ConstTree
  | .number t ty => .number (lowS t) (ty.map TypeTree.low)
  | .string t ty => .string (lowS t) (ty.map TypeTree.low)
  | .mapLit ks vs ty => .mapLit (ConstTree.lowL ks) (ConstTree.lowL vs) (ty.map TypeTree.low)
  | .structLit cs ty => .structLit (ConstTree.lowL cs) (ty.map TypeTree.low)
  | .null t ty => .null (lowS t) (ty.map TypeTree.low)
  | .bool v t ty => .bool v (lowS t) (ty.map TypeTree.low)
def ConstTree.lowL : List ConstTree → List ConstTree
  | [] => []
  | c :: cs => c.low :: ConstTree.lowL cs
end

/-- A reference to a relation in lower case. -/
def RelRef.low (r : RelRef) : RelRef :=
  ⟨lowS r.id, r.schema.map fun p => (lowS p.1, lowS p.2)⟩

mutual
/-- An expression in lower case. -/
def ExprTree.low : ExprTree → ExprTree
  | .call id args cs ty => .call (lowS id) (ExprTree.lowL args) cs (ty.map TypeTree.low)
  | .const c => .const c.low
  | .column s id => .column (s.map lowS) (lowS id)
  | .cast e kw ty => .cast e.low (lowS kw) ty.low
  | .scalarSubquery kw r => .scalarSubquery (lowS kw) r.low
  | .inSubquery es kw r => .inSubquery (ExprTree.lowL es) (lowS kw) r.low
  | .setPredicate x kw r => .setPredicate x (lowS kw) r.low
  | .setComparison e op a kw r => .setComparison e.low (lowS op) a (lowS kw) r.low
def ExprTree.lowL : List ExprTree → List ExprTree
  | [] => []
  | e :: es => e.low :: ExprTree.lowL es
end

end Verif.Tree

namespace Verif.Parse

open Verif Lex Tree

/-- What has been read and the rest, in lower case. -/
def both {α : Type} (f : α → α) (r : α × List Token) : α × List Token := (f r.1, lows r.2)

@[simp] theorem both_fst {α : Type} (f : α → α) (r : α × List Token) : (both f r).1 = f r.1 := rfl
@[simp] theorem both_snd {α : Type} (f : α → α) (r : α × List Token) : (both f r).2 = lows r.2 := rfl
@[simp] theorem both_mk {α : Type} (f : α → α) (a : α) (ts : List Token) : both f (a, ts) = (f a, lows ts) := rfl

/-- A part of the parser that does not look at the case of letters. -/
def Blind {α : Type} (f : α → α) (p : List Token → Option (α × List Token)) : Prop :=
  ∀ ts, p (lows ts) = (p ts).map (both f)

@[simp] theorem nextIs_low (k : Tk) (ts : List Token) : nextIs k (lows ts) = nextIs k ts := by
  cases ts <;> rfl

@[simp] theorem expect_low (k : Tk) (ts : List Token) : expect k (lows ts) = (expect k ts).map lows := by
  cases ts with
  | nil => rfl
  | cons t ts => by_cases h : t.kind = k <;> simp [expect, h]

theorem idTail_low (ts : List Token) : ∀ (acc pend : Str) (back : List Token),
    idTail (lowS acc) (lowS pend) (lows back) (lows ts) = both lowS (idTail acc pend back ts) := by
  induction ts with
  | nil => intros; rfl
  | cons t ts ih =>
    intro acc pend back
    have hp : (lowS pend).isEmpty = pend.isEmpty := by cases pend <;> rfl
    simp only [idTail, lows_cons, low_kind, low_text, hp]
    split
    · rw [← lowS_append, ih]
    · split
      · rw [← lowS_append, ← lowS_append]
        exact ih _ [] _
      · rfl

@[simp] theorem parseId_low (ts : List Token) : parseId (lows ts) = (parseId ts).map (both lowS) := by
  cases ts with
  | nil => rfl
  | cons t ts =>
    by_cases h : isSimpleId t.kind = true
    · simp only [parseId, lows_cons, low_kind, low_text, h, if_true]
      exact congrArg some (idTail_low ts t.text [] ts)
    · simp [parseId, h]

@[simp] theorem parseQuestion_low (ts : List Token) : parseQuestion (lows ts) = both id (parseQuestion ts) := by
  simp only [parseQuestion, nextIs_low, lows_tail]
  split <;> rfl

@[simp] theorem parseComma_low (ts : List Token) : parseComma (lows ts) = both id (parseComma ts) := by
  simp only [parseComma, nextIs_low, lows_tail]
  split <;> rfl

@[simp] theorem parseNumbers_low (ts : List Token) :
    parseNumbers (lows ts) = (parseNumbers ts).map (both (List.map lowS)) := by
  match ts with
  | [] => rfl
  | [_] => rfl
  | a :: b :: ts =>
    have ih := parseNumbers_low ts
    by_cases h1 : a.kind = .number <;> by_cases h2 : b.kind = .comma <;> by_cases h3 : b.kind = .rightAngle <;>
      simp [parseNumbers, h1, h2, h3, ih] <;> (try rfl)
termination_by ts.length

@[simp] theorem parseBasic_low (ts : List Token) :
    parseBasic (lows ts) = (parseBasic ts).map (both TypeTree.low) := by
  simp only [parseBasic, parseId_low]
  cases parseId ts with
  | none => rfl
  | some i =>
    simp only [Option.map_some, Option.bind_some, both_snd, both_fst, parseQuestion_low, nextIs_low, lows_tail,
      parseNumbers_low]
    split
    · cases parseNumbers (parseQuestion i.2).2.tail <;> rfl
    · rfl

@[simp] theorem startsType_low (ts : List Token) : startsType (lows ts) = startsType ts := by
  cases ts <;> rfl

@[simp] theorem parseOptBasic_low (ts : List Token) :
    parseOptBasic (lows ts) = (parseOptBasic ts).map (both TypeTree.low) := by
  cases ts with
  | nil => rfl
  | cons t ts =>
    by_cases h : isSimpleId t.kind = true
    · simp only [parseOptBasic, lows_cons, low_kind, h, if_true]
      exact parseBasic_low (t :: ts)
    · simp [parseOptBasic, h, TypeTree.low]

theorem types_low (f : Nat) :
    (∀ ts, parseType f (lows ts) = (parseType f ts).map (both TypeTree.low)) ∧
    (∀ ts, parseOptType f (lows ts) = (parseOptType f ts).map (both TypeTree.low)) ∧
    (∀ ts, parseMoreTypes f (lows ts) = (parseMoreTypes f ts).map (both TypeTree.lowL)) := by
  induction f with
  | zero => exact ⟨fun _ => by simp [parseType], fun _ => by simp [parseOptType],
      fun _ => by simp [parseMoreTypes]⟩
  | succ f ih =>
    obtain ⟨h1, h2, h3⟩ := ih
    refine ⟨?_, ?_, ?_⟩
    · intro ts
      cases ts with
      | nil => simp [parseType]
      | cons t ts =>
        simp only [parseType, lows_cons, low_kind, low_text, parseQuestion_low, both_snd, both_fst, expect_low]
        split
        · cases expect .leftAngle (parseQuestion ts).2 with
          | none => rfl
          | some r =>
            simp only [Option.map_some, Option.bind_some, h2]
            cases parseOptType f r with
            | none => rfl
            | some e =>
              simp only [Option.map_some, Option.bind_some, both_snd, expect_low]
              cases expect .rightAngle e.2 <;> rfl
        split
        · cases expect .leftAngle (parseQuestion ts).2 with
          | none => rfl
          | some r =>
            simp only [Option.map_some, Option.bind_some, parseOptBasic_low]
            cases parseOptBasic r with
            | none => rfl
            | some k =>
              simp only [Option.map_some, Option.bind_some, both_snd, parseComma_low, h2]
              cases parseOptType f (parseComma k.2).2 with
              | none => rfl
              | some e =>
                simp only [Option.map_some, Option.bind_some, both_snd, expect_low]
                cases expect .rightAngle e.2 <;> rfl
        split
        · cases expect .leftAngle (parseQuestion ts).2 with
          | none => rfl
          | some r =>
            simp only [Option.map_some, Option.bind_some, h2]
            cases parseOptType f r with
            | none => rfl
            | some e =>
              simp only [Option.map_some, Option.bind_some, both_snd, h3]
              cases parseMoreTypes f e.2 with
              | none => rfl
              | some m =>
                simp only [Option.map_some, Option.bind_some, both_snd, expect_low]
                cases expect .rightAngle m.2 <;> rfl
        · exact parseBasic_low (t :: ts)
    · intro ts
      simp only [parseOptType, startsType_low]
      split
      · exact h1 ts
      · rfl
    · intro ts
      simp only [parseMoreTypes, nextIs_low, lows_tail, h1]
      split
      · cases parseType f ts.tail with
        | none => rfl
        | some e =>
          simp only [Option.map_some, Option.bind_some, both_snd, h3]
          cases parseMoreTypes f e.2 <;> rfl
      · rfl

@[simp] theorem parseType_low (f : Nat) (ts : List Token) :
    parseType f (lows ts) = (parseType f ts).map (both TypeTree.low) := (types_low f).1 ts

@[simp] theorem parseSuffixBasic_low (ts : List Token) :
    parseSuffixBasic (lows ts) = (parseSuffixBasic ts).map (both (Option.map TypeTree.low)) := by
  simp only [parseSuffixBasic, nextIs_low, lows_tail, parseBasic_low]
  split
  · cases parseBasic ts.tail <;> rfl
  · rfl

@[simp] theorem parseSuffixType_low (f : Nat) (ts : List Token) :
    parseSuffixType f (lows ts) = (parseSuffixType f ts).map (both (Option.map TypeTree.low)) := by
  simp only [parseSuffixType, nextIs_low, lows_tail, parseType_low]
  split
  · cases parseType f ts.tail <;> rfl
  · rfl

/-- Two lists of constants in lower case. -/
def lowPair (p : List ConstTree × List ConstTree) : List ConstTree × List ConstTree :=
  (ConstTree.lowL p.1, ConstTree.lowL p.2)

theorem consts_low (f : Nat) :
    (∀ ts, parseConst f (lows ts) = (parseConst f ts).map (both ConstTree.low)) ∧
    (∀ ts, parseMoreConsts f (lows ts) = (parseMoreConsts f ts).map (both ConstTree.lowL)) ∧
    (∀ ts, parseMorePairs f (lows ts) = (parseMorePairs f ts).map (both lowPair)) := by
  induction f with
  | zero => exact ⟨fun _ => by simp [parseConst], fun _ => by simp [parseMoreConsts],
      fun _ => by simp [parseMorePairs]⟩
  | succ f ih =>
    obtain ⟨h1, h2, h3⟩ := ih
    refine ⟨?_, ?_, ?_⟩
    · intro ts
      cases ts with
      | nil => simp [parseConst]
      | cons t ts =>
        simp only [parseConst, lows_cons, low_kind, low_text, parseSuffixBasic_low, parseSuffixType_low, nextIs_low,
          lows_tail, h1]
        split
        · cases parseSuffixBasic ts <;> rfl
        · cases parseSuffixBasic ts <;> rfl
        · cases parseSuffixBasic ts <;> rfl
        · cases parseSuffixBasic ts <;> rfl
        · cases parseSuffixType f ts <;> rfl
        · split
          · cases parseSuffixType f ts.tail <;> rfl
          · cases parseConst f ts with
            | none => rfl
            | some a =>
              simp only [Option.map_some, Option.bind_some, both_snd, nextIs_low, lows_tail, h1, h2]
              split
              · cases parseConst f a.2.tail with
                | none => rfl
                | some b =>
                  simp only [Option.map_some, Option.bind_some, both_snd, h3]
                  cases parseMorePairs f b.2 with
                  | none => rfl
                  | some m =>
                    simp only [Option.map_some, Option.bind_some, both_snd, expect_low]
                    cases expect .rightBrace m.2 with
                    | none => rfl
                    | some u =>
                      simp only [Option.map_some, Option.bind_some, parseSuffixType_low]
                      cases parseSuffixType f u <;> rfl
              · cases parseMoreConsts f a.2 with
                | none => rfl
                | some m =>
                  simp only [Option.map_some, Option.bind_some, both_snd, expect_low]
                  cases expect .rightBrace m.2 with
                  | none => rfl
                  | some u =>
                    simp only [Option.map_some, Option.bind_some, parseSuffixType_low]
                    cases parseSuffixType f u <;> rfl
        · rfl
    · intro ts
      simp only [parseMoreConsts, nextIs_low, lows_tail, h1]
      split
      · cases parseConst f ts.tail with
        | none => rfl
        | some e =>
          simp only [Option.map_some, Option.bind_some, both_snd, h2]
          cases parseMoreConsts f e.2 <;> rfl
      · rfl
    · intro ts
      simp only [parseMorePairs, nextIs_low, lows_tail, h1]
      split
      · cases parseConst f ts.tail with
        | none => rfl
        | some e =>
          simp only [Option.map_some, Option.bind_some, both_snd, expect_low]
          cases expect .colon e.2 with
          | none => rfl
          | some u =>
            simp only [Option.map_some, Option.bind_some, h1]
            cases parseConst f u with
            | none => rfl
            | some b =>
              simp only [Option.map_some, Option.bind_some, both_snd, h3]
              cases parseMorePairs f b.2 <;> rfl
      · rfl

@[simp] theorem parseConst_low (f : Nat) (ts : List Token) :
    parseConst f (lows ts) = (parseConst f ts).map (both ConstTree.low) := (consts_low f).1 ts

@[simp] theorem parseRef_low (ts : List Token) :
    parseRef (lows ts) = (parseRef ts).map (both RelRef.low) := by
  simp only [parseRef, parseId_low]
  cases parseId ts with
  | none => rfl
  | some i =>
    simp only [Option.map_some, Option.bind_some, both_snd, both_fst]
    obtain ⟨i, r⟩ := i
    match r with
    | [] => rfl
    | [_] => rfl
    | a :: b :: r =>
      simp only [lows_cons, low_kind, low_text, parseId_low]
      split
      · cases parseId r with
        | none => rfl
        | some j =>
          simp only [Option.map_some, Option.bind_some, both_snd, both_fst, expect_low]
          cases expect .rightParen j.2 <;> rfl
      · rfl

/-- The text of keywords, a reference and the rest, in lower case. -/
def lowQuery (r : Str × RelRef × List Token) : Str × RelRef × List Token :=
  (lowS r.1, r.2.1.low, lows r.2.2)

@[simp] theorem parseSubquery_low (ts : List Token) :
    parseSubquery (lows ts) = (parseSubquery ts).map lowQuery := by
  cases ts with
  | nil => rfl
  | cons t ts =>
    simp only [parseSubquery, lows_cons, low_kind, low_text, parseRef_low]
    split
    · cases parseRef ts <;> rfl
    · rfl

@[simp] theorem parseInSubquery_low (ts : List Token) :
    parseInSubquery (lows ts) = (parseInSubquery ts).map lowQuery := by
  cases ts with
  | nil => rfl
  | cons t ts =>
    simp only [parseInSubquery, lows_cons, low_kind, low_text, parseSubquery_low]
    split
    · cases parseSubquery ts with
      | none => rfl
      | some r => simp [lowQuery]
    · rfl

@[simp] theorem parseColumn_low (id : Str) (ts : List Token) :
    parseColumn (lowS id) (lows ts) = (parseColumn id ts).map (both ExprTree.low) := by
  simp only [parseColumn, nextIs_low, lows_tail, parseId_low]
  split
  · cases parseId ts.tail <;> simp [ExprTree.low]
  · simp [ExprTree.low]

@[simp] theorem parseArrow_low (f : Nat) (ts : List Token) :
    parseArrow f (lows ts) = (parseArrow f ts).map (both (Option.map TypeTree.low)) := by
  simp only [parseArrow, nextIs_low, lows_tail, parseType_low]
  split
  · cases parseType f ts.tail <;> rfl
  · rfl

/-- Arguments in lower case; the commas stay. -/
def lowArgs (p : List ExprTree × List Bool) : List ExprTree × List Bool := (ExprTree.lowL p.1, p.2)

/-- An expression that starts with an identifier. -/
def afterId (f : Nat) (t : Token) (ts : List Token) (i : Str × List Token) : Option (ExprTree × List Token) :=
  if nextIs .leftParen i.2 then
    (parseArgs f i.2.tail).bind fun a => (parseArrow f a.2).map fun r => (.call i.1 a.1.1 a.1.2 r.1, r.2)
  else if nextIs .period i.2 then parseColumn i.1 i.2
  else if t.kind = .null then (parseConst f (t :: ts)).map fun c => (.const c.1, c.2)
  else parseColumn i.1 i.2

theorem exprs_low (f : Nat) :
    (∀ ts, parseExpr f (lows ts) = (parseExpr f ts).map (both ExprTree.low)) ∧
    (∀ ts, parsePrimary f (lows ts) = (parsePrimary f ts).map (both ExprTree.low)) ∧
    (∀ e ts, parsePostfix f (ExprTree.low e) (lows ts) = (parsePostfix f e ts).map (both ExprTree.low)) ∧
    (∀ ts, parseArgs f (lows ts) = (parseArgs f ts).map (both lowArgs)) ∧
    (∀ ts, parseMoreExprs f (lows ts) = (parseMoreExprs f ts).map (both ExprTree.lowL)) := by
  induction f with
  | zero => exact ⟨fun _ => by simp [parseExpr], fun _ => by simp [parsePrimary], fun _ _ => by simp [parsePostfix],
      fun _ => by simp [parseArgs], fun _ => by simp [parseMoreExprs]⟩
  | succ f ih =>
    obtain ⟨h1, h2, h3, h4, h5⟩ := ih
    refine ⟨?_, ?_, ?_, ?_, ?_⟩
    · intro ts
      simp only [parseExpr, h2]
      cases parsePrimary f ts with
      | none => rfl
      | some e => simp only [Option.map_some, Option.bind_some, both_snd, both_fst, h3]
    · intro ts
      cases ts with
      | nil => simp [parsePrimary]
      | cons t ts =>
        have hid : ∀ i, afterId f t.low (lows ts) (both lowS i) = (afterId f t ts i).map (both ExprTree.low) := by
          intro i
          simp only [afterId, both_snd, both_fst, nextIs_low, lows_tail, h4, parseColumn_low, low_kind, ← lows_cons,
            parseConst_low]
          split
          · cases parseArgs f i.2.tail with
            | none => rfl
            | some a =>
              simp only [Option.map_some, Option.bind_some, both_snd, parseArrow_low]
              cases parseArrow f a.2 with
              | none => rfl
              | some r => simp [ExprTree.low, lowArgs]
          · split
            · rfl
            · split
              · cases parseConst f (t :: ts) with
                | none => rfl
                | some c => simp [ExprTree.low]
              · rfl
        have hall : (parseId (lows (t :: ts))).bind (afterId f t.low (lows ts)) =
            ((parseId (t :: ts)).bind (afterId f t ts)).map (both ExprTree.low) := by
          rw [parseId_low]
          cases parseId (t :: ts) with
          | none => rfl
          | some i => simp only [Option.map_some, Option.bind_some, hid]
        simp only [parsePrimary, lows_cons, low_kind, low_text]
        split
        · rw [← lows_cons, parseSubquery_low]
          cases parseSubquery (t :: ts) with
          | none => rfl
          | some r => simp [ExprTree.low, lowQuery]
        · rw [parseInSubquery_low]
          cases parseInSubquery ts with
          | none => rfl
          | some r => simp [ExprTree.low, lowQuery]
        · rw [parseInSubquery_low]
          cases parseInSubquery ts with
          | none => rfl
          | some r => simp [ExprTree.low, lowQuery]
        · rw [h1]
          cases parseExpr f ts with
          | none => rfl
          | some e =>
            simp only [Option.map_some, Option.bind_some, both_snd, both_fst, h5]
            cases parseMoreExprs f e.2 with
            | none => rfl
            | some m =>
              simp only [Option.map_some, Option.bind_some, both_snd, both_fst, expect_low]
              cases expect .rightParen m.2 with
              | none => rfl
              | some u =>
                simp only [Option.map_some, Option.bind_some, parseInSubquery_low]
                cases parseInSubquery u with
                | none => rfl
                | some r => simp [ExprTree.low, lowQuery, ExprTree.lowL]
        all_goals first
          | (rw [← lows_cons, parseConst_low]
             cases parseConst f (t :: ts) with
             | none => rfl
             | some c => simp [ExprTree.low])
          | exact hall
    · intro e ts
      simp only [parsePostfix]
      match ts with
      | [] => rfl
      | a :: rest =>
        by_cases ha : a.kind = .as
        · simp only [lows_cons, low_kind, low_text, parseType_low, ha, if_true]
          cases parseType f rest with
          | none => rfl
          | some r =>
            simp only [Option.map_some, Option.bind_some, both_snd, both_fst]
            exact h3 (.cast e a.text r.1) r.2
        · by_cases hc : a.kind = .comparison
          · match rest with
            | [] => simp [ha, hc]
            | b :: rest' =>
              by_cases hb : b.kind = .all ∨ b.kind = .any
              · simp only [lows_cons, low_kind, low_text, parseSubquery_low, if_neg ha, if_pos hc, if_pos hb]
                cases parseSubquery rest' with
                | none => rfl
                | some r =>
                  simp only [Option.map_some, Option.bind_some, lowQuery]
                  rw [← lowS_append]
                  exact h3 (.setComparison e a.text (b.kind = .all) (b.text ++ r.1) r.2.1) r.2.2
              · simp [ha, hc, hb]
          · simp [ha, hc]
    · intro ts
      simp only [parseArgs, nextIs_low, lows_tail, h1]
      split
      · rfl
      · cases parseExpr f ts with
        | none => rfl
        | some e =>
          simp only [Option.map_some, Option.bind_some, both_snd, both_fst, parseComma_low, h4]
          cases parseArgs f (parseComma e.2).2 <;> rfl
    · intro ts
      simp only [parseMoreExprs, nextIs_low, lows_tail, h1]
      split
      · cases parseExpr f ts.tail with
        | none => rfl
        | some e =>
          simp only [Option.map_some, Option.bind_some, both_snd, both_fst, h5]
          cases parseMoreExprs f e.2 <;> rfl
      · rfl

@[simp] theorem typeOf_low (ts : List Token) : typeOf (lows ts) = (typeOf ts).map (both TypeTree.low) := by
  simp [typeOf, rounds]

@[simp] theorem exprOf_low (ts : List Token) : exprOf (lows ts) = (exprOf ts).map (both ExprTree.low) := by
  simp [exprOf, rounds, (exprs_low _).1]

end Verif.Parse
