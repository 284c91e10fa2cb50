import Verif.Lemmas.CaseParse
import Verif.Model.Whole

/-!
The parser of whole plans does not look at the case of letters: a text in lower case has the
details of the text, in lower case.
-/

namespace Verif.Rel

open Verif Lex Parse Tree

/-- A part of a measure in lower case. -/
def MeasureDetail.low : MeasureDetail → MeasureDetail
  | .measure e ty ids => .measure e.low (ty.map TypeTree.low) (ids.map lowS)
  | .filter e => .filter e.low
  | .invocation id => .invocation (lowS id)
  | .sort e by_ => .sort e.low (by_.map lowS)

/-- A detail of a relation in lower case. -/
def Detail.low : Detail → Detail
  | .common => .common
  | .schema id => .schema (lowS id)
  | .filter words e => .filter (words.map lowS) e.low
  | .expression e named => .expression e.low (named.map lowS)
  | .extension => .extension
  | .source id => .source (lowS id)
  | .grouping e => .grouping e.low
  | .measure ds => .measure (ds.map MeasureDetail.low)
  | .sort e by_ => .sort e.low (by_.map lowS)
  | .count text => .count (lowS text)
  | .type id => .type (lowS id)
  | .emit s id => .emit (s.map lowS) (lowS id)

/-- A relation in lower case. -/
def RelTree.low (t : RelTree) : RelTree := ⟨lowS t.type, t.ref.low, t.details.map Detail.low⟩

end Verif.Rel

namespace Verif.Pipe

/-- A node of a pipeline in lower case. -/
def Ref.low (r : Ref) : Ref := ⟨Lex.lowS r.name, Lex.lowS r.text⟩

end Verif.Pipe

namespace Verif.Ext

/-- A function in lower case. -/
def FunctionTree.low (t : FunctionTree) : FunctionTree := ⟨Lex.lowS t.name, t.alias.map Lex.lowS⟩

/-- An extension space in lower case. -/
def SpaceTree.low (t : SpaceTree) : SpaceTree := ⟨t.uri.map Lex.lowS, t.functions.map FunctionTree.low⟩

end Verif.Ext

namespace Verif.Sec

open Verif Lex Parse Tree

/-- A detail of a file in lower case. -/
def FileDetail.low : FileDetail → FileDetail
  | .partition n => .partition (lowS n)
  | .start n => .start (lowS n)
  | .length n => .length (lowS n)
  | .orc => .orc
  | .parquet => .parquet
  | .file s => .file (lowS s)
  | .location => .location

/-- A file in lower case. -/
def FileTree.low (t : FileTree) : FileTree := ⟨lowS t.text, t.details.map FileDetail.low⟩

/-- A source in lower case. -/
def SourceTree.low : SourceTree → SourceTree
  | .localFiles id files => .localFiles (lowS id) (files.map FileTree.low)
  | .virtualTable id => .virtualTable (lowS id)
  | .namedTable id strings => .namedTable (lowS id) (strings.map lowS)
  | .extensionTable id => .extensionTable (lowS id)

/-- A column of a schema in lower case. -/
def lowColumn (c : Str × TypeTree) : Str × TypeTree := (lowS c.1, c.2.low)

/-- A detail of a plan in lower case. -/
def PlanDetail.low : PlanDetail → PlanDetail
  | .pipelines ps => .pipelines (ps.map (List.map Pipe.Ref.low))
  | .relation t => .relation t.low
  | .root names => .root (names.map lowS)
  | .schema id columns => .schema (lowS id) (columns.map lowColumn)
  | .source t => .source t.low
  | .space t => .space t.low

end Verif.Sec

namespace Verif.Parse

open Verif Lex Tree

theorem bind_map_of {α β γ δ : Type} {o : Option α} {f : α → β} {g : β → Option δ} {h : α → Option γ} {k : γ → δ}
    (H : ∀ x, g (f x) = (h x).map k) : (o.map f).bind g = (o.bind h).map k := by
  cases o with
  | none => rfl
  | some x => exact H x

theorem map_map_of {α β γ δ : Type} {o : Option α} {f : α → β} {g : β → δ} {h : α → γ} {k : γ → δ}
    (H : ∀ x, g (f x) = k (h x)) : (o.map f).map g = (o.map h).map k := by
  cases o with
  | none => rfl
  | some x => exact congrArg some (H x)

end Verif.Parse

namespace Verif.Rel

open Verif Lex Parse Tree

theorem semi_low {α : Type} {f : α → α} {o o' : Option (α × List Token)} (h : o' = o.map (both f)) :
    semi o' = (semi o).map (both f) := by
  subst h
  refine bind_map_of fun x => ?_
  rw [both_snd, expect_low]
  exact map_map_of fun u => rfl

@[simp] theorem parseOptId_low (k : Tk) (ts : List Token) :
    parseOptId k (lows ts) = (parseOptId k ts).map (both (Option.map lowS)) := by
  simp only [parseOptId, nextIs_low, lows_tail, parseId_low]
  split
  · exact map_map_of fun i => rfl
  · rfl

/-- An expression and a name, in lower case. -/
def lowSort (p : ExprTree × Option Str) : ExprTree × Option Str := (p.1.low, p.2.map lowS)

@[simp] theorem parseSort_low (ts : List Token) : parseSort (lows ts) = (parseSort ts).map (both lowSort) := by
  simp only [parseSort, exprOf_low]
  refine bind_map_of fun e => ?_
  rw [both_snd, parseOptId_low]
  exact map_map_of fun b => rfl

theorem option_toList_low (o : Option Str) : (o.map lowS).toList = o.toList.map lowS := by
  cases o <;> rfl

@[simp] theorem parseIds_low (ts : List Token) :
    parseIds (lows ts) = (parseIds ts).map (both (List.map lowS)) := by
  simp only [parseIds, parseOptId_low]
  refine bind_map_of fun a => ?_
  rw [both_snd, parseOptId_low]
  refine map_map_of fun b => ?_
  simp only [both_fst, both_snd, option_toList_low, both_mk, List.map_append]

@[simp] theorem arrow_low (ts : List Token) :
    parseArrow (rounds (lows ts)) (lows ts) = (parseArrow (rounds ts) ts).map (both (Option.map TypeTree.low)) := by
  rw [parseArrow_low]
  simp [rounds]

theorem parseMeasureDetail_low : Blind MeasureDetail.low parseMeasureDetail := by
  intro ts
  cases ts with
  | nil => rfl
  | cons t ts =>
    simp only [parseMeasureDetail, lows_cons, low_kind]
    split
    · apply semi_low
      rw [exprOf_low]
      refine bind_map_of fun e => ?_
      rw [both_snd, arrow_low]
      refine bind_map_of fun a => ?_
      rw [both_snd, parseIds_low]
      exact map_map_of fun i => rfl
    · apply semi_low
      rw [exprOf_low]
      exact map_map_of fun i => rfl
    · apply semi_low
      rw [parseId_low]
      exact map_map_of fun i => rfl
    · apply semi_low
      rw [parseSort_low]
      exact map_map_of fun i => rfl
    · rfl

theorem parseUntilBrace_low {α : Type} {f : α → α} {p : List Token → Option (α × List Token)} (hp : Blind f p)
    (n : Nat) (ts : List Token) :
    parseUntilBrace p n (lows ts) = (parseUntilBrace p n ts).map (both (List.map f)) := by
  induction n generalizing ts with
  | zero => rfl
  | succ n ih =>
    simp only [parseUntilBrace, nextIs_low, lows_tail]
    split
    · rfl
    · rw [hp]
      refine bind_map_of fun d => ?_
      rw [both_snd, ih]
      exact map_map_of fun r => rfl

/-- A column name, as a detail. -/
def emitOf (r : ExprTree × List Token) : Option (Detail × List Token) :=
  match r.1 with
  | .column s n => some (.emit s n, r.2)
  | _ => none

theorem emitOf_low (r : ExprTree × List Token) : emitOf (both ExprTree.low r) = (emitOf r).map (both Detail.low) := by
  obtain ⟨e, r⟩ := r
  cases e <;> simp [emitOf, both, ExprTree.low, Detail.low]

/-- A number, as a detail. -/
def countOf : List Token → Option (Detail × List Token)
  | n :: us => if n.kind = .number then semi (some (.count n.text, us)) else none
  | [] => none

theorem countOf_low (ts : List Token) : countOf (lows ts) = (countOf ts).map (both Detail.low) := by
  cases ts with
  | nil => rfl
  | cons n us =>
    by_cases h : n.kind = .number
    · simp only [countOf, lows_cons, low_kind, low_text, h, if_true]
      exact semi_low rfl
    · simp [countOf, h]

theorem parseKeywordDetail_low : Blind Detail.low parseKeywordDetail := by
  intro ts
  cases ts with
  | nil => rfl
  | cons t ts =>
    simp only [parseKeywordDetail, lows_cons, low_kind]
    split
    · exact semi_low rfl
    · apply semi_low; rw [parseId_low]; exact map_map_of fun i => rfl
    · apply semi_low; rw [exprOf_low]; exact map_map_of fun i => rfl
    · apply semi_low
      rw [exprOf_low]
      refine bind_map_of fun e => ?_
      rw [both_snd, parseOptId_low]
      exact map_map_of fun i => rfl
    · exact semi_low rfl
    · apply semi_low; rw [parseId_low]; exact map_map_of fun i => rfl
    · apply semi_low; rw [exprOf_low]; exact map_map_of fun i => rfl
    · rw [expect_low]
      refine bind_map_of fun u => ?_
      rw [lows_length, parseUntilBrace_low parseMeasureDetail_low]
      exact map_map_of fun i => rfl
    · apply semi_low; rw [parseSort_low]; exact map_map_of fun i => rfl
    · exact countOf_low ts
    · apply semi_low; rw [parseId_low]; exact map_map_of fun i => rfl
    · apply semi_low
      rw [parseId_low]
      refine bind_map_of fun i => ?_
      rw [both_fst, both_snd, parseColumn_low]
      exact bind_map_of emitOf_low
    · rfl

theorem parseAfterWords_low (words : Str) (ts : List Token) :
    parseAfterWords (lowS words) (lows ts) = (parseAfterWords words ts).map (both Detail.low) := by
  simp only [parseAfterWords, expect_low]
  refine bind_map_of fun u => ?_
  apply semi_low
  rw [exprOf_low]
  exact map_map_of fun i => rfl

theorem or_map {α β : Type} (f : α → β) (a b : Option α) : (a.map f).or (b.map f) = (a.or b).map f := by
  cases a <;> rfl

theorem parseWordsDetail_low : Blind Detail.low parseWordsDetail := by
  intro ts
  simp only [parseWordsDetail, parseId_low]
  refine bind_map_of fun i => ?_
  simp only [both_fst, both_snd, parseAfterWords_low, expect_low, parseId_low]
  have h1 : (Option.map lows (expect .minus i.2)).bind (fun u => (parseId u).bind fun j =>
      parseAfterWords (lowS i.1 ++ '-' :: j.1) j.2) =
      ((expect .minus i.2).bind fun u => (parseId u).bind fun j =>
        parseAfterWords (i.1 ++ '-' :: j.1) j.2).map (both Detail.low) := by
    refine bind_map_of fun u => ?_
    rw [parseId_low]
    refine bind_map_of fun j => ?_
    rw [both_fst, both_snd, ← parseAfterWords_low, lowS_append]
    rfl
  have h2 : (Option.map (both lowS) (parseId i.2)).bind (fun j => parseAfterWords (lowS i.1 ++ j.1) j.2) =
      ((parseId i.2).bind fun j => parseAfterWords (i.1 ++ j.1) j.2).map (both Detail.low) := by
    refine bind_map_of fun j => ?_
    rw [both_fst, both_snd, ← parseAfterWords_low, lowS_append]
  rw [h1, h2, or_map, or_map]

theorem parseDetail_low : Blind Detail.low parseDetail := by
  intro ts
  rw [parseDetail, parseKeywordDetail_low, parseWordsDetail_low, or_map]
  rfl

theorem parseRelation_low : Blind RelTree.low parseRelation := by
  intro ts
  simp only [parseRelation, parseId_low]
  refine bind_map_of fun i => ?_
  rw [both_snd, expect_low]
  refine bind_map_of fun u => ?_
  rw [Parse.parseRef_low]
  refine bind_map_of fun r => ?_
  rw [both_snd, expect_low]
  refine bind_map_of fun v => ?_
  rw [lows_length, parseUntilBrace_low parseDetail_low]
  exact map_map_of fun d => rfl

end Verif.Rel

namespace Verif.Pipe

open Verif Lex Parse

/-- The end of a reference with a schema. -/
def closed (i : Str) (a b : Token) (j : Str × List Token) : Option (Ref × List Token) :=
  match j.2 with
  | c :: r => if c.kind = .rightParen then some (⟨i, i ++ a.text ++ b.text ++ j.1 ++ c.text⟩, r) else none
  | [] => none

theorem closed_low (i : Str) (a b : Token) (j : Str × List Token) :
    closed (lowS i) a.low b.low (both lowS j) = (closed i a b j).map (both Ref.low) := by
  obtain ⟨j, r⟩ := j
  cases r with
  | nil => rfl
  | cons c r =>
    by_cases h : c.kind = .rightParen
    · simp [closed, both, h, Ref.low]
    · simp [closed, both, h]

theorem parseRef_low : Blind Ref.low parseRef := by
  intro ts
  simp only [parseRef, parseId_low]
  refine bind_map_of fun i => ?_
  obtain ⟨i, r⟩ := i
  match r with
  | [] => rfl
  | [_] => rfl
  | a :: b :: r =>
    by_cases h : a.kind = .leftParen ∧ b.kind = .schema
    · simp only [both_mk, lows_cons, low_kind, if_pos h, parseId_low]
      exact bind_map_of fun j => closed_low i a b j
    · show (if a.kind = .leftParen ∧ b.kind = .schema then _ else _) =
        (if a.kind = .leftParen ∧ b.kind = .schema then _ else _ : Option _).map _
      rw [if_neg h, if_neg h]
      rfl

theorem parsePipeline_low (n : Nat) (acc : List Ref) (ts : List Token) :
    parsePipeline n (acc.map Ref.low) (lows ts) = (parsePipeline n acc ts).map (both (List.map Ref.low)) := by
  induction n generalizing acc ts with
  | zero => rfl
  | succ n ih =>
    simp only [parsePipeline, nextIs_low, lows_tail, expect_low]
    split
    · rw [parseRef_low]
      refine bind_map_of fun r => ?_
      exact ih (r.1 :: acc) r.2
    · exact map_map_of fun r => rfl

theorem parsePipelines_low (n : Nat) (ts : List Token) :
    parsePipelines n (lows ts) = (parsePipelines n ts).map (both (List.map (List.map Ref.low))) := by
  induction n generalizing ts with
  | zero => rfl
  | succ n ih =>
    simp only [parsePipelines, nextIs_low, lows_tail]
    split
    · rfl
    · rw [parseRef_low]
      refine bind_map_of fun r => ?_
      have := parsePipeline_low n [r.1] r.2
      simp only [List.map_cons, List.map_nil] at this
      simp only [both_fst, both_snd, this]
      refine bind_map_of fun p => ?_
      rw [both_snd, ih]
      exact map_map_of fun ps => rfl

theorem parseSection_low : Blind (List.map (List.map Ref.low)) parseSection := by
  intro ts
  simp only [parseSection, expect_low]
  refine bind_map_of fun r => ?_
  rw [expect_low]
  refine bind_map_of fun r => ?_
  rw [lows_length, parsePipelines_low]

end Verif.Pipe

namespace Verif.Ext

open Verif Lex Parse

theorem parseName_low : Blind lowS parseName := by
  intro ts
  simp only [parseName, parseId_low]
  refine bind_map_of fun i => ?_
  rw [both_snd, expect_low]
  refine bind_map_of fun r => ?_
  cases r with
  | nil => simp [both]; rfl
  | cons t r =>
    by_cases h : isSimpleId t.kind = true
    · simp only [lows_cons, low_kind, h, if_true, both_fst]
      rw [← lows_cons, parseId_low]
      refine map_map_of fun s => ?_
      simp only [both, lowS_append]
      rfl
    · simp [h, both]
      rfl

theorem parseAlias_low : Blind (Option.map lowS) parseAlias := by
  intro ts
  simp only [parseAlias, nextIs_low, lows_tail, parseId_low]
  split
  · exact map_map_of fun i => rfl
  · rfl

theorem parseFunctions_low (n : Nat) (ts : List Token) :
    parseFunctions n (lows ts) = (parseFunctions n ts).map (both (List.map FunctionTree.low)) := by
  induction n generalizing ts with
  | zero => rfl
  | succ n ih =>
    simp only [parseFunctions, nextIs_low, lows_tail, expect_low]
    split
    · rw [parseName_low]
      refine bind_map_of fun m => ?_
      rw [both_snd, parseAlias_low]
      refine bind_map_of fun a => ?_
      rw [both_snd, expect_low]
      refine bind_map_of fun r => ?_
      rw [ih]
      exact map_map_of fun ps => rfl
    · exact map_map_of fun r => rfl

theorem parseUri_low (ts : List Token) : parseUri (lows ts) = both (Option.map lowS) (parseUri ts) := by
  cases ts with
  | nil => rfl
  | cons t ts => by_cases h : t.kind = .uri <;> simp [parseUri, h]

end Verif.Ext

namespace Verif.Sec

open Verif Lex Parse Tree

theorem parseListed_low {α : Type} {f : α → α} {p : List Token → Option (α × List Token)} (hp : Blind f p)
    (n : Nat) (ts : List Token) :
    parseListed p n (lows ts) = (parseListed p n ts).map (both (List.map f)) := by
  induction n generalizing ts with
  | zero => rfl
  | succ n ih =>
    simp only [parseListed, hp ts]
    refine bind_map_of fun x => ?_
    simp only [both_snd, nextIs_low, lows_tail, expect_low]
    split
    · split
      · rfl
      · rw [ih]
        exact map_map_of fun r => rfl
    · exact map_map_of fun r => rfl

theorem parseAssigned_low {α : Type} {f : α → α} {p : List Token → Option (α × List Token)} (k : Tk) (hp : Blind f p) :
    Blind (List.map f) (parseAssigned k p) := by
  intro ts
  simp only [parseAssigned, expect_low]
  refine bind_map_of fun a => ?_
  rw [expect_low]
  refine bind_map_of fun b => ?_
  rw [expect_low]
  refine bind_map_of fun c => ?_
  rw [lows_length, parseListed_low hp]

theorem parseRoot_low : Blind (List.map lowS) parseRoot := by
  intro ts
  simp only [parseRoot, expect_low]
  refine bind_map_of fun a => ?_
  rw [expect_low]
  refine bind_map_of fun b => ?_
  rw [parseAssigned_low .names parseId_low]
  refine bind_map_of fun r => ?_
  rw [both_snd, expect_low]
  exact map_map_of fun u => rfl

theorem parseColumn_low : Blind lowColumn parseColumn := by
  intro ts
  apply Rel.semi_low
  rw [parseId_low]
  refine bind_map_of fun i => ?_
  rw [both_snd, typeOf_low]
  refine bind_map_of fun t => ?_
  rw [both_snd, Rel.parseOptId_low]
  exact map_map_of fun n => rfl

/-- A schema in lower case. -/
def lowSchema (s : Str × List (Str × TypeTree)) : Str × List (Str × TypeTree) := (lowS s.1, s.2.map lowColumn)

theorem parseSchema_low : Blind lowSchema parseSchema := by
  intro ts
  simp only [parseSchema, expect_low]
  refine bind_map_of fun a => ?_
  rw [parseId_low]
  refine bind_map_of fun i => ?_
  rw [both_snd, expect_low]
  refine bind_map_of fun b => ?_
  rw [lows_length, Rel.parseUntilBrace_low parseColumn_low]
  exact map_map_of fun r => rfl

theorem parseString_low : Blind lowS parseString := by
  intro ts
  cases ts with
  | nil => rfl
  | cons t ts => by_cases h : t.kind = .string <;> simp [parseString, h]

theorem parseNumber_low : Blind lowS parseNumber := by
  intro ts
  cases ts with
  | nil => rfl
  | cons t ts => by_cases h : t.kind = .number <;> simp [parseNumber, h]

theorem parseBraces_low (ts : List Token) : parseBraces (lows ts) = (parseBraces ts).map lows := by
  simp only [parseBraces, expect_low]
  refine bind_map_of fun a => ?_
  rw [expect_low]
  refine bind_map_of fun b => ?_
  rw [expect_low]

theorem colon_low {α : Type} {f : α → α} {p : List Token → Option (α × List Token)} (hp : Blind f p)
    (ts : List Token) :
    ((expect .colon ts).map lows).bind p = ((expect .colon ts).bind p).map (both f) :=
  bind_map_of fun a => hp a

theorem parseFileDetail_low : Blind FileDetail.low parseFileDetail := by
  intro ts
  cases ts with
  | nil => rfl
  | cons t ts =>
    simp only [parseFileDetail, lows_cons, low_kind, expect_low, colon_low parseNumber_low, colon_low parseString_low,
      parseBraces_low]
    split
    all_goals first
      | rfl
      | exact map_map_of fun r => rfl

theorem textUpTo_low (ts rest : List Token) : textUpTo (lows ts) (lows rest) = lowS (textUpTo ts rest) := by
  simp only [textUpTo, lows_length]
  generalize ts.length - rest.length = n
  induction n generalizing ts with
  | zero => rfl
  | succ n ih =>
    cases ts with
    | nil => rfl
    | cons t ts =>
      simp only [lows_cons, List.take_succ_cons, List.flatMap_cons, ih, lowS_append, low_text]

theorem parseFile_low : Blind FileTree.low parseFile := by
  intro ts
  simp only [parseFile, expect_low]
  refine bind_map_of fun a => ?_
  rw [lows_length, Rel.parseUntilBrace_low parseFileDetail_low]
  refine map_map_of fun r => ?_
  simp only [both_snd, textUpTo_low]
  rfl

theorem parseSourceDetail_low {α : Type} {f : α → α} {p : List Token → Option (α × List Token)} (k : Tk)
    (hp : Blind f p) : Blind (List.map f) (parseSourceDetail k p) := by
  intro ts
  simp only [parseSourceDetail, nextIs_low, lows_tail, parseId_low]
  split
  · exact map_map_of fun i => rfl
  · exact parseAssigned_low k hp ts

theorem parseReadType_low : Blind SourceTree.low parseReadType := by
  intro ts
  cases ts with
  | nil => rfl
  | cons t ts =>
    simp only [parseReadType, lows_cons, low_kind, parseId_low]
    split
    · refine bind_map_of fun i => ?_
      rw [both_snd, expect_low]
      refine bind_map_of fun b => ?_
      rw [lows_length, Rel.parseUntilBrace_low (parseSourceDetail_low .items parseFile_low)]
      refine map_map_of fun r => ?_
      simp [both, SourceTree.low, List.map_flatten]
    · refine bind_map_of fun i => ?_
      rw [both_snd, expect_low]
      refine bind_map_of fun b => ?_
      rw [lows_length, Rel.parseUntilBrace_low (parseSourceDetail_low .names parseString_low)]
      refine map_map_of fun r => ?_
      simp [both, SourceTree.low, List.map_flatten]
    · refine bind_map_of fun i => ?_
      rw [both_snd, expect_low]
      refine bind_map_of fun b => ?_
      rw [expect_low]
      exact map_map_of fun r => rfl
    · refine bind_map_of fun i => ?_
      rw [both_snd, expect_low]
      refine bind_map_of fun b => ?_
      rw [expect_low]
      exact map_map_of fun r => rfl
    · rfl

theorem parseSource_low : Blind SourceTree.low parseSource := by
  intro ts
  simp only [parseSource, expect_low]
  exact bind_map_of fun a => parseReadType_low a

theorem parseSpace_low : Blind Ext.SpaceTree.low parseSpace := by
  intro ts
  simp only [parseSpace, expect_low]
  refine bind_map_of fun a => ?_
  rw [Ext.parseUri_low, both_snd, expect_low]
  refine bind_map_of fun b => ?_
  rw [lows_length, Ext.parseFunctions_low]
  exact map_map_of fun m => rfl

theorem startsRelation_low (ts : List Token) : startsRelation (lows ts) = startsRelation ts := by
  simp only [startsRelation, parseId_low]
  cases parseId ts with
  | none => rfl
  | some i => simp

theorem parsePlanDetail_low : Blind PlanDetail.low parsePlanDetail := by
  intro ts
  simp only [parsePlanDetail, startsRelation_low, nextIs_low, Rel.parseRelation_low ts, Pipe.parseSection_low ts,
    parseRoot_low ts, parseSchema_low ts, parseSource_low ts, parseSpace_low ts]
  split
  · exact map_map_of fun r => rfl
  split
  · exact map_map_of fun r => rfl
  split
  · exact map_map_of fun r => rfl
  split
  · exact map_map_of fun r => rfl
  split
  · exact map_map_of fun r => rfl
  · exact map_map_of fun r => rfl

theorem parsePlan_low (n : Nat) (ts : List Token) :
    parsePlan n (lows ts) = (parsePlan n ts).map (List.map PlanDetail.low) := by
  induction n generalizing ts with
  | zero => cases ts <;> rfl
  | succ n ih =>
    cases ts with
    | nil => rfl
    | cons t ts =>
      simp only [parsePlan, lows_cons]
      rw [← lows_cons, parsePlanDetail_low]
      refine bind_map_of fun d => ?_
      rw [both_snd, ih]
      exact map_map_of fun r => rfl

/-- A text in lower case has the details of the text, in lower case. -/
theorem detailsOf_low (s : Str) : detailsOf (lowS s) = (detailsOf s).map (List.map PlanDetail.low) := by
  simp only [detailsOf, lex_low]
  refine bind_map_of fun ts => ?_
  rw [lows_length, parsePlan_low]

end Verif.Sec
