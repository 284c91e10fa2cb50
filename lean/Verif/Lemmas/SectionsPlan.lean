import Verif.Lemmas.SectionsFile
import Verif.Prop.Relation

/-!
# Lemmas on whole text plans: every section is read as what it comes from
-/

namespace Verif.Sec

open Verif Verif.TyPb Verif.Tree Verif.Literal Verif.Lex Verif.Parse Verif.Expr
open Verif.Rel (Line GoodLine linesText linesToks openTok closeTok semiTok goesOn)

/-! ## Pipelines -/

theorem parseId_pipelines (r : List Token) (w : Str) :
    startsRelation (⟨.pipelines, w⟩ :: r) = false := by
  have : parseId ((⟨.pipelines, w⟩ : Token) :: r) = none := rfl
  rw [startsRelation, this]

theorem good_pipelines {ps : List (List Str)} (hne : ps ≠ [])
    (h : ∀ p ∈ ps, ∀ n ∈ p, Ext.IsName n) (hp : ∀ p ∈ ps, p ≠ []) :
    GoodLine parsePlanDetail
      ⟨Pipe.sectionText ps, Pipe.sectionToks ps, .pipelines (ps.map Pipe.refs)⟩ where
  lexes := Pipe.lexes_sectionText ps hne h _
  head := ⟨_, _, rfl, by simp⟩
  parses rest := by
    have hs : startsRelation (Pipe.sectionToks ps ++ rest) = false := parseId_pipelines _ _
    have hn : nextIs .pipelines (Pipe.sectionToks ps ++ rest) = true := rfl
    have hr : Pipe.parseSection (Pipe.sectionToks ps ++ rest) = some (ps.map Pipe.refs, rest) := by
      have e : Pipe.sectionToks ps ++ rest = ⟨.pipelines, "pipelines".toList⟩ :: openTok ::
          ((ps.map Pipe.lineToks).flatten ++ closeTok :: rest) := by
        simp [Pipe.sectionToks, openTok, closeTok]
      have hx : ∀ r, expect .pipelines ((⟨.pipelines, "pipelines".toList⟩ : Token) :: r) = some r :=
        fun _ => rfl
      have hy : ∀ r, expect .leftBrace (openTok :: r) = some r := fun _ => rfl
      rw [e, Pipe.parseSection, hx, Option.bind_some, hy, Option.bind_some]
      exact Pipe.parsePipelines_toks ps h hp _ rest (by simp only [List.length_append]; omega)
    show parsePlanDetail (Pipe.sectionToks ps ++ rest) = _
    rw [parsePlanDetail, hs, hn, hr]
    rfl

/-! ## Relations -/

theorem lexes_relationWord (ok : Str → Prop) : Lexes " relation ".toList
    [⟨.relation, Rel.relationWord⟩] ok :=
  Lexes.cast (Lexes.then (lexes_spaces 1 Any) (Lexes.sp Rel.lexes_relation (Lexes.nil ok)))
    (by decide) rfl

theorem nameEnd_relationWord (x : Str) : NameEnd (" relation ".toList ++ x) :=
  nameEnd_literal _ _ ⟨' ', "relation ".toList, by decide, by decide⟩

theorem good_relation (k : Enum.RelType) {n : Str} (hn : Ext.IsName n)
    {ls : List (Line Rel.Detail)} (h : ∀ l ∈ ls, Rel.GoodDetail l) :
    ∃ l : Line PlanDetail, GoodLine parsePlanDetail l ∧
      l.text = (Rel.kindText k ++ " relation ".toList ++ n ++ " {\n".toList) ++
        (linesText ls ++ "}\n".toList) ∧
      l.detail = .relation ⟨Rel.kindText k, ⟨n, none⟩, ls.map (·.detail)⟩ := by
  have hk := Rel.name_kind k
  generalize (lex (Rel.kindText k)).getD [] = kt at hk
  refine ⟨⟨_, kt ++ ⟨.relation, Rel.relationWord⟩ :: (Ext.toksOf n ++ openTok ::
    (linesToks ls ++ [closeTok])), _⟩, ⟨?_, ?_, ?_⟩, rfl, rfl⟩
  · have h1 := Lexes.append hk.lexes_ (lexes_relationWord Any)
      (fun rest _ => nameEnd_relationWord rest)
    have h2 := Lexes.append (Lexes.then h1 hn.name.lexes_) (lexes_openLine Any)
      (fun rest _ => nameEnd_openLine rest)
    have h3 := Lexes.then h2 (Lexes.then (Rel.lexes_lines ls h) (lexes_end Any))
    exact Lexes.cast h3 rfl (by simp)
  · obtain ⟨t, r, e, ht⟩ := hk.head
    refine ⟨t, r ++ ⟨.relation, Rel.relationWord⟩ :: (Ext.toksOf n ++ openTok ::
      (linesToks ls ++ [closeTok])), by simp [e], ?_⟩
    intro e; rw [e] at ht; exact absurd ht (by decide)
  · intro rest
    have e : kt ++ ⟨.relation, Rel.relationWord⟩ :: (Ext.toksOf n ++ openTok ::
        (linesToks ls ++ [closeTok])) ++ rest = kt ++ ⟨.relation, Rel.relationWord⟩ ::
          (Ext.toksOf n ++ openTok :: (linesToks ls ++ closeTok :: rest)) := by simp
    show parsePlanDetail (kt ++ ⟨.relation, Rel.relationWord⟩ :: (Ext.toksOf n ++ openTok ::
        (linesToks ls ++ [closeTok])) ++ rest) = _
    rw [e]
    have hi := hk.parse_append (⟨.relation, Rel.relationWord⟩ :: (Ext.toksOf n ++ openTok ::
      (linesToks ls ++ closeTok :: rest))) (by simp [nextIs])
    have hs : startsRelation (kt ++ ⟨.relation, Rel.relationWord⟩ :: (Ext.toksOf n ++ openTok ::
      (linesToks ls ++ closeTok :: rest))) = true := by
      rw [startsRelation, hi]; rfl
    have hx : ∀ r, expect .relation ((⟨.relation, Rel.relationWord⟩ : Token) :: r) = some r :=
      fun _ => rfl
    have hy : ∀ r, expect .leftBrace (openTok :: r) = some r := fun _ => rfl
    have hl := Rel.linesToks_length ls h
    have hp : Rel.parseRelation (kt ++ ⟨.relation, Rel.relationWord⟩ :: (Ext.toksOf n ++
        openTok :: (linesToks ls ++ closeTok :: rest))) =
        some (⟨Rel.kindText k, ⟨n, none⟩, ls.map (·.detail)⟩, rest) := by
      rw [Rel.parseRelation, hi, Option.bind_some, hx, Option.bind_some,
        parseRef_ok hn _ (tailOk_cons _ _ (by decide)), Option.bind_some, hy,
        Option.bind_some, Rel.parseUntilBrace_lines ls h _ rest (by simp; omega)]
      rfl
    rw [parsePlanDetail, hs, if_pos rfl, hp]
    rfl

/-- A relation that is `RelReadable`: its text is read as a tree from which it comes back. -/
theorem good_readable (c : Rel.RelContext) (hlib : c.expr.lib.Numerals) (r : Rel.PbRel)
    (h : Rel.RelReadable c r) :
    ∃ (l : Line PlanDetail) (t : Rel.RelTree), GoodLine parsePlanDetail l ∧
      Rel.printRelation c r = .ok (l.text, []) ∧ l.detail = .relation t ∧
      Rel.readTree c t = .ok (r, []) ∧ t.ref.id = c.name ∧ t.type = Rel.kindText r.body.kind ∧
      Rel.Passes c t.details r ∧ t.details.flatMap Rel.detailRefs = Rel.askedBody r.body ∧
      t.details.filterMap Rel.detailBase = r.body.names.2.toList := by
  obtain ⟨ls, hm⟩ := Rel.relation_made c hlib r h
  obtain ⟨l, h1, h2, h3⟩ := good_relation r.body.kind h.name hm.good
  obtain ⟨a, b, t, p1, p2, p3, p4⟩ := hm.printed
  obtain ⟨s, s', q1, q2, q3, q4, -⟩ := hm.read.both
  refine ⟨l, _, h1, ?_, h3, ?_, rfl, rfl, hm.read, hm.refs.1, hm.refs.2⟩
  · rw [h2, Rel.printRelation, p3]
    simp only
    rw [p1, p2, Rel.text_and, Rel.text_and, Rel.text_and, Rel.text_and, p4]
    simp only [List.append_assoc]
  · rw [Rel.readTree]
    simp only [Rel.readKind]
    rw [q1]
    simp only [Outcome.bind]
    rw [q2]
    simp only [Outcome.map, q3, q4, List.append_nil]

/-! ## Functions -/

theorem good_space {b : Ext.Block} (h : Ext.Readable b) :
    GoodLine parsePlanDetail ⟨Ext.blockText b, Ext.blockToks b, .space (Ext.treeOf b)⟩ where
  lexes := Ext.lexes_block b h _
  head := by
    unfold Ext.blockToks
    cases b.uri <;> exact ⟨_, _, rfl, by simp⟩
  parses rest := by
    have hl := Ext.lines_length b.functions
    have hp : ∀ rest fuel, b.functions.length < fuel → Ext.parseFunctions fuel
        ((b.functions.map Ext.lineToks).flatten ++ ⟨.rightBrace, ['}']⟩ :: rest) = _ :=
      fun rest fuel => Ext.parseFunctions_toks b.functions h.symbols h.names fuel rest
    have hs : ∀ w r, startsRelation ((⟨.extensionSpace, w⟩ : Token) :: r) = false := by
      intro w r
      have : parseId ((⟨.extensionSpace, w⟩ : Token) :: r) = none := rfl
      rw [startsRelation, this]
    have hd : ∀ w r, parsePlanDetail ((⟨.extensionSpace, w⟩ : Token) :: r) =
        (parseSpace (⟨.extensionSpace, w⟩ :: r)).map fun x => (.space x.1, x.2) := by
      intro w r
      rw [parsePlanDetail, hs]
      rfl
    show parsePlanDetail (Ext.blockToks b ++ rest) = _
    simp only [Ext.blockToks, Ext.treeOf]
    cases hu : b.uri with
    | none =>
      simp only [Ext.headToks, List.cons_append, List.nil_append, List.append_assoc]
      rw [hd]
      simp only [parseSpace, Ext.parseUri, expect, if_true, reduceCtorEq, if_false,
        Option.bind_some]
      rw [hp _ _ (by simp only [List.length_append]; omega)]
      rfl
    | some u =>
      simp only [Ext.headToks, List.cons_append, List.nil_append, List.append_assoc]
      rw [hd]
      simp only [parseSpace, Ext.parseUri, expect, if_true, Option.bind_some]
      rw [hp _ _ (by simp only [List.length_append]; omega)]
      rfl

theorem sectionText_separated : ∀ bs : List Ext.Block,
    Ext.sectionText bs = separated (bs.map Ext.blockText)
  | [] => rfl
  | [b] => rfl
  | b :: c :: bs => by
    have ih := sectionText_separated (c :: bs)
    rw [Ext.sectionText, ih]
    rfl

end Verif.Sec
