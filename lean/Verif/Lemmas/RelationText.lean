import Verif.Lemmas.Expression
import Verif.Spec.Relation

/-!
# Lemmas on the text of relations: the lines, their tokens and what they are parsed as
-/

namespace Verif.Rel

open Verif Verif.TyPb Verif.Tree Verif.Literal Verif.Lex Verif.Parse Verif.Expr

/-! ## Tokens -/

def semiTok : Token := ⟨.semicolon, [';']⟩
def openTok : Token := ⟨.leftBrace, ['{']⟩
def closeTok : Token := ⟨.rightBrace, ['}']⟩
def atTok : Token := ⟨.atSign, ['@']⟩
def filterWord : Str := "filter".toList
def sourceWord : Str := "source".toList
def schemaWord : Str := "base_schema".toList
def expressionWord : Str := "expression".toList
def groupingWord : Str := "grouping".toList
def measureWord : Str := "measure".toList
def invocationWord : Str := "invocation".toList
def sortWord : Str := "sort".toList
def countWord : Str := "count".toList
def typeWord : Str := "type".toList
def emitWord : Str := "emit".toList
def namedWord : Str := "NAMED".toList
def byWord : Str := "by".toList
def relationWord : Str := "relation".toList

theorem lexes_filter : Lexes filterWord [⟨.filter, filterWord⟩] NameEnd :=
  Ext.lexes_word _ 'f' "ilter".toList .filter (by decide) (by decide) (by decide +kernel)
    (by decide) (by decide)
theorem lexes_source : Lexes sourceWord [⟨.source, sourceWord⟩] NameEnd :=
  Ext.lexes_word _ 's' "ource".toList .source (by decide) (by decide) (by decide +kernel)
    (by decide) (by decide)
theorem lexes_schema : Lexes schemaWord [⟨.baseSchema, schemaWord⟩] NameEnd :=
  Ext.lexes_word _ 'b' "ase_schema".toList .baseSchema (by decide) (by decide)
    (by decide +kernel) (by decide) (by decide)
theorem lexes_expression : Lexes expressionWord [⟨.expression, expressionWord⟩] NameEnd :=
  Ext.lexes_word _ 'e' "xpression".toList .expression (by decide) (by decide)
    (by decide +kernel) (by decide) (by decide)
theorem lexes_grouping : Lexes groupingWord [⟨.grouping, groupingWord⟩] NameEnd :=
  Ext.lexes_word _ 'g' "rouping".toList .grouping (by decide) (by decide) (by decide +kernel)
    (by decide) (by decide)
theorem lexes_measure : Lexes measureWord [⟨.measure, measureWord⟩] NameEnd :=
  Ext.lexes_word _ 'm' "easure".toList .measure (by decide) (by decide) (by decide +kernel)
    (by decide) (by decide)
theorem lexes_invocation : Lexes invocationWord [⟨.invocation, invocationWord⟩] NameEnd :=
  Ext.lexes_word _ 'i' "nvocation".toList .invocation (by decide) (by decide)
    (by decide +kernel) (by decide) (by decide)
theorem lexes_sort : Lexes sortWord [⟨.sort, sortWord⟩] NameEnd :=
  Ext.lexes_word _ 's' "ort".toList .sort (by decide) (by decide) (by decide +kernel)
    (by decide) (by decide)
theorem lexes_count : Lexes countWord [⟨.count, countWord⟩] NameEnd :=
  Ext.lexes_word _ 'c' "ount".toList .count (by decide) (by decide) (by decide +kernel)
    (by decide) (by decide)
theorem lexes_type : Lexes typeWord [⟨.type, typeWord⟩] NameEnd :=
  Ext.lexes_word _ 't' "ype".toList .type (by decide) (by decide) (by decide +kernel)
    (by decide) (by decide)
theorem lexes_emit : Lexes emitWord [⟨.emit, emitWord⟩] NameEnd :=
  Ext.lexes_word _ 'e' "mit".toList .emit (by decide) (by decide) (by decide +kernel)
    (by decide) (by decide)
theorem lexes_named : Lexes namedWord [⟨.named, namedWord⟩] NameEnd :=
  Ext.lexes_word _ 'N' "AMED".toList .named (by decide) (by decide) (by decide +kernel)
    (by decide) (by decide)
theorem lexes_by : Lexes byWord [⟨.by, byWord⟩] NameEnd :=
  Ext.lexes_word _ 'b' "y".toList .by (by decide) (by decide) (by decide +kernel)
    (by decide) (by decide)
theorem lexes_relation : Lexes relationWord [⟨.relation, relationWord⟩] NameEnd :=
  Ext.lexes_word _ 'r' "elation".toList .relation (by decide) (by decide) (by decide +kernel)
    (by decide) (by decide)

theorem lineEnd_eq : lineEnd = [';', '\n'] := by decide

theorem lexes_lineEnd (ok : Str → Prop) : Lexes lineEnd [semiTok] ok := by
  rw [lineEnd_eq]
  exact Lexes.append (a := [';']) (ts := [semiTok]) (us := [])
    (lexes_sign ';' .semicolon (by simp [signs]) rfl (fun _ => True))
    (lexes_blank '\n' (.inr rfl) ok) (fun _ _ => trivial)

theorem nameEnd_lineEnd (rest : Str) : NameEnd (lineEnd ++ rest) := by
  rw [lineEnd_eq]; exact nameEnd_cons _ _ (by decide)

/-- The tokens of a line: blanks, a word, what follows it, and the end of the line. -/
theorem lexes_line (n : Nat) {word body : Str} {tok : Token} {toks : List Token}
    (hw : Lexes word [tok] NameEnd) (hb : Lexes body toks NameEnd) (ok : Str → Prop) :
    Lexes (List.replicate n ' ' ++ (word ++ ' ' :: body) ++ lineEnd) (tok :: (toks ++ [semiTok]))
      ok := by
  have h1 := Lexes.append (lexes_spaces n (fun _ => True)) (Lexes.sp hw hb) (fun _ _ => trivial)
  have h2 := Lexes.append h1 (lexes_lineEnd ok) (fun rest _ => nameEnd_lineEnd rest)
  exact Lexes.cast h2 rfl (by simp)

/-! ## Lines -/

/-- A line with its tokens and the detail it is parsed as. -/
structure Line (α : Type) where
  text : Str
  toks : List Token
  detail : α

/-- The tokens of the line are parsed as the detail whatever follows. -/
structure GoodLine {α : Type} (p : List Token → Option (α × List Token)) (l : Line α) : Prop where
  lexes : Lexes l.text l.toks (fun _ => True)
  head : ∃ t r, l.toks = t :: r ∧ t.kind ≠ .rightBrace
  parses : ∀ rest, p (l.toks ++ rest) = some (l.detail, rest)

/-- The text of lines. -/
def linesText {α : Type} : List (Line α) → Str
  | [] => []
  | l :: ls => l.text ++ linesText ls

/-- The tokens of lines. -/
def linesToks {α : Type} : List (Line α) → List Token
  | [] => []
  | l :: ls => l.toks ++ linesToks ls

theorem linesText_append {α : Type} : ∀ (a b : List (Line α)),
    linesText (a ++ b) = linesText a ++ linesText b
  | [], _ => rfl
  | l :: ls, b => by simp [linesText, linesText_append ls b]

theorem lexes_lines {α : Type} {p : List Token → Option (α × List Token)} :
    ∀ (ls : List (Line α)), (∀ l ∈ ls, GoodLine p l) →
      Lexes (linesText ls) (linesToks ls) (fun _ => True)
  | [], _ => Lexes.nil _
  | l :: ls, h =>
    Lexes.append (h l (by simp)).lexes (lexes_lines ls fun x hx => h x (by simp [hx]))
      (fun _ _ => trivial)

theorem linesToks_length {α : Type} {p : List Token → Option (α × List Token)} :
    ∀ (ls : List (Line α)), (∀ l ∈ ls, GoodLine p l) → ls.length ≤ (linesToks ls).length
  | [], _ => by simp
  | l :: ls, h => by
    obtain ⟨t, r, ht, -⟩ := (h l (by simp)).head
    have := linesToks_length ls fun x hx => h x (by simp [hx])
    simp only [linesToks, List.length_append, List.length_cons, ht]
    omega

theorem parseUntilBrace_lines {α : Type} {p : List Token → Option (α × List Token)} :
    ∀ (ls : List (Line α)), (∀ l ∈ ls, GoodLine p l) → ∀ (n : Nat) (rest : List Token),
      ls.length < n →
      parseUntilBrace p n (linesToks ls ++ closeTok :: rest) = some (ls.map (·.detail), rest)
  | [], _, n, rest, hn => by
    obtain ⟨m, rfl⟩ : ∃ m, n = m + 1 := ⟨n - 1, by simp at hn; omega⟩
    simp [linesToks, parseUntilBrace, nextIs, closeTok]
  | l :: ls, h, n, rest, hn => by
    obtain ⟨m, rfl⟩ : ∃ m, n = m + 1 := ⟨n - 1, by simp at hn; omega⟩
    have hl := h l (by simp)
    have hp := hl.parses (linesToks ls ++ closeTok :: rest)
    have hi := parseUntilBrace_lines ls (fun x hx => h x (by simp [hx])) m rest
      (by simp at hn; omega)
    have hb : nextIs .rightBrace (l.toks ++ (linesToks ls ++ closeTok :: rest)) = false := by
      obtain ⟨t, r, ht, hk⟩ := hl.head
      rw [ht]
      simp [nextIs, hk]
    rw [linesToks, List.append_assoc, parseUntilBrace, hb, if_neg (by simp), hp, Option.bind_some, hi]
    rfl

/-! ## Parts of lines -/

/-- The kinds of tokens that go on with an expression. -/
def goesOn : List Tk :=
  [.underscore, .question, .leftAngle, .leftParen, .period, .arrow, .as, .comparison]

theorem goesOn_tail {t : Token} (h : t.kind ∉ goesOn) (r : List Token) :
    TailOk (t :: r) ∧ ExprEnd (t :: r) := by
  simp only [goesOn, List.mem_cons, List.not_mem_nil, or_false, not_or] at h
  refine ⟨tailOk_cons _ _ ?_, ?_, ?_⟩
  · simp [h]
  · simp [nextIs, h]
  · simp [nextIs, h]

theorem exprOf_good {i : Item} (h : Good i) {t : Token} (ht : t.kind ∉ goesOn) (r : List Token) :
    exprOf (i.toks ++ t :: r) = some (i.tree, t :: r) := by
  obtain ⟨h1, h2⟩ := goesOn_tail ht r
  exact h.parse_end (rounds (i.toks ++ t :: r)) (by simp [rounds]; omega) _ h1 h2

theorem parseId_name {n : Str} {ts : List Token} (h : Name n ts) {t : Token}
    (ht : t.kind ∉ goesOn) (r : List Token) : parseId (ts ++ t :: r) = some (n, t :: r) :=
  h.parse_append _ (goesOn_tail ht r).1.1.1

theorem semi_ok {α : Type} (x : α) (r : List Token) : semi (some (x, semiTok :: r)) = some (x, r) :=
  rfl

theorem semiTok_kind : semiTok.kind ∉ goesOn := by decide

/-- A keyword and an identifier, if there is one. -/
def optToks (tok : Token) : Option Str → List Token
  | some n => tok :: Ext.toksOf n
  | none => []

theorem parseOptId_ok {tok : Token} {o : Option Str} (h : ∀ n, o = some n → Ext.IsName n)
    {t : Token} (ht : t.kind ∉ goesOn) (hk : t.kind ≠ tok.kind) (r : List Token) :
    parseOptId tok.kind (optToks tok o ++ t :: r) = some (o, t :: r) := by
  cases o with
  | none => simp [optToks, parseOptId, nextIs, hk]
  | some n =>
    have := parseId_name (h n rfl).name ht r
    simp [optToks, parseOptId, nextIs, this]

theorem optToks_head {tok : Token} (o : Option Str) (hk : tok.kind ∉ goesOn) (r : List Token) :
    ∃ t u, optToks tok o ++ semiTok :: r = t :: u ∧ t.kind ∉ goesOn := by
  cases o with
  | none => exact ⟨semiTok, r, by simp only [optToks, List.nil_append], semiTok_kind⟩
  | some n =>
    exact ⟨tok, Ext.toksOf n ++ semiTok :: r, by simp only [optToks, List.cons_append], hk⟩

/-- ` NAMED <name>`. -/
theorem lexes_namedText {a : Str} {ts : List Token} (ha : Lexes a ts NameEnd) {o : Option Str}
    (h : ∀ n, o = some n → Ext.IsName n) :
    Lexes (a ++ namedText o) (ts ++ optToks ⟨.named, namedWord⟩ o) NameEnd := by
  match o, h with
  | none, _ => exact Lexes.cast ha (List.append_nil _) (List.append_nil _)
  | some n, h =>
    have h1 := Lexes.sp ha (Lexes.sp lexes_named (h n rfl).name.lexes_)
    have h2 : namedText (some n) = ' ' :: (namedWord ++ ' ' :: n) := by
      show " NAMED ".toList ++ n = _
      rw [show " NAMED ".toList = ' ' :: namedWord ++ [' '] from by decide]
      simp
    exact Lexes.cast h1 (by rw [h2]) rfl

/-! ## The details -/

abbrev GoodDetail (l : Line Detail) : Prop := GoodLine parseDetail l

theorem parseDetail_of {ts : List Token} {r : Detail × List Token}
    (h : parseKeywordDetail ts = some r) : parseDetail ts = some r := by
  rw [parseDetail, h]; rfl

/-- A line with an expression. -/
theorem good_filter {i : Item} (h : Good i) :
    GoodDetail ⟨"  filter ".toList ++ i.text ++ lineEnd,
      ⟨.filter, filterWord⟩ :: (i.toks ++ [semiTok]), .filter none i.tree⟩ where
  lexes := Lexes.cast (lexes_line 2 lexes_filter h.lexes _)
    (by rw [show "  filter ".toList = List.replicate 2 ' ' ++ (filterWord ++ [' ']) from by decide]
        simp) rfl
  head := ⟨_, _, rfl, by simp⟩
  parses rest := by
    refine parseDetail_of ?_
    simp only [List.cons_append, List.append_assoc, List.nil_append, parseKeywordDetail]
    rw [exprOf_good h semiTok_kind]
    exact semi_ok _ _

theorem good_grouping {i : Item} (h : Good i) :
    GoodDetail ⟨"  grouping ".toList ++ i.text ++ lineEnd,
      ⟨.grouping, groupingWord⟩ :: (i.toks ++ [semiTok]), .grouping i.tree⟩ where
  lexes := Lexes.cast (lexes_line 2 lexes_grouping h.lexes _)
    (by rw [show "  grouping ".toList = List.replicate 2 ' ' ++ (groupingWord ++ [' ']) from
          by decide]
        simp) rfl
  head := ⟨_, _, rfl, by simp⟩
  parses rest := by
    refine parseDetail_of ?_
    simp only [List.cons_append, List.append_assoc, List.nil_append, parseKeywordDetail]
    rw [exprOf_good h semiTok_kind]
    exact semi_ok _ _

theorem good_expression {i : Item} (h : Good i) {o : Option Str}
    (ho : ∀ n, o = some n → Ext.IsName n) :
    GoodDetail ⟨"  expression ".toList ++ i.text ++ (namedText o ++ lineEnd),
      ⟨.expression, expressionWord⟩ :: (i.toks ++ optToks ⟨.named, namedWord⟩ o ++ [semiTok]),
      .expression i.tree o⟩ where
  lexes := Lexes.cast (lexes_line 2 lexes_expression (lexes_namedText h.lexes ho) _)
    (by rw [show "  expression ".toList = List.replicate 2 ' ' ++ (expressionWord ++ [' ']) from
          by decide]
        simp) rfl
  head := ⟨_, _, rfl, by simp⟩
  parses rest := by
    refine parseDetail_of ?_
    simp only [List.cons_append, List.append_assoc, List.nil_append, parseKeywordDetail]
    obtain ⟨t, u, ht, hk⟩ := optToks_head (tok := ⟨.named, namedWord⟩) o (by simp [goesOn]) rest
    have h2 := parseOptId_ok (tok := ⟨.named, namedWord⟩) ho semiTok_kind (by decide) rest
    rw [ht] at h2 ⊢
    rw [exprOf_good h hk, Option.bind_some, h2]
    exact semi_ok _ _

/-- A line with a name. -/
theorem good_source {n : Str} (h : Ext.IsName n) :
    GoodDetail ⟨"  source ".toList ++ n ++ lineEnd,
      ⟨.source, sourceWord⟩ :: (Ext.toksOf n ++ [semiTok]), .source n⟩ where
  lexes := Lexes.cast (lexes_line 2 lexes_source h.name.lexes_ _)
    (by rw [show "  source ".toList = List.replicate 2 ' ' ++ (sourceWord ++ [' ']) from by decide]
        simp) rfl
  head := ⟨_, _, rfl, by simp⟩
  parses rest := by
    refine parseDetail_of ?_
    simp only [List.cons_append, List.append_assoc, List.nil_append, parseKeywordDetail]
    rw [parseId_name h.name semiTok_kind]
    exact semi_ok _ _

theorem good_schema {n : Str} (h : Ext.IsName n) :
    GoodDetail ⟨"  base_schema ".toList ++ n ++ lineEnd,
      ⟨.baseSchema, schemaWord⟩ :: (Ext.toksOf n ++ [semiTok]), .schema n⟩ where
  lexes := Lexes.cast (lexes_line 2 lexes_schema h.name.lexes_ _)
    (by rw [show "  base_schema ".toList = List.replicate 2 ' ' ++ (schemaWord ++ [' ']) from
          by decide]
        simp) rfl
  head := ⟨_, _, rfl, by simp⟩
  parses rest := by
    refine parseDetail_of ?_
    simp only [List.cons_append, List.append_assoc, List.nil_append, parseKeywordDetail]
    rw [parseId_name h.name semiTok_kind]
    exact semi_ok _ _

theorem good_type {n : Str} {ts : List Token} (h : Name n ts) :
    GoodDetail ⟨"  type ".toList ++ n ++ lineEnd,
      ⟨.type, typeWord⟩ :: (ts ++ [semiTok]), .type n⟩ where
  lexes := Lexes.cast (lexes_line 2 lexes_type h.lexes_ _)
    (by rw [show "  type ".toList = List.replicate 2 ' ' ++ (typeWord ++ [' ']) from by decide]
        simp) rfl
  head := ⟨_, _, rfl, by simp⟩
  parses rest := by
    refine parseDetail_of ?_
    simp only [List.cons_append, List.append_assoc, List.nil_append, parseKeywordDetail]
    rw [parseId_name h semiTok_kind]
    exact semi_ok _ _

theorem numEnd_lineEnd (rest : Str) : NumEnd (lineEnd ++ rest) := by
  rw [lineEnd_eq]; exact numEnd_cons _ _ (by decide) (by decide) (by decide) (by decide)

theorem good_count (v : Int) :
    GoodDetail ⟨"  count ".toList ++ intText v ++ lineEnd,
      [⟨.count, countWord⟩, ⟨.number, intText v⟩, semiTok], .count (intText v)⟩ where
  lexes := by
    have h1 := Lexes.append (lexes_int v) (lexes_lineEnd (fun _ => True))
      (fun rest _ => numEnd_lineEnd rest)
    have h2 := Lexes.append (lexes_spaces 2 (fun _ => True)) (Lexes.sp lexes_count h1)
      (fun _ _ => trivial)
    refine Lexes.cast h2 ?_ rfl
    rw [show "  count ".toList = List.replicate 2 ' ' ++ (countWord ++ [' ']) from by decide]
    simp
  head := ⟨_, _, rfl, by simp⟩
  parses rest := by
    refine parseDetail_of ?_
    simp only [List.cons_append, List.nil_append, parseKeywordDetail, if_true]
    exact semi_ok _ _

theorem good_sort {i : Item} (h : Good i) {d : Str} {ts : List Token} (hd : Name d ts) :
    GoodDetail ⟨"  sort ".toList ++ i.text ++ (" by ".toList ++ d) ++ lineEnd,
      ⟨.sort, sortWord⟩ :: (i.toks ++ ⟨.by, byWord⟩ :: ts ++ [semiTok]),
      .sort i.tree (some d)⟩ where
  lexes := Lexes.cast (lexes_line 2 lexes_sort (Lexes.sp h.lexes (Lexes.sp lexes_by hd.lexes_)) _)
    (by rw [show "  sort ".toList = List.replicate 2 ' ' ++ (sortWord ++ [' ']) from by decide,
          show " by ".toList = ' ' :: (byWord ++ [' ']) from by decide]
        simp) (by simp)
  head := ⟨_, _, rfl, by simp⟩
  parses rest := by
    refine parseDetail_of ?_
    simp only [List.cons_append, List.append_assoc, List.nil_append, parseKeywordDetail, parseSort]
    rw [exprOf_good h (by simp [goesOn]), Option.bind_some, parseOptId, if_pos (by simp [nextIs])]
    simp only [List.tail_cons]
    rw [parseId_name hd semiTok_kind]
    exact semi_ok _ _

/-- A line of the output mapping. -/
theorem good_emit {s : Str} (h : IsColumn s) :
    ∃ toks schema id, GoodDetail ⟨"  emit ".toList ++ s ++ lineEnd, toks, .emit schema id⟩ ∧
      (ExprTree.column schema id).text = s := by
  have e0 : ∀ s, "  emit ".toList ++ s ++ lineEnd =
      List.replicate 2 ' ' ++ (emitWord ++ ' ' :: s) ++ lineEnd := by
    intro s
    rw [show "  emit ".toList = List.replicate 2 ' ' ++ (emitWord ++ [' ']) from by decide]
    simp
  rcases h with ⟨ts, hl, hp, -⟩ | ⟨a, b, rfl, ha, hb⟩
  · have hn : Name s ts := Name.of_parse hl hp
    refine ⟨⟨.emit, emitWord⟩ :: (ts ++ [semiTok]), none, s, ⟨?_, ⟨_, _, rfl, by simp⟩, ?_⟩,
      by simp [ExprTree.text]⟩
    · exact Lexes.cast (lexes_line 2 lexes_emit hn.lexes_ _) (e0 s) rfl
    · intro rest
      refine parseDetail_of ?_
      simp only [List.cons_append, List.append_assoc, List.nil_append, parseKeywordDetail]
      rw [parseId_name hn semiTok_kind, Option.bind_some, parseColumn,
        if_neg (by simp [nextIs, semiTok])]
      exact semi_ok _ _
  · have hper : Lexes ['.'] [⟨.period, ['.']⟩] (fun _ => True) :=
      lexes_sign '.' .period (by simp [signs]) rfl _
    have hlex := Lexes.append ha.name.lexes_ (Lexes.append hper hb.name.lexes_ (fun _ _ => trivial))
      (fun _ _ => nameEnd_cons _ _ (by decide))
    refine ⟨⟨.emit, emitWord⟩ :: (Ext.toksOf a ++ ([⟨.period, ['.']⟩] ++ Ext.toksOf b) ++ [semiTok]),
      some a, b, ⟨?_, ⟨_, _, rfl, by simp⟩, ?_⟩, by simp [ExprTree.text]⟩
    · exact Lexes.cast (lexes_line 2 lexes_emit hlex _) (e0 _) rfl
    · intro rest
      refine parseDetail_of ?_
      simp only [List.cons_append, List.append_assoc, List.nil_append, parseKeywordDetail]
      rw [ha.name.parse_append _ (by simp [nextIs]), Option.bind_some, parseColumn,
        if_pos (by simp [nextIs]), List.tail_cons, parseId_name hb.name semiTok_kind]
      exact semi_ok _ _

/-- The same with an empty line before it. -/
theorem good_newline {l : Line Detail} (h : GoodDetail l) :
    GoodDetail { l with text := '\n' :: l.text } where
  lexes := Lexes.append (a := ['\n']) (ts := []) (lexes_blank '\n' (.inr rfl) (fun _ => True))
    h.lexes (fun _ _ => trivial)
  head := h.head
  parses := h.parses

/-! ## Measures -/

abbrev GoodMeasure (l : Line MeasureDetail) : Prop := GoodLine parseMeasureDetail l

theorem good_measureFilter {i : Item} (h : Good i) :
    GoodMeasure ⟨"    filter ".toList ++ i.text ++ lineEnd,
      ⟨.filter, filterWord⟩ :: (i.toks ++ [semiTok]), .filter i.tree⟩ where
  lexes := Lexes.cast (lexes_line 4 lexes_filter h.lexes _)
    (by rw [show "    filter ".toList = List.replicate 4 ' ' ++ (filterWord ++ [' ']) from
          by decide]
        simp) rfl
  head := ⟨_, _, rfl, by simp⟩
  parses rest := by
    simp only [List.cons_append, List.append_assoc, List.nil_append, parseMeasureDetail]
    rw [exprOf_good h semiTok_kind]
    exact semi_ok _ _

theorem good_invocation {n : Str} {ts : List Token} (h : Name n ts) :
    GoodMeasure ⟨"    invocation ".toList ++ n ++ lineEnd,
      ⟨.invocation, invocationWord⟩ :: (ts ++ [semiTok]), .invocation n⟩ where
  lexes := Lexes.cast (lexes_line 4 lexes_invocation h.lexes_ _)
    (by rw [show "    invocation ".toList = List.replicate 4 ' ' ++ (invocationWord ++ [' ']) from
          by decide]
        simp) rfl
  head := ⟨_, _, rfl, by simp⟩
  parses rest := by
    simp only [List.cons_append, List.append_assoc, List.nil_append, parseMeasureDetail]
    rw [parseId_name h semiTok_kind]
    exact semi_ok _ _

/-- `@<phase>` after the function. -/
theorem lexes_phase {a p : Str} {ts us : List Token} (ha : Lexes a ts NameEnd) (hp : Name p us) :
    Lexes (a ++ '@' :: p) (ts ++ atTok :: us) NameEnd :=
  Lexes.append ha (Lexes.append (a := ['@']) (ts := [atTok])
    (lexes_sign '@' .atSign (by simp [signs]) rfl (fun _ => True)) hp.lexes_ (fun _ _ => trivial))
    (fun _ _ => nameEnd_cons _ _ (by decide))

theorem good_measureLine {i : Item} (h : Good i) {p : Str} {us : List Token} (hp : Name p us)
    {o : Option Str} (ho : ∀ n, o = some n → Ext.IsName n) :
    GoodMeasure ⟨"    measure ".toList ++ (i.text ++ '@' :: p) ++ (namedText o ++ lineEnd),
      ⟨.measure, measureWord⟩ ::
        (i.toks ++ atTok :: us ++ optToks ⟨.named, namedWord⟩ o ++ [semiTok]),
      .measure i.tree none (p :: o.toList)⟩ where
  lexes := Lexes.cast
    (lexes_line 4 lexes_measure (lexes_namedText (lexes_phase h.lexes hp) ho) _)
    (by rw [show "    measure ".toList = List.replicate 4 ' ' ++ (measureWord ++ [' ']) from
          by decide]
        simp) rfl
  head := ⟨_, _, rfl, by simp⟩
  parses rest := by
    simp only [List.cons_append, List.append_assoc, List.nil_append, parseMeasureDetail]
    obtain ⟨t, u, ht, hk⟩ := optToks_head (tok := ⟨.named, namedWord⟩) o (by simp [goesOn]) rest
    have h2 := parseOptId_ok (tok := ⟨.named, namedWord⟩) ho semiTok_kind (by decide) rest
    rw [ht] at h2 ⊢
    have ha : atTok.kind = .atSign := rfl
    rw [exprOf_good h (by decide), Option.bind_some, parseArrow, if_neg (by simp [nextIs, ha]),
      Option.bind_some, parseIds, parseOptId, if_pos (by simp [nextIs, ha]), List.tail_cons,
      parseId_name hp hk, Option.map_some, Option.bind_some, h2]
    exact semi_ok _ _

theorem good_measures {ls : List (Line MeasureDetail)} (h : ∀ l ∈ ls, GoodMeasure l) :
    GoodDetail ⟨"  measure {\n".toList ++ linesText ls ++ "  }\n".toList,
      ⟨.measure, measureWord⟩ :: openTok :: (linesToks ls ++ [closeTok]),
      .measure (ls.map (·.detail))⟩ where
  lexes := by
    have h1 : Lexes ['\n'] [] (fun _ => True) := lexes_blank '\n' (.inr rfl) _
    have ho : Lexes ['{'] [openTok] (fun _ => True) :=
      lexes_sign '{' .leftBrace (by simp [signs]) rfl _
    have hc : Lexes ['}'] [closeTok] (fun _ => True) :=
      lexes_sign '}' .rightBrace (by simp [signs]) rfl _
    have h2 := Lexes.append (Lexes.append (lexes_spaces 2 (fun _ => True)) hc (fun _ _ => trivial)) h1
      (fun _ _ => trivial)
    have h3 := Lexes.append (lexes_lines ls h) h2 (fun _ _ => trivial)
    have h4 := Lexes.append (Lexes.append ho h1 (fun _ _ => trivial)) h3 (fun _ _ => trivial)
    have h5 := Lexes.append (lexes_spaces 2 (fun _ => True)) (Lexes.sp lexes_measure h4)
      (fun _ _ => trivial)
    refine Lexes.cast h5 ?_ (by simp)
    rw [show "  measure {\n".toList = List.replicate 2 ' ' ++ (measureWord ++ [' ', '{', '\n']) from
      by decide, show "  }\n".toList = List.replicate 2 ' ' ++ ['}', '\n'] from by decide]
    simp
  head := ⟨_, _, rfl, by simp⟩
  parses rest := by
    refine parseDetail_of ?_
    simp only [List.cons_append, List.append_assoc, List.nil_append, parseKeywordDetail]
    have hx : expect .leftBrace (openTok :: (linesToks ls ++ closeTok :: rest)) =
        some (linesToks ls ++ closeTok :: rest) := rfl
    have hl := linesToks_length ls h
    rw [hx, Option.bind_some, parseUntilBrace_lines ls h _ rest (by simp; omega)]
    rfl

/-! ## Whole relations -/

theorem name_kind : ∀ k : Enum.RelType, Name (kindText k) ((lex (kindText k)).getD [])
  | .read => name_of (by decide +kernel)
  | .project => name_of (by decide +kernel)
  | .join => name_of (by decide +kernel)
  | .cross => name_of (by decide +kernel)
  | .fetch => name_of (by decide +kernel)
  | .aggregate => name_of (by decide +kernel)
  | .sort => name_of (by decide +kernel)
  | .filter => name_of (by decide +kernel)
  | .set => name_of (by decide +kernel)

theorem readKind : ∀ k : Enum.RelType, Enum.readRelationType (kindText k) = some k
  | .read => by decide +kernel
  | .project => by decide +kernel
  | .join => by decide +kernel
  | .cross => by decide +kernel
  | .fetch => by decide +kernel
  | .aggregate => by decide +kernel
  | .sort => by decide +kernel
  | .filter => by decide +kernel
  | .set => by decide +kernel

theorem relation_text (k : Enum.RelType) {n : Str} (hn : Ext.IsName n) {ls : List (Line Detail)}
    (h : ∀ l ∈ ls, GoodDetail l) :
    parseText ((kindText k ++ " relation ".toList ++ n ++ " {\n".toList) ++
      (linesText ls ++ "}\n".toList)) =
      some ⟨kindText k, ⟨n, none⟩, ls.map (·.detail)⟩ := by
  have hk := name_kind k
  have h1 : Lexes ['\n'] [] (fun _ => True) := lexes_blank '\n' (.inr rfl) _
  have ho : Lexes ['{'] [openTok] (fun _ => True) :=
    lexes_sign '{' .leftBrace (by simp [signs]) rfl _
  have hc : Lexes ['}'] [closeTok] (fun _ => True) :=
    lexes_sign '}' .rightBrace (by simp [signs]) rfl _
  have h2 := Lexes.append (lexes_lines ls h) (Lexes.append hc h1 (fun _ _ => trivial))
    (fun _ _ => trivial)
  have h3 := Lexes.append (Lexes.append ho h1 (fun _ _ => trivial)) h2 (fun _ _ => trivial)
  have h4 := Lexes.sp hk.lexes_ (Lexes.sp lexes_relation (Lexes.sp hn.name.lexes_ h3))
  have h5 := h4 [] trivial
  generalize (lex (kindText k)).getD [] = kt at *
  have h6 : lex ((kindText k ++ " relation ".toList ++ n ++ " {\n".toList) ++
      (linesText ls ++ "}\n".toList)) =
      some (kt ++ ⟨.relation, relationWord⟩ :: (Ext.toksOf n ++ openTok ::
        (linesToks ls ++ [closeTok]))) := by
    rw [show " relation ".toList = ' ' :: (relationWord ++ [' ']) from by decide,
      show " {\n".toList = [' ', '{', '\n'] from by decide,
      show "}\n".toList = ['}', '\n'] from by decide]
    have h0 : lex ([] : Str) = some [] := by decide +kernel
    rw [h0] at h5
    simpa using h5
  unfold parseText
  rw [h6, Option.bind_some, parseRelation,
    hk.parse_append _ (by simp [nextIs]), Option.bind_some]
  have hx : ∀ r, expect .relation ((⟨.relation, relationWord⟩ : Token) :: r) = some r :=
    fun _ => rfl
  have hy : ∀ r, expect .leftBrace (openTok :: r) = some r := fun _ => rfl
  have hl := linesToks_length ls h
  rw [hx, Option.bind_some, parseRef_ok hn _ (tailOk_cons _ _ (by decide)), Option.bind_some, hy,
    Option.bind_some, parseUntilBrace_lines ls h _ [] (by simp; omega)]
  rfl

end Verif.Rel
