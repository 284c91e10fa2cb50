import Verif.Prop.SectionsDefs

/-!
# C60: sources that do not survive

Which sources are printed at all, which texts cannot be read, and which are read as something
else.
-/

namespace Verif.Sec

open Verif Verif.TyPb Verif.Tree Verif.Literal Verif.Lex Verif.Parse Verif.Expr
open Verif.Rel (Line GoodLine linesText linesToks openTok closeTok)

/-! ## Printing -/

/-- A file that is printed. -/
def FilePrinted (f : File) : Prop :=
  f.path ≠ .notSet ∧ f.format ≠ .notSet ∧ f.format ≠ .extension

/-- A source that is printed. -/
def SourcePrinted : Source → Prop
  | .named _ => True
  | .files fs => ∀ f ∈ fs, FilePrinted f
  | _ => False

theorem pathText_ok (p : Path) : (∃ t, pathText p = .ok t) ↔ p ≠ .notSet := by
  constructor
  · rintro ⟨t, h⟩ rfl
    cases h
  · intro h
    exact ⟨_, pathText_line h⟩

theorem formatText_ok (x : Format) :
    (∃ t, formatText x = .ok t) ↔ x ≠ .notSet ∧ x ≠ .extension := by
  cases x <;> simp [formatText]

theorem bind_is_ok {α β : Type} (o : Outcome α) (f : α → Outcome β) :
    (∃ b, o.bind f = .ok b) ↔ ∃ a, o = .ok a ∧ ∃ b, f a = .ok b := by
  cases o <;> simp [Outcome.bind]

theorem map_is_ok {α β : Type} (o : Outcome α) (f : α → β) :
    (∃ b, o.map f = .ok b) ↔ ∃ a, o = .ok a := by
  cases o <;> simp [Outcome.map]

theorem fileText_ok (f : File) : (∃ t, fileText f = .ok t) ↔ FilePrinted f := by
  unfold fileText FilePrinted
  rw [bind_is_ok, ← pathText_ok, ← formatText_ok]
  constructor
  · rintro ⟨a, h1, h2⟩
    exact ⟨⟨a, h1⟩, (map_is_ok _ _).mp h2⟩
  · rintro ⟨⟨a, h1⟩, h2⟩
    exact ⟨a, h1, (map_is_ok _ _).mpr h2⟩

theorem mapM_is_ok {α β : Type} (f : α → Outcome β) : ∀ l : List α,
    (∃ r, Outcome.mapM f l = .ok r) ↔ ∀ x ∈ l, ∃ y, f x = .ok y
  | [] => by simp [Outcome.mapM]
  | x :: l => by
    have ih := mapM_is_ok f l
    rw [Outcome.mapM, bind_is_ok]
    constructor
    · rintro ⟨y, h1, h2⟩ z hz
      rcases List.mem_cons.mp hz with rfl | hz
      · exact ⟨y, h1⟩
      · obtain ⟨r, hr, -⟩ := (bind_is_ok _ _).mp h2
        exact ih.mp ⟨r, hr⟩ z hz
    · intro h
      obtain ⟨y, hy⟩ := h x (by simp)
      obtain ⟨r, hr⟩ := ih.mpr fun z hz => h z (by simp [hz])
      exact ⟨y, hy, (bind_is_ok _ _).mpr ⟨r, hr, _, rfl⟩⟩

/-- **C60, what is printed.**  A source is printed if and only if it is a table or local files
each with a path and with a format other than an extension; of anything else the whole plan is
not printed. -/
theorem source_printed (n : Str) (s : Source) :
    (∃ t, sourceText n s = .ok t) ↔ SourcePrinted s := by
  cases s with
  | named ns => simp [sourceText, SourcePrinted]
  | files fs =>
    unfold sourceText
    simp only [SourcePrinted]
    rw [map_is_ok, mapM_is_ok]
    constructor
    · intro h f hf
      exact (fileText_ok f).mp ((map_is_ok _ _).mp (h f hf))
    · intro h f hf
      exact (map_is_ok _ _).mpr ((fileText_ok f).mpr (h f hf))
  | virtual => simp [sourceText, SourcePrinted]
  | extension => simp [sourceText, SourcePrinted]

/-- A plan is printed if and only if all its sources are. -/
theorem plan_printed (p : Parts) :
    (∃ t, p.text = .ok t) ↔ ∀ e ∈ p.sources, SourcePrinted e.2 := by
  unfold Parts.text sourceSection
  rw [map_is_ok, map_is_ok, mapM_is_ok]
  constructor
  · intro h e he
    exact (source_printed e.1 e.2).mp (h e he)
  · intro h e he
    exact (source_printed e.1 e.2).mpr (h e he)

/-- Non-vacuity. -/
example : SourcePrinted (.files [sampleFile]) ∧ ¬ SourcePrinted .virtual := by
  refine ⟨?_, fun h => h⟩
  intro f hf
  simp only [List.mem_singleton] at hf
  subst hf
  exact ⟨by simp [sampleFile], by simp [sampleFile], by simp [sampleFile]⟩

/-! ## Names that are not escaped -/

theorem tableText_split (a b : Str) (post : List Str) :
    tableText ((a ++ "\",\n    \"".toList ++ b) :: post) = tableText (a :: b :: post) := by
  have e : "\",\n    \"".toList = "\",\n".toList ++ "    \"".toList := by decide
  simp only [tableText, e, List.append_assoc]

theorem sourceText_split (n a b : Str) (post : List Str) :
    sourceText n (.named ((a ++ "\",\n    \"".toList ++ b) :: post)) =
      sourceText n (.named (a :: b :: post)) := by
  rw [sourceText_named, sourceText_named, tableText_split]

/-- One definition. -/
theorem definition_read (d : Def) (h : DefOk d) :
    ∃ text details, defText d = .ok text ∧ detailsOf text = some details ∧
      visitPlan details = .ok ⟨groups 0 [d], extAfter {} d, []⟩ := by
  obtain ⟨text, details, ⟨texts, ht, rfl⟩, h4, h5⟩ := definitions_read [d] (by simpa using h)
    ⟨by simp, trivial⟩
  match texts, ht with
  | [], ht => simp at ht
  | x :: y :: l, ht => simp at ht
  | [x], ht =>
    simp only [List.map_cons, List.map_nil, List.cons.injEq, and_true] at ht
    exact ⟨x, details, ht, h4, h5⟩

/-- **C60 as stated is false**: names are not escaped, so the text of a table with one name can
be that of a table with two, and is read as such without an error. -/
theorem table_split (n a b : Str) (hn : Ext.IsName n) (ha : Quotable a) (hb : Quotable b) :
    ∃ text ds st, sourceText n (.named [a ++ "\",\n    \"".toList ++ b]) = .ok text ∧
      detailsOf text = some ds ∧ visitPlan ds = .ok st ∧ st.errs = [] ∧
      sourceOf st.symbols n = .ok (some (.named [a, b])) := by
  have hok : DefOk (.source n (.named [a, b])) := .source hn (.named _ (by simp) (by
    intro m hm
    simp only [List.mem_cons, List.not_mem_nil, or_false] at hm
    rcases hm with rfl | rfl
    · exact ha
    · exact hb))
  obtain ⟨text, ds, h1, h2, h3⟩ := definition_read _ hok
  refine ⟨text, ds, _, ?_, h2, h3, rfl, ?_⟩
  · rw [sourceText_split]
    exact h1
  · have := source_found [.source n (.named [a, b])] (by simpa using hok) n
      (.source n (.named [a, b])) (by simp [firstWith, Def.names])
    simpa [sourceTaken] using this

/-- Non-vacuity. -/
example : Ext.IsName "t".toList ∧ Quotable "a".toList ∧ Quotable "b".toList :=
  ⟨⟨[idTok "t"], by decide +kernel, by decide +kernel⟩, quotable_of (by decide) (by decide),
    quotable_of (by decide) (by decide)⟩

/-! ## Texts that cannot be read -/

/-- A text from whose tokens no part of a plan can be parsed, whatever follows. -/
def Unreadable (text : Str) : Prop :=
  ∃ toks, Lexes text toks Any ∧ toks ≠ [] ∧ ∀ rest, parsePlanDetail (toks ++ rest) = none

theorem parsePlan_bad : ∀ (ls : List (Line PlanDetail)),
    (∀ l ∈ ls, GoodLine parsePlanDetail l) → ∀ (n : Nat) (ts : List Token), ts ≠ [] →
      parsePlanDetail ts = none → parsePlan n (linesToks ls ++ ts) = none
  | [], _, n, ts, hne, h => by
    cases ts with
    | nil => exact absurd rfl hne
    | cons t ts =>
      cases n with
      | zero => rfl
      | succ n => simp [linesToks, parsePlan, h]
  | l :: ls, hg, n, ts, hne, h => by
    have hl := hg l (by simp)
    have hp := hl.parses (linesToks ls ++ ts)
    obtain ⟨t, r, ht, -⟩ := hl.head
    have ih := fun m => parsePlan_bad ls (fun x hx => hg x (by simp [hx])) m ts hne h
    have e : linesToks (l :: ls) ++ ts = t :: (r ++ (linesToks ls ++ ts)) := by
      simp [linesToks, ht]
    rw [e]
    cases n with
    | zero => rfl
    | succ n =>
      rw [parsePlan]
      have e2 : t :: (r ++ (linesToks ls ++ ts)) = l.toks ++ (linesToks ls ++ ts) := by simp [ht]
      rw [e2, hp, Option.bind_some, ih n]
      rfl

/-- One such text among the definitions of a plan, and none of it can be read. -/
theorem unreadable_plan (pre post : List Def) (h1 : ∀ d ∈ pre, DefOk d) (h2 : ∀ d ∈ post, DefOk d)
    (bad : Str) (hb : Unreadable bad) :
    ∃ a b, pre.map defText = a.map .ok ∧ post.map defText = b.map .ok ∧
      detailsOf (separated (a ++ bad :: b)) = none := by
  obtain ⟨toks, h3, h4, h5⟩ := hb
  have ht : ∀ ds : List Def, (∀ d ∈ ds, DefOk d) →
      ds.map defText = (ds.map fun d => (defLine d).text).map .ok := by
    intro ds hd
    rw [List.map_map]
    apply List.map_congr_left
    intro d hm
    exact (defLine_ok (hd d hm)).text
  refine ⟨_, _, ht pre h1, ht post h2, ?_⟩
  have hl := lexes_separated (pre.map (fun d => ((defLine d).text, (defLine d).toks)) ++
    (bad, toks) :: post.map (fun d => ((defLine d).text, (defLine d).toks))) (by
      intro e he
      simp only [List.mem_append, List.mem_cons, List.mem_map] at he
      rcases he with ⟨d, hd, rfl⟩ | rfl | ⟨d, hd, rfl⟩
      · exact (defLine_ok (h1 d hd)).good.lexes
      · exact h3
      · exact (defLine_ok (h2 d hd)).good.lexes)
  have hl := hl [] trivial
  have e0 : lex ([] : Str) = some [] := by decide +kernel
  rw [List.append_nil, e0] at hl
  simp only [List.map_append, List.map_cons, List.map_map, List.flatMap_append, List.flatMap_cons,
    List.flatMap_map, Function.comp_def, Option.map_some, List.append_nil] at hl
  unfold detailsOf
  rw [hl, Option.bind_some]
  have e1 : (List.flatMap (fun d => (defLine d).toks) pre) = linesToks (pre.map defLine) := by
    rw [linesToks_flatMap, List.flatMap_map]
  rw [e1]
  refine parsePlan_bad _ (by
    intro l hl
    obtain ⟨d, hd, rfl⟩ := List.mem_map.mp hl
    exact (defLine_ok (h1 d hd)).good) _ _ (by simp [h4]) (h5 _)

theorem parseUntilBrace_none {α : Type} {p : List Token → Option (α × List Token)}
    {ts : List Token} (hb : nextIs .rightBrace ts = false) (hp : p ts = none) (n : Nat) :
    Rel.parseUntilBrace p n ts = none := by
  cases n with
  | zero => rfl
  | succ n => rw [Rel.parseUntilBrace, hb, hp]; rfl

theorem parsePlanDetail_source_none {ts : List Token}
    (hs : startsRelation (⟨.source, sourceWord⟩ :: ts) = false)
    (h : parseReadType ts = none) :
    parsePlanDetail (⟨.source, sourceWord⟩ :: ts) = none := by
  have n1 : nextIs .pipelines ((⟨.source, sourceWord⟩ : Token) :: ts) = false := rfl
  have n2 : nextIs .root ((⟨.source, sourceWord⟩ : Token) :: ts) = false := rfl
  have n3 : nextIs .schema ((⟨.source, sourceWord⟩ : Token) :: ts) = false := rfl
  have n4 : nextIs .source ((⟨.source, sourceWord⟩ : Token) :: ts) = true := rfl
  have hx : expect .source ((⟨.source, sourceWord⟩ : Token) :: ts) = some ts := rfl
  rw [parsePlanDetail, hs, n1, n2, n3, n4, parseSource, hx, Option.bind_some, h]
  rfl

theorem parseTable_none {n : Str} (hn : Ext.IsName n) (c : List Token)
    (h : parseListed parseString c.length c = none) :
    parsePlanDetail (⟨.source, sourceWord⟩ :: ⟨.namedTable, tableWord⟩ :: (Ext.toksOf n ++
      openTok :: ⟨.names, namesWord⟩ :: equalTok :: openList :: c)) = none := by
  refine parsePlanDetail_source_none (source_not_relation _ (by simp) (by simp)) ?_
  have hi := Rel.parseId_name hn.name (t := openTok) (by decide)
    ((⟨.names, namesWord⟩ : Token) :: equalTok :: openList :: c)
  have hd : parseSourceDetail .names parseString
      ((⟨.names, namesWord⟩ : Token) :: equalTok :: openList :: c) = none := h
  have hy : ∀ r, expect .leftBrace (openTok :: r) = some r := fun _ => rfl
  have hb := parseUntilBrace_none (p := parseSourceDetail .names parseString) rfl hd
    ((⟨.names, namesWord⟩ : Token) :: equalTok :: openList :: c).length
  simp only [parseReadType]
  rw [hi, Option.bind_some, hy, Option.bind_some, hb]
  rfl

theorem parseFiles_none {n : Str} (hn : Ext.IsName n) (c : List Token)
    (h : parseListed parseFile c.length c = none) :
    parsePlanDetail (⟨.source, sourceWord⟩ :: ⟨.localFiles, filesWord⟩ :: (Ext.toksOf n ++
      openTok :: ⟨.items, itemsWord⟩ :: equalTok :: openList :: c)) = none := by
  refine parsePlanDetail_source_none (source_not_relation _ (by simp) (by simp)) ?_
  have hi := Rel.parseId_name hn.name (t := openTok) (by decide)
    ((⟨.items, itemsWord⟩ : Token) :: equalTok :: openList :: c)
  have hd : parseSourceDetail .items parseFile
      ((⟨.items, itemsWord⟩ : Token) :: equalTok :: openList :: c) = none := h
  have hy : ∀ r, expect .leftBrace (openTok :: r) = some r := fun _ => rfl
  have hb := parseUntilBrace_none (p := parseSourceDetail .items parseFile) rfl hd
    ((⟨.items, itemsWord⟩ : Token) :: equalTok :: openList :: c).length
  simp only [parseReadType]
  rw [hi, Option.bind_some, hy, Option.bind_some, hb]
  rfl

theorem lexes_tableSource {n x : Str} (hn : Ext.IsName n) {ts : List Token}
    (hx : Lexes x ts Any) :
    Lexes ("source named_table ".toList ++ n ++ " {\n".toList ++ "  names = [\n".toList ++
      x ++ "  ]\n".toList ++ "}\n".toList) (⟨.source, sourceWord⟩ :: ⟨.namedTable, tableWord⟩ ::
        (Ext.toksOf n ++ openTok :: ⟨.names, namesWord⟩ :: equalTok :: openList ::
          (ts ++ [closeList, closeTok]))) Any := by
  have h4 := Lexes.append (Lexes.then (lexes_tableHead Any) hn.name.lexes_) (lexes_openLine Any)
    (fun rest _ => nameEnd_openLine rest)
  have h5 := Lexes.then (Lexes.then (Lexes.then (Lexes.then h4 (lexes_namesLine Any)) hx)
    (lexes_listEnd Any)) (lexes_end Any)
  exact Lexes.cast h5 rfl (by simp)

theorem lexes_filesSource {n x : Str} (hn : Ext.IsName n) {ts : List Token}
    (hx : Lexes x ts Any) :
    Lexes ("source local_files ".toList ++ n ++ " {\n".toList ++ "  items = [\n".toList ++
      x ++ "  ]\n".toList ++ "}\n".toList) (⟨.source, sourceWord⟩ :: ⟨.localFiles, filesWord⟩ ::
        (Ext.toksOf n ++ openTok :: ⟨.items, itemsWord⟩ :: equalTok :: openList ::
          (ts ++ [closeList, closeTok]))) Any := by
  have h4 := Lexes.append (Lexes.then (lexes_filesHead Any) hn.name.lexes_) (lexes_openLine Any)
    (fun rest _ => nameEnd_openLine rest)
  have h5 := Lexes.then (Lexes.then (Lexes.then (Lexes.then h4 (lexes_itemsLine Any)) hx)
    (lexes_listEnd Any)) (lexes_end Any)
  exact Lexes.cast h5 rfl (by simp)

theorem parseListed_none {α : Type} {p : List Token → Option (α × List Token)}
    {ts : List Token} (h : p ts = none) (n : Nat) : parseListed p n ts = none := by
  cases n with
  | zero => rfl
  | succ n => rw [parseListed, h]; rfl

/-- **C60 as stated is false**: the text of a table without names cannot be read. -/
theorem table_empty_refused (n : Str) (hn : Ext.IsName n) :
    ∃ text, sourceText n (.named []) = .ok text ∧ Unreadable text := by
  refine ⟨_, sourceText_named n [], _, lexes_tableSource hn (Lexes.nil Any), by simp, ?_⟩
  intro rest
  have := parseTable_none hn (closeList :: closeTok :: rest)
    (parseListed_none (by rfl) _)
  simpa using this

/-- **C60 as stated is false**: the text of local files without a file cannot be read. -/
theorem files_empty_refused (n : Str) (hn : Ext.IsName n) :
    ∃ text, sourceText n (.files []) = .ok text ∧ Unreadable text := by
  refine ⟨_, sourceText_files n [] [] rfl, _, lexes_filesSource hn (Lexes.nil Any), by simp, ?_⟩
  intro rest
  have := parseFiles_none hn (closeList :: closeTok :: rest)
    (parseListed_none (by rfl) _)
  simpa using this

theorem lexes_items_all : ∀ fs : List File, (∀ f ∈ fs, FileReads f) → ∃ ts,
    Outcome.mapM itemText fs = .ok ts ∧ Lexes ts.flatten (fs.flatMap fileToks) Any
  | [], _ => ⟨[], rfl, Lexes.nil Any⟩
  | f :: fs, h => by
    obtain ⟨ts, h1, h2⟩ := lexes_items_all fs fun x hx => h x (by simp [hx])
    have hf := h f (by simp)
    refine ⟨("    {".toList ++ linesText (fileLines f) ++ "}\n".toList) :: ts, ?_, ?_⟩
    · simp only [Outcome.mapM, itemText, fileText_lines hf.path.1 hf.format, h1, Outcome.map,
        Outcome.bind]
    · rw [List.flatten_cons, List.flatMap_cons]
      exact Lexes.then (lexes_item f hf.path.2 Any) h2

/-- **C60 as stated is false**: no comma is written between files, so the text of two or more
files cannot be read. -/
theorem files_many_refused (n : Str) (hn : Ext.IsName n) (f g : File) (fs : List File)
    (h : ∀ x ∈ f :: g :: fs, FileReads x) :
    ∃ text, sourceText n (.files (f :: g :: fs)) = .ok text ∧ Unreadable text := by
  obtain ⟨ts, h1, h2⟩ := lexes_items_all _ h
  refine ⟨_, sourceText_files n _ ts h1, _, lexes_filesSource hn h2, by simp, ?_⟩
  intro rest
  have hf := h f (by simp)
  have e : (f :: g :: fs).flatMap fileToks ++ [closeList, closeTok] ++ rest =
      fileToks f ++ openTok :: (linesToks (fileLines g) ++ closeTok ::
        (fs.flatMap fileToks ++ closeList :: closeTok :: rest)) := by
    simp [fileToks]
  have hp := parseFile_toks hf.path.1 hf.path.2 hf.format (openTok ::
    (linesToks (fileLines g) ++ closeTok ::
        (fs.flatMap fileToks ++ closeList :: closeTok :: rest)))
  have := parseFiles_none hn ((f :: g :: fs).flatMap fileToks ++ [closeList, closeTok] ++ rest) (by
    rw [e]
    generalize (fileToks f ++ openTok :: (linesToks (fileLines g) ++ closeTok ::
        (fs.flatMap fileToks ++ closeList :: closeTok :: rest))).length = k
    cases k with
    | zero => rfl
    | succ k =>
      rw [parseListed, hp]
      rfl)
  simpa using this

/-! ## Formats the grammar does not have -/

def headLines (f : File) : List (Line FileDetail) :=
  pathLine f.path :: (partitionLines f.partition ++ rangeLines f.start f.length)

theorem good_headLines (f : File) (h : Quotable f.path.value) :
    ∀ l ∈ headLines f, GoodLine parseFileDetail l := by
  intro l hl
  refine good_fileLines f h l ?_
  simp only [headLines, fileLines, List.mem_cons, List.mem_append] at *
  rcases hl with hl | hl | hl
  · exact .inl hl
  · exact .inr (.inl hl)
  · exact .inr (.inr (.inl hl))

theorem linesText_head (f : File) : linesText (headLines f) =
    pathWord f.path ++ ':' :: ' ' :: inQuotes f.path.value ++ partitionText f.partition ++
      rangeText f.start f.length ++ [' '] := by
  have h1 := linesText_partition f.partition
  have h2 := linesText_range f.start f.length
  have h3 : linesText (headLines f) = (pathWord f.path ++ ':' :: ' ' :: inQuotes f.path.value) ++
      ([' '] ++ linesText (partitionLines f.partition)) ++
        linesText (rangeLines f.start f.length) := by
    simp [headLines, linesText, Rel.linesText_append, pathLine]
  have h4 : ∀ a b c : Str, a ++ (b ++ [' ']) ++ c = a ++ b ++ ([' '] ++ c) := by
    intros; simp
  rw [h3, h1, h4, h2]
  simp

theorem parseUntilBrace_bad {α : Type} {p : List Token → Option (α × List Token)} :
    ∀ (ls : List (Line α)), (∀ l ∈ ls, GoodLine p l) → ∀ (n : Nat) (ts : List Token),
      nextIs .rightBrace ts = false → p ts = none →
        Rel.parseUntilBrace p n (linesToks ls ++ ts) = none
  | [], _, n, ts, hb, h => parseUntilBrace_none hb h n
  | l :: ls, hg, n, ts, hb, h => by
    have hl := hg l (by simp)
    have hp := hl.parses (linesToks ls ++ ts)
    obtain ⟨t, r, ht, hk⟩ := hl.head
    cases n with
    | zero => rfl
    | succ n =>
      have ih := parseUntilBrace_bad ls (fun x hx => hg x (by simp [hx])) n ts hb h
      have e : linesToks (l :: ls) ++ ts = l.toks ++ (linesToks ls ++ ts) := by simp [linesToks]
      have hn : nextIs .rightBrace (l.toks ++ (linesToks ls ++ ts)) = false := by
        simp [ht, nextIs, hk]
      rw [e, Rel.parseUntilBrace, hn, if_neg Bool.false_ne_true, hp, Option.bind_some, ih]
      rfl

def arrowWord : Str := "arrow".toList
def dwrfWord : Str := "dwrf".toList

theorem lexes_arrow : Lexes arrowWord [⟨.identifier, arrowWord⟩] NameEnd :=
  Ext.lexes_word _ 'a' "rrow".toList .identifier (by decide) (by decide) (by decide +kernel)
    (by decide) (by decide)
theorem lexes_dwrf : Lexes dwrfWord [⟨.identifier, dwrfWord⟩] NameEnd :=
  Ext.lexes_word _ 'd' "wrf".toList .identifier (by decide) (by decide) (by decide +kernel)
    (by decide) (by decide)

theorem formatText_word {x : Format} (h : x = .arrow ∨ x = .dwrf) :
    ∃ w, formatText x = .ok (' ' :: (w ++ [':', ' ', '{', '}'])) ∧
      Lexes w [⟨.identifier, w⟩] NameEnd := by
  have e1 : " arrow: {}".toList = ' ' :: (arrowWord ++ [':', ' ', '{', '}']) := by decide
  have e2 : " dwrf: {}".toList = ' ' :: (dwrfWord ++ [':', ' ', '{', '}']) := by decide
  rcases h with rfl | rfl
  · exact ⟨_, congrArg _ e1, lexes_arrow⟩
  · exact ⟨_, congrArg _ e2, lexes_dwrf⟩

/-- **C60 as stated is false**: the grammar does not know the formats arrow and dwrf, which are
printed; the text of a file in one of them cannot be read. -/
theorem format_refused (n : Str) (hn : Ext.IsName n) (f : File) (hp : f.path ≠ .notSet)
    (hq : Quotable f.path.value) (hx : f.format = .arrow ∨ f.format = .dwrf) :
    ∃ text, sourceText n (.files [f]) = .ok text ∧ Unreadable text := by
  obtain ⟨w, h1, h2⟩ := formatText_word hx
  have ht : fileText f = .ok (linesText (headLines f) ++ (w ++ [':', ' ', '{', '}'])) := by
    rw [fileText, pathText_line hp, Outcome.bind_ok, h1, linesText_head]
    simp [Outcome.map]
  have hl : Lexes ("    {".toList ++ (linesText (headLines f) ++ (w ++ [':', ' ', '{', '}'])) ++
      "}\n".toList) (openTok :: (linesToks (headLines f) ++
        [⟨.identifier, w⟩, colonTok, openTok, closeTok, closeTok])) Any := by
    have a1 : Lexes "    {".toList [openTok] Any :=
      Lexes.cast (Lexes.then (lexes_spaces 4 Any) (lexes_open Any)) (by decide) rfl
    have a2 := lexes_colonWord h2 (lexes_braces Any)
    have a3 := Lexes.then (Lexes.then a1 (Lexes.then
      (Rel.lexes_lines _ (good_headLines f hq)) a2)) (lexes_end Any)
    exact Lexes.cast a3 rfl (by simp)
  refine ⟨_, sourceText_file n f _ ht, _, lexes_filesSource hn hl, by simp, ?_⟩
  intro rest
  have := parseFiles_none hn (openTok :: (linesToks (headLines f) ++
    (⟨.identifier, w⟩ :: colonTok :: openTok :: closeTok :: closeTok :: closeList :: closeTok ::
      rest))) (parseListed_none (by
        have hy : ∀ r, expect .leftBrace (openTok :: r) = some r := fun _ => rfl
        rw [parseFile, hy, Option.bind_some, parseUntilBrace_bad _ (good_headLines f hq) _ _ rfl rfl]
        rfl) _)
  simpa using this

/-- Non-vacuity: such files, with a path of every kind. -/
example (p : Path) (h : p ≠ .notSet) (hq : Quotable p.value) :
    ∃ f : File, f.path = p ∧ f.path ≠ .notSet ∧ Quotable f.path.value ∧
      (f.format = .arrow ∨ f.format = .dwrf) :=
  ⟨⟨p, 1, 2, 3, .dwrf⟩, rfl, h, hq, .inr rfl⟩

/-! ## Paths that are lost -/

/-- A source with one file is read as what is left of the file. -/
theorem file_read (n : Str) (hn : Ext.IsName n) (f : File) (h : FileReads f) :
    ∃ text ds st, sourceText n (.files [f]) = .ok text ∧ detailsOf text = some ds ∧
      visitPlan ds = .ok st ∧ st.errs = [] ∧
      sourceOf st.symbols n = .ok (some (.files [keptFile f])) := by
  obtain ⟨l, h1, h2, h3⟩ := good_file hn h.path.1 h.path.2 h.format
  have h4 := detailsOf_sections [[l]] (by
    intro s hs x hx
    simp only [List.mem_singleton] at hs
    subst hs
    simp only [List.mem_singleton] at hx
    subst hx
    exact h1)
  rw [List.map_cons, List.map_nil, planText_one] at h4
  have h5 := addSource_file h (name := n) 0 [] (by simp) (name_ne_fileKey hn f)
  refine ⟨l.text, [l.detail], ⟨[⟨n, 0, .source .files⟩, ⟨fileKey f, 0, .file (keptFile f)⟩], {},
    []⟩, h2, by simpa [separated] using h4, ?_, rfl, ?_⟩
  · rw [h3]
    simp only [visitPlan, visitDefinitions, visitDefinition, h5, Outcome.map, Outcome.bind,
      visitRelations, visitRelation, visitRoots, visitRoot, List.nil_append]
  · simp [sourceOf, lookup, filesAt]

theorem keptFile_iff (f : File) (h : f.path ≠ .notSet) :
    keptFile f = f ↔ ∃ s, f.path = .uriFile s := by
  obtain ⟨p, a, b, c, x⟩ := f
  cases p <;> simp_all [keptFile]

/-- **C60 as stated is false**: of a path, a glob or a folder nothing is left; no error is
reported. -/
theorem path_lost (n : Str) (hn : Ext.IsName n) (f : File) (h : FileReads f)
    (hp : ∀ s, f.path ≠ .uriFile s) :
    ∃ text ds st g, sourceText n (.files [f]) = .ok text ∧ detailsOf text = some ds ∧
      visitPlan ds = .ok st ∧ st.errs = [] ∧
      sourceOf st.symbols n = .ok (some (.files [g])) ∧ g.path = .notSet := by
  obtain ⟨text, ds, st, h1, h2, h3, h4, h5⟩ := file_read n hn f h
  refine ⟨text, ds, st, keptFile f, h1, h2, h3, h4, h5, ?_⟩
  obtain ⟨p, a, b, c, x⟩ := f
  cases p with
  | uriFile s => exact absurd rfl (hp s)
  | _ => rfl

/-- Non-vacuity. -/
example : ∃ f : File, FileReads f ∧ ∀ s, f.path ≠ .uriFile s :=
  ⟨⟨.uriFolder "a/b".toList, 1, 2, 3, .orc⟩, ⟨⟨by simp, quotable_of (by decide) (by decide)⟩, .inr rfl,
    by unfold U64; decide, by unfold U64; decide, by unfold U64; decide⟩, by simp⟩

/-! ## The same file in two sources -/

theorem applyAll_again {f : File} (h : FileReads f) :
    applyAll ((fileLines f).map (·.detail)) (keptFile f) = .ok (keptFile f) := by
  obtain ⟨p, a, b, c, x⟩ := f
  have hk : keptFile ⟨p, a, b, c, x⟩ = ⟨(keptFile ⟨p, a, b, c, x⟩).path, a, b, c, x⟩ := rfl
  generalize hq : (keptFile ⟨p, a, b, c, x⟩).path = q at hk
  rw [hk]
  have h1 : applyAll [pathDetail p] ⟨q, a, b, c, x⟩ = .ok ⟨q, a, b, c, x⟩ := by
    subst hq
    cases p with
    | notSet => exact absurd rfl h.path.1
    | uriFile s =>
      simp [pathDetail, applyAll, applyDetail, Outcome.bind, stringValue_inQuotes, keptFile]
    | _ => rfl
  have h2 : applyAll ((partitionLines a).map (·.detail)) ⟨q, a, b, c, x⟩ =
      .ok ⟨q, a, b, c, x⟩ := by
    by_cases hp : a = 0
    · simp [partitionLines, hp, applyAll]
    · simp [partitionLines, hp, applyAll, partitionLine, applyDetail, Outcome.bind, Outcome.map,
        stoul_natText h.partition]
  have h3 : applyAll ((rangeLines b c).map (·.detail)) ⟨q, a, b, c, x⟩ =
      .ok ⟨q, a, b, c, x⟩ := by
    by_cases hp : b = 0 ∧ c = 0
    · simp [rangeLines, hp, applyAll]
    · simp [rangeLines, hp, applyAll, startLine, lengthLine, applyDetail, Outcome.bind,
        Outcome.map, stoul_natText h.start, stoul_natText h.length]
  have h4 : applyAll [(formatLine x).detail] ⟨q, a, b, c, x⟩ = .ok ⟨q, a, b, c, x⟩ := by
    rcases h.format with hx | hx <;> simp only at hx <;> subst hx <;> rfl
  have e : (fileLines ⟨p, a, b, c, x⟩).map (·.detail) = [pathDetail p] ++
      ((partitionLines a).map (·.detail) ++
        ((rangeLines b c).map (·.detail) ++ [(formatLine x).detail])) := by
    simp [fileLines, pathLine]
  rw [e, applyAll_append _ _ _ _ h1, applyAll_append _ _ _ _ h2, applyAll_append _ _ _ _ h3, h4]

theorem applyDetails_first {name : Str} {ds : List FileDetail} {f g : File} {loc : Nat}
    {ss : List Symbol} (hd : ds ≠ []) (h : applyAll ds f = .ok g) :
    applyDetails name ds (⟨name, loc, .file f⟩ :: ss) = .ok (⟨name, loc, .file g⟩ :: ss) := by
  cases ds with
  | nil => exact absurd rfl hd
  | cons d ds =>
    unfold applyAll at h
    simp only [applyDetails, if_true, h]
    rfl

/-- **C60 as stated is false**: the details of a file go to the first item with the same text.
If two sources have the same file, the second is read as a source with an empty item. -/
theorem file_twice (m n : Str) (hm : Ext.IsName m) (hn : Ext.IsName n) (hmn : m ≠ n) (f : File)
    (h : FileReads f) :
    ∃ text ds st, sourceSection [(m, .files [f]), (n, .files [f])] = .ok text ∧
      detailsOf text = some ds ∧ visitPlan ds = .ok st ∧ st.errs = [] ∧
      sourceOf st.symbols m = .ok (some (.files [keptFile f])) ∧
      sourceOf st.symbols n = .ok (some (.files [File.empty])) := by
  obtain ⟨l, h1, h2, h3⟩ := good_file hm h.path.1 h.path.2 h.format
  obtain ⟨k, k1, k2, k3⟩ := good_file hn h.path.1 h.path.2 h.format
  have h4 := detailsOf_sections [[l, k]] (by
    intro s hs x hx
    simp only [List.mem_singleton] at hs
    subst hs
    simp only [List.mem_cons, List.not_mem_nil, or_false] at hx
    rcases hx with rfl | rfl
    · exact h1
    · exact k1)
  rw [List.map_cons, List.map_nil, planText_one] at h4
  have h5 := addSource_file h (name := m) 0 [] (by simp) (name_ne_fileKey hm f)
  have h6 : addSource 1 [⟨m, 0, .source .files⟩, ⟨fileKey f, 0, .file (keptFile f)⟩]
      (.localFiles n [fileTree f]) = .ok [⟨m, 0, .source .files⟩,
        ⟨fileKey f, 0, .file (keptFile f)⟩, ⟨n, 1, .source .files⟩,
        ⟨fileKey f, 1, .file File.empty⟩] := by
    have h7 := applyAll_again h
    simp only [addSource, addFiles, fileTree, List.cons_append, List.nil_append]
    unfold applyDetails
    rw [if_neg (name_ne_fileKey hm f), applyDetails_first (by simp [fileLines]) h7]
    rfl
  refine ⟨separated [l.text, k.text], [l.detail, k.detail],
    ⟨[⟨m, 0, .source .files⟩, ⟨fileKey f, 0, .file (keptFile f)⟩, ⟨n, 1, .source .files⟩,
      ⟨fileKey f, 1, .file File.empty⟩], {}, []⟩, ?_, by simpa using h4, ?_, rfl, ?_, ?_⟩
  · simp only [sourceSection, Outcome.mapM, h2, k2, Outcome.map, Outcome.bind]
  · rw [h3, k3]
    rw [List.nil_append] at h5
    simp only [visitPlan, visitDefinitions, visitDefinition, h5, h6, Outcome.map, Outcome.bind,
      visitRelations, visitRelation, visitRoots, visitRoot]
  · simp [sourceOf, lookup, filesAt]
  · have e1 : ¬ fileKey f = n := fun e => name_ne_fileKey hn f e.symm
    simp [sourceOf, lookup, filesAt, hmn, e1]

/-- Non-vacuity. -/
example : FileReads sampleFile := sampleFile_ok.reads

end Verif.Sec
