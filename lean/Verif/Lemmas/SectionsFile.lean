import Verif.Lemmas.SectionsSource

/-!
# Lemmas on the text of files
-/

namespace Verif.Sec

open Verif Verif.TyPb Verif.Tree Verif.Literal Verif.Lex Verif.Parse Verif.Expr
open Verif.Rel (Line GoodLine linesText linesToks openTok closeTok semiTok goesOn)

/-! ## Details -/

def pathWord : Path → Str
  | .uriPath _ => "uri_path".toList
  | .uriPathGlob _ => "uri_path_glob".toList
  | .uriFolder _ => "uri_folder".toList
  | _ => "uri_file".toList
def pathTk : Path → Tk
  | .uriPath _ => .uriPath
  | .uriPathGlob _ => .uriPathGlob
  | .uriFolder _ => .uriFolder
  | _ => .uriFile
def partitionWord : Str := "partition_index".toList
def startWord : Str := "start".toList
def lengthWord : Str := "length".toList
def parquetWord : Str := "parquet".toList
def orcWord : Str := "orc".toList

theorem lexes_path (p : Path) : Lexes (pathWord p) [⟨pathTk p, pathWord p⟩] NameEnd := by
  have h1 : Lexes "uri_path".toList [⟨.uriPath, "uri_path".toList⟩] NameEnd :=
    Ext.lexes_word _ 'u' "ri_path".toList .uriPath (by decide) (by decide) (by decide +kernel)
      (by decide) (by decide)
  have h2 : Lexes "uri_path_glob".toList [⟨.uriPathGlob, "uri_path_glob".toList⟩] NameEnd :=
    Ext.lexes_word _ 'u' "ri_path_glob".toList .uriPathGlob (by decide) (by decide)
      (by decide +kernel) (by decide) (by decide)
  have h3 : Lexes "uri_folder".toList [⟨.uriFolder, "uri_folder".toList⟩] NameEnd :=
    Ext.lexes_word _ 'u' "ri_folder".toList .uriFolder (by decide) (by decide)
      (by decide +kernel) (by decide) (by decide)
  have h4 : Lexes "uri_file".toList [⟨.uriFile, "uri_file".toList⟩] NameEnd :=
    Ext.lexes_word _ 'u' "ri_file".toList .uriFile (by decide) (by decide) (by decide +kernel)
      (by decide) (by decide)
  cases p
  · exact h1
  · exact h2
  · exact h4
  · exact h3
  · exact h4
theorem lexes_partition : Lexes partitionWord [⟨.partitionIndex, partitionWord⟩] NameEnd :=
  Ext.lexes_word _ 'p' "artition_index".toList .partitionIndex (by decide) (by decide)
    (by decide +kernel) (by decide) (by decide)
theorem lexes_start : Lexes startWord [⟨.start, startWord⟩] NameEnd :=
  Ext.lexes_word _ 's' "tart".toList .start (by decide) (by decide) (by decide +kernel)
    (by decide) (by decide)
theorem lexes_length : Lexes lengthWord [⟨.length, lengthWord⟩] NameEnd :=
  Ext.lexes_word _ 'l' "ength".toList .length (by decide) (by decide) (by decide +kernel)
    (by decide) (by decide)
theorem lexes_parquet : Lexes parquetWord [⟨.parquet, parquetWord⟩] NameEnd :=
  Ext.lexes_word _ 'p' "arquet".toList .parquet (by decide) (by decide) (by decide +kernel)
    (by decide) (by decide)
theorem lexes_orc : Lexes orcWord [⟨.orc, orcWord⟩] NameEnd :=
  Ext.lexes_word _ 'o' "rc".toList .orc (by decide) (by decide) (by decide +kernel)
    (by decide) (by decide)

/-- A word, a colon and what follows it. -/
theorem lexes_colonWord {w x : Str} {t : Token} {ts : List Token} {ok : Str → Prop}
    (h : Lexes w [t] NameEnd) (hx : Lexes x ts ok) :
    Lexes (w ++ (':' :: ' ' :: x)) (t :: colonTok :: ts) ok :=
  Lexes.cast (Lexes.append h (Lexes.then (lexes_colon Any) (Lexes.then (lexes_spaces 1 Any) hx))
    (fun _ _ => nameEnd_cons _ _ (by decide))) rfl rfl

theorem lexes_natText (n : Nat) : Lexes (natText n) [⟨.number, natText n⟩] NumEnd :=
  lexes_number _ (isNumberText_natText n)

/-- A number and a blank. -/
theorem lexes_natBlank (n : Nat) : Lexes (natText n ++ [' ']) [⟨.number, natText n⟩] Any :=
  Lexes.cast (Lexes.append (lexes_natText n) (lexes_spaces 1 Any)
    (fun _ _ => numEnd_cons _ _ (by decide) (by decide) (by decide) (by decide))) rfl rfl

theorem lexes_braces (ok : Str → Prop) : Lexes ['{', '}'] [openTok, closeTok] ok :=
  Lexes.then (lexes_open Any) (lexes_close ok)

def pathDetail : Path → FileDetail
  | .uriFile s => .file (inQuotes s)
  | .notSet => .file (inQuotes [])
  | _ => .location
def pathLine (p : Path) : Line FileDetail :=
  ⟨pathWord p ++ (':' :: ' ' :: (inQuotes p.value ++ [' '])),
    [⟨pathTk p, pathWord p⟩, colonTok, stringTok p.value], pathDetail p⟩
def partitionLine (n : Nat) : Line FileDetail :=
  ⟨partitionWord ++ (':' :: ' ' :: (natText n ++ [' '])),
    [⟨.partitionIndex, partitionWord⟩, colonTok, ⟨.number, natText n⟩], .partition (natText n)⟩
def startLine (n : Nat) : Line FileDetail :=
  ⟨startWord ++ (':' :: ' ' :: (natText n ++ [' '])),
    [⟨.start, startWord⟩, colonTok, ⟨.number, natText n⟩], .start (natText n)⟩
def lengthLine (n : Nat) : Line FileDetail :=
  ⟨lengthWord ++ (':' :: ' ' :: (natText n ++ [' '])),
    [⟨.length, lengthWord⟩, colonTok, ⟨.number, natText n⟩], .length (natText n)⟩
def parquetLine : Line FileDetail :=
  ⟨parquetWord ++ [':', ' ', '{', '}'], [⟨.parquet, parquetWord⟩, colonTok, openTok, closeTok],
    .parquet⟩
def orcLine : Line FileDetail :=
  ⟨orcWord ++ [':', ' ', '{', '}'], [⟨.orc, orcWord⟩, colonTok, openTok, closeTok], .orc⟩

theorem good_path {p : Path} (h : Quotable p.value) : GoodLine parseFileDetail (pathLine p) where
  lexes := lexes_colonWord (lexes_path p)
    (Lexes.cast (Lexes.then (lexes_inQuotes h Any) (lexes_spaces 1 Any)) rfl rfl)
  head := ⟨_, _, rfl, by cases p <;> simp [pathTk]⟩
  parses rest := by cases p <;> rfl

theorem good_partition (n : Nat) : GoodLine parseFileDetail (partitionLine n) where
  lexes := lexes_colonWord lexes_partition (lexes_natBlank n)
  head := ⟨_, _, rfl, by simp⟩
  parses rest := rfl

theorem good_start (n : Nat) : GoodLine parseFileDetail (startLine n) where
  lexes := lexes_colonWord lexes_start (lexes_natBlank n)
  head := ⟨_, _, rfl, by simp⟩
  parses rest := rfl

theorem good_length (n : Nat) : GoodLine parseFileDetail (lengthLine n) where
  lexes := lexes_colonWord lexes_length (lexes_natBlank n)
  head := ⟨_, _, rfl, by simp⟩
  parses rest := rfl

theorem good_parquet : GoodLine parseFileDetail parquetLine where
  lexes := lexes_colonWord lexes_parquet (lexes_braces Any)
  head := ⟨_, _, rfl, by simp⟩
  parses rest := rfl

theorem good_orc : GoodLine parseFileDetail orcLine where
  lexes := lexes_colonWord lexes_orc (lexes_braces Any)
  head := ⟨_, _, rfl, by simp⟩
  parses rest := rfl

/-! ## One file -/

def partitionLines (n : Nat) : List (Line FileDetail) := if n = 0 then [] else [partitionLine n]
def rangeLines (a b : Nat) : List (Line FileDetail) :=
  if a = 0 ∧ b = 0 then [] else [startLine a, lengthLine b]
def formatLine : Format → Line FileDetail
  | .orc => orcLine
  | _ => parquetLine

def fileLines (f : File) : List (Line FileDetail) :=
  pathLine f.path :: (partitionLines f.partition ++ (rangeLines f.start f.length ++
    [formatLine f.format]))

theorem good_fileLines (f : File) (h : Quotable f.path.value) :
    ∀ l ∈ fileLines f, GoodLine parseFileDetail l := by
  intro l hl
  simp only [fileLines, partitionLines, rangeLines, List.mem_cons, List.mem_append,
    List.not_mem_nil, or_false] at hl
  rcases hl with rfl | hl | hl | rfl
  · exact good_path h
  · split at hl
    · simp at hl
    · simp at hl; subst hl; exact good_partition _
  · split at hl
    · simp at hl
    · simp at hl
      rcases hl with rfl | rfl
      · exact good_start _
      · exact good_length _
  · cases f.format <;> first | exact good_orc | exact good_parquet

theorem linesText_partition (n : Nat) :
    [' '] ++ linesText (partitionLines n) = partitionText n ++ [' '] := by
  have e : " partition_index: ".toList = ' ' :: (partitionWord ++ [':', ' ']) := by decide
  rw [partitionText, partitionLines, e]
  by_cases h : n = 0
  · simp [h, linesText]
  · simp [h, linesText, partitionLine]

theorem linesText_range (a b : Nat) :
    [' '] ++ linesText (rangeLines a b) = rangeText a b ++ [' '] := by
  have e1 : " start: ".toList = ' ' :: (startWord ++ [':', ' ']) := by decide
  have e2 : " length: ".toList = ' ' :: (lengthWord ++ [':', ' ']) := by decide
  rw [rangeText, rangeLines, e1, e2]
  by_cases h : a = 0 ∧ b = 0
  · simp [h, linesText]
  · have h' : a ≠ 0 ∨ b ≠ 0 := by omega
    rw [if_neg h, if_pos h']
    simp [linesText, startLine, lengthLine]

theorem formatText_line {x : Format} (h : x = .parquet ∨ x = .orc) :
    formatText x = .ok (' ' :: (formatLine x).text) := by
  have e1 : " parquet: {}".toList = ' ' :: (parquetWord ++ [':', ' ', '{', '}']) := by decide
  have e2 : " orc: {}".toList = ' ' :: (orcWord ++ [':', ' ', '{', '}']) := by decide
  rcases h with rfl | rfl
  · rw [formatText, e1]; rfl
  · rw [formatText, e2]; rfl

theorem pathText_line {p : Path} (h : p ≠ .notSet) :
    pathText p = .ok (pathWord p ++ ':' :: ' ' :: inQuotes p.value) := by
  have e1 : "uri_path: \"".toList = "uri_path".toList ++ [':', ' ', '"'] := by decide
  have e2 : "uri_path_glob: \"".toList = "uri_path_glob".toList ++ [':', ' ', '"'] := by decide
  have e3 : "uri_file: \"".toList = "uri_file".toList ++ [':', ' ', '"'] := by decide
  have e4 : "uri_folder: \"".toList = "uri_folder".toList ++ [':', ' ', '"'] := by decide
  have e5 : "\"".toList = ['"'] := by decide
  have e : ∀ w s : Str, w ++ [':', ' ', '"'] ++ s ++ ['"'] = w ++ ':' :: ' ' :: inQuotes s := by
    intro w s; simp [inQuotes]
  cases p with
  | notSet => exact absurd rfl h
  | uriPath s => rw [pathText, e1, e5, e]; exact Eq.refl _
  | uriPathGlob s => rw [pathText, e2, e5, e]; exact Eq.refl _
  | uriFile s => rw [pathText, e3, e5, e]; exact Eq.refl _
  | uriFolder s => rw [pathText, e4, e5, e]; exact Eq.refl _

theorem fileText_lines {f : File} (hs : f.path ≠ .notSet)
    (hx : f.format = .parquet ∨ f.format = .orc) :
    fileText f = .ok (linesText (fileLines f)) := by
  have h1 := linesText_partition f.partition
  have h2 := linesText_range f.start f.length
  have e : linesText (fileLines f) = pathWord f.path ++ ':' :: ' ' :: inQuotes f.path.value ++
      partitionText f.partition ++ rangeText f.start f.length ++
        ' ' :: (formatLine f.format).text := by
    have h3 : linesText (fileLines f) = (pathWord f.path ++ ':' :: ' ' :: inQuotes f.path.value) ++
        ([' '] ++ linesText (partitionLines f.partition)) ++
          (linesText (rangeLines f.start f.length) ++ (formatLine f.format).text) := by
      simp [fileLines, linesText, Rel.linesText_append, pathLine]
    rw [h3, h1]
    have h4 : ∀ a b c d : Str, a ++ (b ++ [' ']) ++ (c ++ d) = a ++ b ++ ([' '] ++ c) ++ d := by
      intros; simp
    rw [h4, h2]
    simp
  rw [fileText, pathText_line hs, Outcome.bind_ok, formatText_line hx, e]
  rfl

/-! ## The name of the symbol -/

theorem toksText_partition (n : Nat) :
    (linesToks (partitionLines n)).flatMap (·.text) =
      partitionKey n := by
  have e : "partition_index:".toList = partitionWord ++ [':'] := by decide
  rw [partitionLines, partitionKey, e]
  by_cases h : n = 0
  · simp [h, linesToks]
  · simp [h, linesToks, partitionLine, colonTok]

theorem toksText_range (a b : Nat) :
    (linesToks (rangeLines a b)).flatMap (·.text) = rangeKey a b := by
  have e1 : "start:".toList = startWord ++ [':'] := by decide
  have e2 : "length:".toList = lengthWord ++ [':'] := by decide
  rw [rangeLines, rangeKey, e1, e2]
  by_cases h : a = 0 ∧ b = 0
  · simp [h, linesToks]
  · rw [if_neg h, if_neg h]
    simp [linesToks, startLine, lengthLine, colonTok]

theorem toksText_format {x : Format} (h : x = .parquet ∨ x = .orc) :
    (formatLine x).toks.flatMap (·.text) = formatKey x := by
  have e1 : "parquet:{}".toList = parquetWord ++ [':', '{', '}'] := by decide
  have e2 : "orc:{}".toList = orcWord ++ [':', '{', '}'] := by decide
  have f1 : parquetLine.toks.flatMap (·.text) = parquetWord ++ [':', '{', '}'] := by
    simp [parquetLine, colonTok, openTok, closeTok]
  have f2 : orcLine.toks.flatMap (·.text) = orcWord ++ [':', '{', '}'] := by
    simp [orcLine, colonTok, openTok, closeTok]
  rcases h with rfl | rfl
  · exact f1.trans e1.symm
  · exact f2.trans e2.symm

theorem path_parts {w k : Str} (s : Str) (h : k = w ++ [':']) :
    w ++ [':'] ++ '"' :: (s ++ ['"']) = k ++ '"' :: (s ++ ['"']) := by rw [h]

theorem pathKey_word {p : Path} (h : p ≠ .notSet) :
    pathWord p ++ [':'] ++ '"' :: (p.value ++ ['"']) = pathKey p := by
  have e1 : "uri_path:".toList = "uri_path".toList ++ [':'] := by decide
  have e2 : "uri_path_glob:".toList = "uri_path_glob".toList ++ [':'] := by decide
  have e3 : "uri_file:".toList = "uri_file".toList ++ [':'] := by decide
  have e4 : "uri_folder:".toList = "uri_folder".toList ++ [':'] := by decide
  cases p with
  | notSet => exact absurd rfl h
  | uriPath s => unfold pathWord pathKey Path.value; exact path_parts s e1
  | uriPathGlob s => unfold pathWord pathKey Path.value; exact path_parts s e2
  | uriFile s => unfold pathWord pathKey Path.value; exact path_parts s e3
  | uriFolder s => unfold pathWord pathKey Path.value; exact path_parts s e4

theorem toksText_path {p : Path} (h : p ≠ .notSet) :
    (pathLine p).toks.flatMap (·.text) = pathKey p := by
  have f : (pathLine p).toks.flatMap (·.text) =
      pathWord p ++ [':'] ++ '"' :: (p.value ++ ['"']) := by
    simp [pathLine, colonTok, stringTok, inQuotes]
  rw [f]
  exact pathKey_word h

def fileToks (f : File) : List Token := openTok :: (linesToks (fileLines f) ++ [closeTok])

theorem toksText_file {f : File} (hs : f.path ≠ .notSet)
    (hx : f.format = .parquet ∨ f.format = .orc) :
    (fileToks f).flatMap (·.text) = fileKey f := by
  have h3 := toksText_format hx
  simp only [fileToks, fileLines, List.flatMap_cons, List.flatMap_append, linesToks,
    linesToks_append, toksText_partition, toksText_range, toksText_path hs, List.flatMap_nil,
    List.append_nil, h3, fileKey, List.append_assoc]
  rfl

def fileTree (f : File) : FileTree := ⟨fileKey f, (fileLines f).map (·.detail)⟩

theorem parseFile_toks {f : File} (hs : f.path ≠ .notSet) (hq : Quotable f.path.value)
    (hx : f.format = .parquet ∨ f.format = .orc) (rest : List Token) :
    parseFile (fileToks f ++ rest) = some (fileTree f, rest) := by
  have hg := good_fileLines f hq
  have hl := Rel.linesToks_length _ hg
  have hb := Rel.parseUntilBrace_lines _ hg (linesToks (fileLines f) ++ closeTok :: rest).length
    rest (by simp; omega)
  have e : fileToks f ++ rest =
      openTok :: (linesToks (fileLines f) ++ closeTok :: rest) := by simp [fileToks]
  have hy : ∀ r, expect .leftBrace (openTok :: r) = some r := fun _ => rfl
  have ht : textUpTo (fileToks f ++ rest) rest = fileKey f := by
    rw [textUpTo, ← toksText_file hs hx]
    simp
  have hf : parseFile (fileToks f ++ rest) = some (⟨textUpTo (fileToks f ++ rest) rest,
      (fileLines f).map (·.detail)⟩, rest) := by
    unfold parseFile
    generalize fileToks f ++ rest = ts at e
    subst e
    rw [hy, Option.bind_some, hb]
    rfl
  rw [hf, ht]
  rfl

theorem goodItem_file {f : File} (hs : f.path ≠ .notSet) (hq : Quotable f.path.value)
    (hx : f.format = .parquet ∨ f.format = .orc) :
    GoodItem parseFile (fileToks f, fileTree f) where
  parses t r _ := parseFile_toks hs hq hx (t :: r)
  head := ⟨_, _, rfl, by simp [openTok]⟩

/-! ## The source -/

theorem lexes_filesHead (ok : Str → Prop) : Lexes "source local_files ".toList
    [⟨.source, sourceWord⟩, ⟨.localFiles, filesWord⟩] ok :=
  Lexes.cast (Lexes.sp lexes_source (Lexes.sp lexes_files (Lexes.nil ok))) (by decide) rfl

theorem lexes_itemsLine (ok : Str → Prop) : Lexes "  items = [\n".toList
    [⟨.items, itemsWord⟩, equalTok, openList] ok :=
  Lexes.cast (Lexes.then (lexes_assign lexes_items Any) (lexes_nl ok)) (by decide) rfl

theorem lexes_item (f : File) (hq : Quotable f.path.value) (ok : Str → Prop) :
    Lexes ("    {".toList ++ linesText (fileLines f) ++ "}\n".toList) (fileToks f) ok := by
  have h1 : Lexes "    {".toList [openTok] Any :=
    Lexes.cast (Lexes.then (lexes_spaces 4 Any) (lexes_open Any)) (by decide) rfl
  have h2 := Lexes.then (Lexes.then h1 (Rel.lexes_lines _ (good_fileLines f hq))) (lexes_end ok)
  exact Lexes.cast h2 rfl (by simp [fileToks])

theorem sourceText_files (name : Str) (items : List File) (ts : List Str)
    (h : Outcome.mapM itemText items = .ok ts) : sourceText name (.files items) =
    .ok ("source local_files ".toList ++ name ++ " {\n".toList ++ "  items = [\n".toList ++
      ts.flatten ++ "  ]\n".toList ++ "}\n".toList) := by
  unfold sourceText
  simp only [h]
  exact Eq.refl _

theorem sourceText_file (name : Str) (f : File) (t : Str) (h : fileText f = .ok t) :
    sourceText name (.files [f]) =
    .ok ("source local_files ".toList ++ name ++ " {\n".toList ++ "  items = [\n".toList ++
      ("    {".toList ++ t ++ "}\n".toList) ++ "  ]\n".toList ++ "}\n".toList) := by
  have hi : Outcome.mapM itemText [f] = .ok ["    {".toList ++ t ++ "}\n".toList] := by
    simp only [Outcome.mapM, itemText, h, Outcome.map, Outcome.bind]
  have := sourceText_files name [f] _ hi
  rw [List.flatten_singleton] at this
  exact this

/-- One file is read as it is. -/
theorem good_file {name : Str} {f : File} (hname : Ext.IsName name)
    (hs : f.path ≠ .notSet) (hq : Quotable f.path.value) (hx : f.format = .parquet ∨ f.format = .orc) :
    ∃ l : Line PlanDetail, GoodLine parsePlanDetail l ∧
      sourceText name (.files [f]) = .ok l.text ∧
      l.detail = .source (.localFiles name [fileTree f]) := by
  have hn := hname.name
  refine ⟨⟨_, ⟨.source, sourceWord⟩ :: ⟨.localFiles, filesWord⟩ :: (Ext.toksOf name ++ openTok ::
    ⟨.items, itemsWord⟩ :: equalTok :: openList :: (fileToks f ++
      closeList :: [closeTok])), .source (.localFiles name [fileTree f])⟩, ⟨?_,
    ⟨_, _, rfl, by simp⟩, ?_⟩, sourceText_file name f _ (fileText_lines hs hx), rfl⟩
  · have h4 := Lexes.append (Lexes.then (lexes_filesHead Any) hn.lexes_) (lexes_openLine Any)
      (fun rest _ => nameEnd_openLine rest)
    have h5 := Lexes.then (Lexes.then (Lexes.then (Lexes.then h4 (lexes_itemsLine Any))
      (lexes_item f hq Any)) (lexes_listEnd Any)) (lexes_end Any)
    exact Lexes.cast h5 rfl (by simp)
  · intro rest
    have e : (⟨.source, sourceWord⟩ : Token) :: ⟨.localFiles, filesWord⟩ :: (Ext.toksOf name ++
        openTok :: ⟨.items, itemsWord⟩ :: equalTok :: openList :: (fileToks f ++
          closeList :: [closeTok])) ++ rest = ⟨.source, sourceWord⟩ :: ⟨.localFiles, filesWord⟩ ::
        (Ext.toksOf name ++ openTok :: (⟨.items, itemsWord⟩ :: equalTok :: openList ::
          (fileToks f ++ closeList :: closeTok :: rest))) := by simp
    show parsePlanDetail _ = _
    rw [e]
    refine parsePlanDetail_source (source_not_relation _ (by simp) (by simp)) ?_
    have hp := parseAssigned_ok (k := .items) (w := itemsWord) false [] (fileToks f, fileTree f)
      (by
        intro y hy
        simp at hy
        subst hy
        exact goodItem_file hs hq hx) (closeTok :: rest)
    have hd : parseSourceDetail .items parseFile (⟨.items, itemsWord⟩ :: equalTok :: openList ::
          (fileToks f ++ closeList :: closeTok :: rest)) =
        some ([fileTree f], closeTok :: rest) := by
      have ha : nextIs .advancedExtension ((⟨.items, itemsWord⟩ : Token) :: equalTok :: openList ::
          (fileToks f ++ closeList :: closeTok :: rest)) = false := rfl
      rw [parseSourceDetail, ha, if_neg Bool.false_ne_true]
      exact hp
    have hi := Rel.parseId_name hn (t := openTok) (by decide) ((⟨.items, itemsWord⟩ : Token) ::
      equalTok :: openList :: (fileToks f ++ closeList :: closeTok :: rest))
    have hb := parseUntilBrace_one hd rfl ((⟨.items, itemsWord⟩ : Token) ::
      equalTok :: openList :: (fileToks f ++ closeList :: closeTok :: rest)).length (by simp)
    have hy : ∀ r, expect .leftBrace (openTok :: r) = some r := fun _ => rfl
    simp only [parseReadType]
    rw [hi, Option.bind_some, hy, Option.bind_some, hb]
    rfl

/-! ## Reading -/

theorem stoul_natText {n : Nat} (h : U64 n) : stoul (natText n) = .ok n := by
  have hsp : (natText n).dropWhile StringUtils.isSpace = natText n := by
    apply StringUtils.dropWhile_head
    intro c hc
    exact StringUtils.isSpace_digit (natText_digits n c (List.mem_of_head? hc))
  have hd := signDigits_digits (s := natText n) (t := []) (isDigits_natText n) (by simp)
  rw [List.append_nil] at hd
  have hv := digitsVal_natText n
  have he : (natText n).isEmpty = false := by
    cases hn : natText n with
    | nil => exact absurd hn (natText_ne_nil n)
    | cons c r => rfl
  unfold stoul
  rw [hsp, hd]
  simp only [he, hv, Bool.false_eq_true, if_false]
  rw [if_neg (by unfold U64 at h; omega)]

/-- The details of a file, applied to an item. -/
def applyAll (ds : List FileDetail) (f : File) : Outcome File :=
  ds.foldl (fun (o : Outcome File) d => o.bind (applyDetail d)) (.ok f)

theorem applyAll_append (a b : List FileDetail) (f g : File) (h : applyAll a f = .ok g) :
    applyAll (a ++ b) f = applyAll b g := by
  unfold applyAll at *
  rw [List.foldl_append, h]

theorem applyAll_file {f : File} (h : FileReads f) :
    applyAll ((fileLines f).map (·.detail)) File.empty = .ok (keptFile f) := by
  obtain ⟨p, a, b, c, x⟩ := f
  have h1 : applyAll [pathDetail p] File.empty =
      .ok ⟨(keptFile ⟨p, a, b, c, x⟩).path, 0, 0, 0, .notSet⟩ := by
    cases p with
    | notSet => exact absurd rfl h.path.1
    | uriFile s =>
      simp [pathDetail, applyAll, applyDetail, Outcome.bind, stringValue_inQuotes, File.empty,
        keptFile]
    | _ => rfl
  generalize hq : (keptFile ⟨p, a, b, c, x⟩).path = q at h1
  have h2 : applyAll ((partitionLines a).map (·.detail)) ⟨q, 0, 0, 0, .notSet⟩ =
      .ok ⟨q, a, 0, 0, .notSet⟩ := by
    by_cases hp : a = 0
    · simp [partitionLines, hp, applyAll]
    · simp [partitionLines, hp, applyAll, partitionLine, applyDetail, Outcome.bind, Outcome.map,
        stoul_natText h.partition]
  have h3 : applyAll ((rangeLines b c).map (·.detail)) ⟨q, a, 0, 0, .notSet⟩ =
      .ok ⟨q, a, b, c, .notSet⟩ := by
    by_cases hp : b = 0 ∧ c = 0
    · simp [rangeLines, hp, applyAll]
    · simp [rangeLines, hp, applyAll, startLine, lengthLine, applyDetail, Outcome.bind,
        Outcome.map, stoul_natText h.start, stoul_natText h.length]
  have h4 : applyAll [(formatLine x).detail] ⟨q, a, b, c, .notSet⟩ =
      .ok (keptFile ⟨p, a, b, c, x⟩) := by
    subst hq
    rcases h.format with hx | hx <;> simp only at hx <;> subst hx <;> rfl
  have e : (fileLines ⟨p, a, b, c, x⟩).map (·.detail) = [pathDetail p] ++
      ((partitionLines a).map (·.detail) ++
        ((rangeLines b c).map (·.detail) ++ [(formatLine x).detail])) := by
    simp [fileLines, pathLine]
  rw [e, applyAll_append _ _ _ _ h1, applyAll_append _ _ _ _ h2, applyAll_append _ _ _ _ h3, h4]

theorem applyDetails_new {name : Str} {ds : List FileDetail} {f : File} {loc : Nat}
    (hd : ds ≠ []) (h : applyAll ds File.empty = .ok f) :
    ∀ l : List Symbol, (∀ s ∈ l, s.name ≠ name) →
      applyDetails name ds (l ++ [⟨name, loc, .file File.empty⟩]) =
        .ok (l ++ [⟨name, loc, .file f⟩])
  | [], _ => by
    cases ds with
    | nil => exact absurd rfl hd
    | cons d ds =>
      unfold applyAll at h
      simp only [List.nil_append, applyDetails, if_true, h]
      rfl
  | s :: l, hl => by
    have ih := applyDetails_new (loc := loc) hd h l (fun x hx => hl x (by simp [hx]))
    rw [List.cons_append]
    unfold applyDetails
    rw [if_neg (hl s (by simp)), ih]
    rfl

theorem FileOk.reads {f : File} (h : FileOk f) : FileReads f where
  path := by
    obtain ⟨s, hs, hq⟩ := h.path
    rw [hs]
    exact ⟨by simp, hq⟩
  format := h.format
  partition := h.partition
  start := h.start
  length := h.length

theorem FileOk.kept {f : File} (h : FileOk f) : keptFile f = f := by
  obtain ⟨s, hs, -⟩ := h.path
  obtain ⟨p, a, b, c, x⟩ := f
  simp only at hs
  subst hs
  rfl

/-- What a source with one file adds. -/
theorem addSource_file {name : Str} {f : File} (h : FileReads f)
    (loc : Nat) (l : List Symbol) (hl : ∀ x ∈ l, x.name ≠ fileKey f) (hn : name ≠ fileKey f) :
    addSource loc l (.localFiles name [fileTree f]) =
      .ok (l ++ [⟨name, loc, .source .files⟩, ⟨fileKey f, loc, .file (keptFile f)⟩]) := by
  have h1 := applyDetails_new (name := fileKey f) (loc := loc)
    (ds := (fileLines f).map (·.detail)) (by simp [fileLines]) (applyAll_file h)
    (l ++ [⟨name, loc, .source .files⟩]) (by
      intro x hx
      rcases List.mem_append.mp hx with hx | hx
      · exact hl x hx
      · simp at hx; subst hx; exact hn)
  simp only [addSource, addFiles, fileTree]
  rw [h1]
  simp [Outcome.bind]

/-- What a table adds. -/
theorem addSource_table (name : Str) (names : List Str) (loc : Nat) (l : List Symbol) :
    addSource loc l (.namedTable name (names.map inQuotes)) =
      .ok (l ++ ⟨name, loc, .source .named⟩ :: names.map fun n => ⟨n, loc, .table⟩) := by
  simp [addSource, Function.comp_def, extractFromString_inQuotes]

end Verif.Sec
