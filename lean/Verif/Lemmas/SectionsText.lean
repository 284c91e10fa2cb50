import Verif.Lemmas.RelationText
import Verif.Lemmas.PipelineText
import Verif.Spec.Sections

/-!
# Lemmas on the text of the sections of a plan: their tokens and what they are parsed as
-/

namespace Verif.Sec

open Verif Verif.TyPb Verif.Tree Verif.Literal Verif.Lex Verif.Parse Verif.Expr
open Verif.Rel (Line GoodLine linesText linesToks openTok closeTok semiTok goesOn)

/-! ## Tokens -/

def commaTok : Token := ⟨.comma, [',']⟩
def equalTok : Token := ⟨.equal, ['=']⟩
def colonTok : Token := ⟨.colon, [':']⟩
def openList : Token := ⟨.leftBracket, ['[']⟩
def closeList : Token := ⟨.rightBracket, [']']⟩

abbrev Any : Str → Prop := fun _ => True

theorem Lexes.then {a b : Str} {ts us : List Token} {q : Str → Prop} (h : Lexes a ts Any)
    (h' : Lexes b us q) : Lexes (a ++ b) (ts ++ us) q := Lexes.append h h' fun _ _ => trivial

theorem lexes_nl (ok : Str → Prop) : Lexes ['\n'] [] ok := lexes_blank '\n' (.inr rfl) ok
theorem lexes_open (ok : Str → Prop) : Lexes ['{'] [openTok] ok :=
  lexes_sign '{' .leftBrace (by simp [signs]) rfl ok
theorem lexes_close (ok : Str → Prop) : Lexes ['}'] [closeTok] ok :=
  lexes_sign '}' .rightBrace (by simp [signs]) rfl ok
theorem lexes_equal (ok : Str → Prop) : Lexes ['='] [equalTok] ok :=
  lexes_sign '=' .equal (by simp [signs]) rfl ok
theorem lexes_colon (ok : Str → Prop) : Lexes [':'] [colonTok] ok :=
  lexes_sign ':' .colon (by simp [signs]) rfl ok
theorem lexes_openList (ok : Str → Prop) : Lexes ['['] [openList] ok :=
  lexes_sign '[' .leftBracket (by simp [signs]) rfl ok
theorem lexes_closeList (ok : Str → Prop) : Lexes [']'] [closeList] ok :=
  lexes_sign ']' .rightBracket (by simp [signs]) rfl ok
theorem lexes_commaTok (ok : Str → Prop) : Lexes [','] [commaTok] ok :=
  lexes_sign ',' .comma (by simp [signs]) rfl ok

/-- `}` and a line end. -/
theorem lexes_end (ok : Str → Prop) : Lexes "}\n".toList [closeTok] ok :=
  Lexes.cast (Lexes.then (lexes_close Any) (lexes_nl ok)) (by decide) rfl

def rootWord : Str := "root".toList
def namesWord : Str := "names".toList
def itemsWord : Str := "items".toList
def schemaWord : Str := "schema".toList
def sourceWord : Str := "source".toList
def tableWord : Str := "named_table".toList
def filesWord : Str := "local_files".toList

theorem lexes_root : Lexes rootWord [⟨.root, rootWord⟩] NameEnd :=
  Ext.lexes_word _ 'r' "oot".toList .root (by decide) (by decide) (by decide +kernel)
    (by decide) (by decide)
theorem lexes_names : Lexes namesWord [⟨.names, namesWord⟩] NameEnd :=
  Ext.lexes_word _ 'n' "ames".toList .names (by decide) (by decide) (by decide +kernel)
    (by decide) (by decide)
theorem lexes_items : Lexes itemsWord [⟨.items, itemsWord⟩] NameEnd :=
  Ext.lexes_word _ 'i' "tems".toList .items (by decide) (by decide) (by decide +kernel)
    (by decide) (by decide)
theorem lexes_schema : Lexes schemaWord [⟨.schema, schemaWord⟩] NameEnd :=
  Ext.lexes_word _ 's' "chema".toList .schema (by decide) (by decide) (by decide +kernel)
    (by decide) (by decide)
theorem lexes_source : Lexes sourceWord [⟨.source, sourceWord⟩] NameEnd :=
  Ext.lexes_word _ 's' "ource".toList .source (by decide) (by decide) (by decide +kernel)
    (by decide) (by decide)
theorem lexes_table : Lexes tableWord [⟨.namedTable, tableWord⟩] NameEnd :=
  Ext.lexes_word _ 'n' "amed_table".toList .namedTable (by decide) (by decide)
    (by decide +kernel) (by decide) (by decide)
theorem lexes_files : Lexes filesWord [⟨.localFiles, filesWord⟩] NameEnd :=
  Ext.lexes_word _ 'l' "ocal_files".toList .localFiles (by decide) (by decide)
    (by decide +kernel) (by decide) (by decide)

/-! ## Separated texts -/

theorem lexes_empty {ts : List Token} {ok : Str → Prop} (h : Lexes [] ts ok) (hok : ok []) :
    ts = [] := by
  have h1 := h [] hok
  have h2 : lex ([] : Str) = some [] := by decide +kernel
  rw [List.append_nil, h2] at h1
  simpa using h1.symm

/-- Texts separated by empty lines. -/
theorem lexes_separated : ∀ (l : List (Str × List Token)), (∀ e ∈ l, Lexes e.1 e.2 Any) →
    Lexes (separated (l.map (·.1))) (l.flatMap (·.2)) Any
  | [], _ => Lexes.nil _
  | [e], h => by
    have := h e (by simp)
    simpa [separated] using this
  | e :: f :: l, h => by
    have ih := lexes_separated (f :: l) (fun x hx => h x (by simp [List.mem_cons.mp hx]))
    have := Lexes.then (h e (by simp)) (Lexes.then (lexes_nl Any) ih)
    exact this

theorem filter_flatMap_nil : ∀ (l : List (Str × List Token)), (∀ e ∈ l, Lexes e.1 e.2 Any) →
    (l.filter fun e => !e.1.isEmpty).flatMap (·.2) = l.flatMap (·.2)
  | [], _ => rfl
  | e :: l, h => by
    have ih := filter_flatMap_nil l (fun x hx => h x (by simp [hx]))
    cases he : e.1 with
    | nil =>
      have h1 := h e (by simp)
      rw [he] at h1
      simp [he, ih, lexes_empty h1 trivial]
    | cons c r => simp [he, ih]

/-- The sections of a plan. -/
theorem lexes_planText (l : List (Str × List Token)) (h : ∀ e ∈ l, Lexes e.1 e.2 Any) :
    Lexes (planText (l.map (·.1))) (l.flatMap (·.2)) Any := by
  have h1 := lexes_separated (l.filter fun e => !e.1.isEmpty)
    (fun e he => h e (List.mem_filter.mp he).1)
  rw [filter_flatMap_nil l h] at h1
  refine Lexes.cast h1 ?_ rfl
  rw [planText, List.filter_map]
  rfl

theorem linesToks_flatMap {α : Type} : ∀ ls : List (Line α), linesToks ls = ls.flatMap (·.toks)
  | [] => rfl
  | l :: ls => by simp [linesToks, linesToks_flatMap ls]

theorem linesToks_append {α : Type} : ∀ (a b : List (Line α)),
    linesToks (a ++ b) = linesToks a ++ linesToks b
  | [], _ => rfl
  | l :: ls, b => by simp [linesToks, linesToks_append ls b]

/-- The definitions of one section. -/
theorem lexes_lines {α : Type} (ls : List (Line α)) (h : ∀ l ∈ ls, Lexes l.text l.toks Any) :
    Lexes (separated (ls.map (·.text))) (linesToks ls) Any := by
  have := lexes_separated (ls.map fun l => (l.text, l.toks)) (by
    intro e he
    obtain ⟨l, hl, rfl⟩ := List.mem_map.mp he
    exact h l hl)
  rw [linesToks_flatMap]
  simpa [List.map_map, Function.comp_def, List.flatMap_map] using this

/-! ## Whole plans -/

theorem parsePlan_lines : ∀ (ls : List (Line PlanDetail)),
    (∀ l ∈ ls, GoodLine parsePlanDetail l) → ∀ n, ls.length ≤ n →
      parsePlan n (linesToks ls) = some (ls.map (·.detail))
  | [], _, n, _ => by cases n <;> rfl
  | l :: ls, h, n, hn => by
    obtain ⟨m, rfl⟩ : ∃ m, n = m + 1 := ⟨n - 1, by simp at hn; omega⟩
    have hl := h l (by simp)
    have hp := hl.parses (linesToks ls)
    have hi := parsePlan_lines ls (fun x hx => h x (by simp [hx])) m (by simp at hn; omega)
    obtain ⟨t, r, ht, -⟩ := hl.head
    rw [linesToks]
    rw [ht, List.cons_append] at hp ⊢
    rw [parsePlan, hp, Option.bind_some, hi]
    rfl

/-- A plan that consists of lists of good definitions is read as these. -/
theorem detailsOf_sections (sections : List (List (Line PlanDetail)))
    (h : ∀ s ∈ sections, ∀ l ∈ s, GoodLine parsePlanDetail l) :
    detailsOf (planText (sections.map fun s => separated (s.map (·.text)))) =
      some (sections.flatten.map (·.detail)) := by
  have h1 := lexes_planText (sections.map fun s => (separated (s.map (·.text)), linesToks s)) (by
    intro e he
    obtain ⟨s, hs, rfl⟩ := List.mem_map.mp he
    exact lexes_lines s fun l hl => (h s hs l hl).lexes)
  have h2 : (sections.map fun s => (separated (s.map (·.text)), linesToks s)).flatMap (·.2) =
      linesToks sections.flatten := by
    rw [linesToks_flatMap, List.flatMap_map]
    clear h1
    induction sections with
    | nil => rfl
    | cons s ss ih =>
      have := ih (fun x hx => h x (by simp [hx]))
      simp only [List.flatMap_cons, List.flatten_cons, List.flatMap_append]
      rw [this, linesToks_flatMap]
  rw [h2] at h1
  have h3 := h1 [] trivial
  have h0 : lex ([] : Str) = some [] := by decide +kernel
  rw [List.append_nil, h0, Option.map_some, List.append_nil, List.map_map] at h3
  have hg : ∀ l ∈ sections.flatten, GoodLine parsePlanDetail l := by
    intro l hl
    obtain ⟨s, hs, hl⟩ := List.mem_flatten.mp hl
    exact h s hs l hl
  unfold detailsOf
  have h4 : lex (planText (sections.map fun s => separated (s.map (·.text)))) =
      some (linesToks sections.flatten) := h3
  rw [h4, Option.bind_some]
  exact parsePlan_lines _ hg _ (Rel.linesToks_length _ hg)

/-! ## Lists in brackets -/

/-- Tokens that are parsed as a value in front of a comma or a closing bracket. -/
structure GoodItem {α : Type} (p : List Token → Option (α × List Token))
    (y : List Token × α) : Prop where
  parses : ∀ t r, t.kind = .comma ∨ t.kind = .rightBracket → p (y.1 ++ t :: r) = some (y.2, t :: r)
  head : ∃ t r, y.1 = t :: r ∧ t.kind ≠ .rightBracket

def trailing (trail : Bool) : List Token := if trail then [commaTok] else []

def listToks {α : Type} (xs : List (List Token × α)) : List Token :=
  xs.flatMap fun y => commaTok :: y.1

theorem parseListed_ok {α : Type} {p : List Token → Option (α × List Token)} (trail : Bool) :
    ∀ (xs : List (List Token × α)) (x : List Token × α), (∀ y ∈ x :: xs, GoodItem p y) →
      ∀ (n : Nat) (rest : List Token), xs.length < n →
      parseListed p n (x.1 ++ (listToks xs ++ (trailing trail ++ closeList :: rest))) =
        some ((x :: xs).map (·.2), rest)
  | [], x, h, n, rest, hn => by
    obtain ⟨m, rfl⟩ : ∃ m, n = m + 1 := ⟨n - 1, by simp at hn; omega⟩
    have hx := (h x (by simp)).parses
    cases trail with
    | false =>
      have h1 := hx closeList rest (.inr rfl)
      have h2 : nextIs .comma (closeList :: rest) = false := rfl
      have h3 : expect .rightBracket (closeList :: rest) = some rest := rfl
      simp [listToks, trailing, parseListed, h1, h2, h3]
    | true =>
      have h1 := hx commaTok (closeList :: rest) (.inl rfl)
      have h2 : ∀ r, nextIs .comma (commaTok :: r) = true := fun _ => rfl
      have h3 : nextIs .rightBracket (closeList :: rest) = true := rfl
      simp [listToks, trailing, parseListed, h1, h2, h3]
  | y :: ys, x, h, n, rest, hn => by
    obtain ⟨m, rfl⟩ : ∃ m, n = m + 1 := ⟨n - 1, by simp at hn; omega⟩
    have hx := (h x (by simp)).parses commaTok
      (y.1 ++ (listToks ys ++ (trailing trail ++ closeList :: rest))) (.inl rfl)
    have ih := parseListed_ok trail ys y (fun z hz => h z (by simp [List.mem_cons.mp hz])) m rest
      (by simp at hn; omega)
    obtain ⟨t, r, ht, hk⟩ := (h y (by simp)).head
    have e : x.1 ++ (listToks (y :: ys) ++ (trailing trail ++ closeList :: rest)) =
        x.1 ++ commaTok :: (y.1 ++ (listToks ys ++ (trailing trail ++ closeList :: rest))) := by
      simp [listToks]
    have hb : nextIs .rightBracket (y.1 ++ (listToks ys ++ (trailing trail ++ closeList :: rest))) =
        false := by
      rw [ht]; simp [nextIs, hk]
    have hc : ∀ r, nextIs .comma (commaTok :: r) = true := fun _ => rfl
    rw [e, parseListed, hx, Option.bind_some]
    simp only [hc, if_true, List.tail_cons, hb, Bool.false_eq_true, if_false, ih, Option.map_some,
      List.map_cons]

theorem listToks_length {α : Type} (xs : List (List Token × α)) :
    xs.length ≤ (listToks xs).length := by
  induction xs with
  | nil => simp
  | cons x xs ih => simp only [listToks, List.flatMap_cons, List.length_append, List.length_cons] at *; omega

theorem parseAssigned_ok {α : Type} {p : List Token → Option (α × List Token)} {k : Tk} {w : Str}
    (trail : Bool) (xs : List (List Token × α)) (x : List Token × α)
    (h : ∀ y ∈ x :: xs, GoodItem p y) (rest : List Token) :
    parseAssigned k p (⟨k, w⟩ :: equalTok :: openList ::
      (x.1 ++ (listToks xs ++ (trailing trail ++ closeList :: rest)))) =
      some ((x :: xs).map (·.2), rest) := by
  have h1 := listToks_length xs
  have h2 := parseListed_ok trail xs x h
    (x.1 ++ (listToks xs ++ (trailing trail ++ closeList :: rest))).length rest (by
      simp only [List.length_append, List.length_cons]; omega)
  simp only [parseAssigned, expect, equalTok, openList, if_true, Option.bind_some]
  exact h2

/-! ## The names of a root -/

theorem goodItem_id {n : Str} (h : Ext.IsName n) : GoodItem parseId (Ext.toksOf n, n) where
  parses t r ht := by
    refine Rel.parseId_name h.name ?_ r
    rcases ht with ht | ht <;> rw [ht] <;> decide
  head := by
    obtain ⟨t, r, e, hk⟩ := h.name.head
    exact ⟨t, r, e, by intro e; rw [e] at hk; exact absurd hk (by decide)⟩

def idItem (n : Str) : List Token × Str := (Ext.toksOf n, n)

theorem lexes_four (ok : Str → Prop) : Lexes "    ".toList [] ok :=
  Lexes.cast (lexes_spaces 4 ok) (by decide) rfl

theorem lexes_newline (ok : Str → Prop) : Lexes "\n".toList [] ok :=
  Lexes.cast (lexes_nl ok) (by decide) rfl

theorem lexes_commaLine (ok : Str → Prop) : Lexes ",\n".toList [commaTok] ok :=
  Lexes.cast (Lexes.then (lexes_commaTok Any) (lexes_nl ok)) (by decide) rfl

theorem lexes_rootHead (ok : Str → Prop) :
    Lexes "root {\n".toList [⟨.root, rootWord⟩, openTok] ok :=
  Lexes.cast (Lexes.sp lexes_root (Lexes.then (lexes_open Any) (lexes_nl ok))) (by decide) rfl

/-- `<indent><word> = [`. -/
theorem lexes_assign {w : Str} {t : Token} (h : Lexes w [t] NameEnd) (ok : Str → Prop) :
    Lexes (List.replicate 2 ' ' ++ (w ++ [' ', '=', ' ', '['])) [t, equalTok, openList] ok :=
  Lexes.cast (Lexes.then (lexes_spaces 2 Any) (Lexes.sp h (Lexes.then (lexes_equal Any)
    (Lexes.then (lexes_spaces 1 Any) (lexes_openList ok))))) rfl rfl

theorem lexes_namesHead (ok : Str → Prop) :
    Lexes "  names = [".toList [⟨.names, namesWord⟩, equalTok, openList] ok :=
  Lexes.cast (lexes_assign lexes_names ok) (by decide) rfl

theorem lexes_listEnd (ok : Str → Prop) : Lexes "  ]\n".toList [closeList] ok :=
  Lexes.cast (Lexes.then (lexes_spaces 2 Any) (Lexes.then (lexes_closeList Any) (lexes_nl ok)))
    (by decide) rfl

theorem nameEnd_literal (s : Str) (x : Str) (h : ∃ c r, s = c :: r ∧ isNameChar c = false) :
    NameEnd (s ++ x) := by
  obtain ⟨c, r, rfl, hc⟩ := h
  exact nameEnd_cons _ _ hc

theorem nameEnd_newline (x : Str) : NameEnd ("\n".toList ++ x) :=
  nameEnd_literal _ _ ⟨'\n', [], by decide, by decide⟩

theorem nameEnd_namesText (ns : List Str) (x : Str) (h : NameEnd x) :
    NameEnd (namesText true ns ++ x) := by
  cases ns with
  | nil => exact h
  | cons m ms =>
    simp only [namesText, if_true, List.append_assoc]
    exact nameEnd_literal _ _ ⟨',', ['\n'], by decide, by decide⟩

/-- The names after some separator. -/
theorem lexes_namesText : ∀ (ns : List Str), (∀ n ∈ ns, Ext.IsName n) →
    Lexes (namesText true ns) (listToks (ns.map idItem)) NameEnd
  | [], _ => Lexes.nil _
  | n :: ns, h => by
    have ih := lexes_namesText ns fun m hm => h m (by simp [hm])
    have h1 := Lexes.append (Lexes.then (Lexes.then (lexes_commaLine Any) (lexes_four Any))
      (h n (by simp)).name.lexes_) ih (fun rest hr => nameEnd_namesText ns rest hr)
    refine Lexes.cast h1 ?_ (by simp [listToks, idItem])
    simp only [namesText, if_true]

def rootToks (n : Str) (ns : List Str) : List Token :=
  ⟨.root, rootWord⟩ :: openTok :: ⟨.names, namesWord⟩ :: equalTok :: openList ::
    ((idItem n).1 ++ (listToks (ns.map idItem) ++ (trailing false ++ closeList :: [closeTok])))

theorem rootText_parts (names : List Str) (N M : Str) (h : namesText false names = N)
    (h2 : (if names.isEmpty then [] else "\n".toList) = M) : rootText names =
    "root {\n".toList ++ "  names = [".toList ++ N ++ M ++ "  ]\n".toList ++ "}\n".toList := by
  subst h h2
  unfold rootText
  exact Eq.refl _

theorem rootText_cons (n : Str) (ns : List Str) : rootText (n :: ns) =
    "root {\n".toList ++ "  names = [".toList ++
      ("\n".toList ++ "    ".toList ++ n ++ namesText true ns) ++ "\n".toList ++
        "  ]\n".toList ++ "}\n".toList :=
  rootText_parts (n :: ns) _ _ (by rw [namesText, if_neg Bool.false_ne_true])
    (by rw [List.isEmpty_cons, if_neg Bool.false_ne_true])

theorem lexes_rootText (n : Str) (ns : List Str) (h : ∀ m ∈ n :: ns, Ext.IsName m) :
    Lexes (rootText (n :: ns)) (rootToks n ns) Any := by
  have h1 := Lexes.append (Lexes.then (Lexes.then (lexes_newline Any) (lexes_four Any))
    (h n (by simp)).name.lexes_) (lexes_namesText ns fun m hm => h m (by simp [hm]))
    (fun rest hr => nameEnd_namesText ns rest hr)
  have h2 := Lexes.then (Lexes.then (lexes_rootHead Any) (lexes_namesHead Any)) h1
  have h3 := Lexes.append h2 (lexes_newline Any) (fun rest _ => nameEnd_newline rest)
  have h4 := Lexes.then (Lexes.then h3 (lexes_listEnd Any)) (lexes_end Any)
  exact Lexes.cast h4 (rootText_cons n ns) (by simp [rootToks, trailing, idItem])

theorem startsRelation_cons {t : Token} {r : List Token} (ht : isSimpleId t.kind = true)
    (hr : nextIs .underscore r = false) (hn : nextIs .relation r = false) :
    startsRelation (t :: r) = false := by
  have : parseId (t :: r) = some (t.text, r) := by
    cases r with
    | nil => simp [parseId, ht, idTail]
    | cons u us =>
      simp only [nextIs, decide_eq_false_iff_not] at hr
      simp [parseId, ht, idTail, hr]
  rw [startsRelation, this]
  exact hn

theorem good_root (n : Str) (ns : List Str) (h : ∀ m ∈ n :: ns, Ext.IsName m) :
    GoodLine parsePlanDetail ⟨rootText (n :: ns), rootToks n ns, .root (n :: ns)⟩ where
  lexes := lexes_rootText n ns h
  head := ⟨_, _, rfl, by simp⟩
  parses rest := by
    have hs : startsRelation (rootToks n ns ++ rest) = false :=
      startsRelation_cons rfl rfl rfl
    have hp := parseAssigned_ok (k := .names) (w := namesWord) false (ns.map idItem) (idItem n) (by
      intro y hy
      rw [← List.map_cons, List.mem_map] at hy
      obtain ⟨m, hm, rfl⟩ := hy
      exact goodItem_id (h m hm)) (closeTok :: rest)
    have hr : parseRoot (rootToks n ns ++ rest) = some (n :: ns, rest) := by
      have e : rootToks n ns ++ rest = ⟨.root, rootWord⟩ :: openTok :: ⟨.names, namesWord⟩ ::
          equalTok :: openList :: ((idItem n).1 ++ (listToks (ns.map idItem) ++
            (trailing false ++ closeList :: closeTok :: rest))) := by
        simp [rootToks]
      have hx : ∀ r, expect .root ((⟨.root, rootWord⟩ : Token) :: r) = some r := fun _ => rfl
      have hy : ∀ r, expect .leftBrace (openTok :: r) = some r := fun _ => rfl
      have hz : ∀ r, expect .rightBrace (closeTok :: r) = some r := fun _ => rfl
      rw [e, parseRoot, hx, Option.bind_some, hy, Option.bind_some, hp, Option.bind_some, hz]
      simp [idItem, Function.comp_def]
    have h1 : nextIs .pipelines (rootToks n ns ++ rest) = false := rfl
    have h2 : nextIs .root (rootToks n ns ++ rest) = true := rfl
    simp [parsePlanDetail, hs, h1, h2, hr]

end Verif.Sec
