import Verif.Lemmas.SectionsSchema
import Verif.Prop.StringLiteral

/-!
# Lemmas on the text of sources
-/

namespace Verif.Sec

open Verif Verif.TyPb Verif.Tree Verif.Literal Verif.Lex Verif.Parse Verif.Expr
open Verif.Rel (Line GoodLine linesText linesToks openTok closeTok semiTok goesOn)

/-! ## Strings -/

/-- A text between quotes. -/
def inQuotes (s : Str) : Str := '"' :: (s ++ ['"'])

/-- `Quotable` in the middle of a text; `slash` tells whether a backslash is in front. -/
def QuotableAfter (slash : Bool) (s : Str) : Prop :=
  (∀ a b, s = a ++ '"' :: b → (a = [] ∧ slash = true) ∨ a.getLast? = some '\\') ∧
    ((s = [] ∧ slash = false) ∨ (s ≠ [] ∧ s.getLast? ≠ some '\\'))

theorem quotable_after {s : Str} (h : Quotable s) : QuotableAfter false s := by
  refine ⟨fun a b e => .inr (h.1 a b e), ?_⟩
  cases s with
  | nil => exact .inl ⟨rfl, rfl⟩
  | cons c r => exact .inr ⟨by simp, h.2⟩

theorem getLast?_cons_ne {c : Char} {r : Str} (h : r ≠ []) : (c :: r).getLast? = r.getLast? := by
  cases r with
  | nil => exact absurd rfl h
  | cons d r => rfl

theorem stringLen_quotable : ∀ (s : Str) (slash : Bool), QuotableAfter slash s →
    ∀ (n : Nat) (rest : Str), stringLen slash n (s ++ '"' :: rest) = some (n + s.length + 1)
  | [], slash, h, n, rest => by
    have hs : slash = false := by
      rcases h.2 with h | h
      · exact h.2
      · exact absurd rfl h.1
    subst hs
    simp [stringLen]
  | c :: cs, slash, h, n, rest => by
    have hl : (c :: cs).getLast? ≠ some '\\' := by
      rcases h.2 with h | h
      · exact absurd h.1 (by simp)
      · exact h.2
    by_cases hc : c = '"'
    · subst hc
      have hs : slash = true := by
        rcases h.1 [] cs rfl with h | h
        · exact h.2
        · simp at h
      subst hs
      have ih := stringLen_quotable cs false ⟨fun a b e => by
          rcases h.1 ('"' :: a) b (by simp [e]) with h | h
          · exact absurd h.1 (by simp)
          · by_cases ha : a = []
            · subst ha; simp at h
            · rw [getLast?_cons_ne ha] at h; exact .inr h, by
          by_cases hcs : cs = []
          · exact .inl ⟨hcs, rfl⟩
          · rw [getLast?_cons_ne hcs] at hl; exact .inr ⟨hcs, hl⟩⟩ (n + 1) rest
      simp only [List.cons_append, stringLen, if_true, ih, List.length_cons]
      congr 1; omega
    · have ih := stringLen_quotable cs (decide (c = '\\')) ⟨fun a b e => by
          rcases h.1 (c :: a) b (by simp [e]) with h | h
          · exact absurd h.1 (by simp)
          · by_cases ha : a = []
            · subst ha; simp at h; exact .inl ⟨rfl, by simp [h]⟩
            · rw [getLast?_cons_ne ha] at h; exact .inr h, by
          by_cases hcs : cs = []
          · subst hcs; simp at hl; exact .inl ⟨rfl, by simp [hl]⟩
          · rw [getLast?_cons_ne hcs] at hl; exact .inr ⟨hcs, hl⟩⟩ (n + 1) rest
      simp only [List.cons_append, stringLen, hc, if_false, ih, List.length_cons]
      congr 1; omega

def stringTok (s : Str) : Token := ⟨.string, inQuotes s⟩

theorem lexes_inQuotes {s : Str} (h : Quotable s) (ok : Str → Prop) :
    Lexes (inQuotes s) [stringTok s] ok := by
  intro rest _
  have hm : lexDefault (inQuotes s ++ rest) = some (.string, (inQuotes s).length) := by
    have e : inQuotes s ++ rest = '"' :: (s ++ '"' :: rest) := by simp [inQuotes]
    have hl : stringRule ('"' :: (s ++ '"' :: rest)) =
        (stringLen false 1 (s ++ '"' :: rest)).map fun n => (.string, n) := rfl
    rw [e, lexDefault_quote, hl, stringLen_quotable s false (quotable_after h)]
    simp [inQuotes]; omega
  have hs : Step (inQuotes s) rest .string := ⟨by simp [inQuotes], hm, by simp⟩
  rw [lex_step _ rest .string hs]
  rfl

theorem extractFromString_inQuotes (s : Str) : extractFromString (inQuotes s) = s := by
  have h1 : (inQuotes s).getLast? = some '"' := by
    rw [inQuotes, getLast?_cons_ne (by simp)]; simp
  have h2 : (inQuotes s).dropLast = '"' :: s := by
    rw [inQuotes, List.dropLast_cons_of_ne_nil (by simp)]; simp
  have h3 : ¬ (inQuotes s).length < 2 := by simp [inQuotes]
  rw [extractFromString, if_neg h3]
  simp only [h1, h2, if_true]

theorem stringValue_inQuotes (s : Str) : stringValue (inQuotes s) = s := by
  have h1 := StrLit.startsWith_quote (s ++ ['"']) "```".toList (by decide)
  have h2 := StrLit.startsWith_quote (s ++ ['"']) "``".toList (by decide)
  unfold inQuotes stringValue
  rw [h1, h2, if_neg Bool.false_ne_true, if_neg Bool.false_ne_true]
  show inner 1 ('"' :: (s ++ ['"'])) = s
  simp [inner]

/-! ## Tables -/

def stringItem (s : Str) : List Token × Str := ([stringTok s], inQuotes s)

theorem goodItem_string (s : Str) : GoodItem parseString (stringItem s) where
  parses t r _ := by simp [stringItem, parseString, stringTok]
  head := ⟨_, _, rfl, by simp [stringTok]⟩

def tableToks : List Str → List Token
  | [] => []
  | n :: ns => stringTok n :: commaTok :: tableToks ns

theorem tableToks_eq : ∀ (n : Str) (ns : List Str) (r : List Token), tableToks (n :: ns) ++ r =
    (stringItem n).1 ++ (listToks (ns.map stringItem) ++ (trailing true ++ r))
  | n, [], r => by simp [tableToks, stringItem, listToks, trailing]
  | n, m :: ns, r => by
    have ih := tableToks_eq m ns r
    rw [tableToks, List.cons_append, List.cons_append, ih]
    simp [stringItem, listToks]

theorem lexes_tableLine {n : Str} (h : Quotable n) (ok : Str → Prop) :
    Lexes ("    \"".toList ++ n ++ "\",\n".toList) [stringTok n, commaTok] ok := by
  refine Lexes.cast (Lexes.then (lexes_spaces 4 Any) (Lexes.then (lexes_inQuotes h Any)
    (Lexes.then (lexes_commaTok Any) (lexes_nl ok)))) ?_ rfl
  have e1 : "    \"".toList = [' ', ' ', ' ', ' ', '"'] := by decide
  have e2 : "\",\n".toList = ['"', ',', '\n'] := by decide
  rw [e1, e2]
  simp [inQuotes, List.replicate]

theorem lexes_tableText : ∀ (ns : List Str), (∀ n ∈ ns, Quotable n) →
    Lexes (tableText ns) (tableToks ns) Any
  | [], _ => Lexes.nil _
  | n :: ns, h =>
    Lexes.then (lexes_tableLine (h n (by simp)) Any)
      (lexes_tableText ns fun m hm => h m (by simp [hm]))

theorem lexes_tableHead (ok : Str → Prop) : Lexes "source named_table ".toList
    [⟨.source, sourceWord⟩, ⟨.namedTable, tableWord⟩] ok :=
  Lexes.cast (Lexes.sp lexes_source (Lexes.sp lexes_table (Lexes.nil ok))) (by decide) rfl

theorem lexes_namesLine (ok : Str → Prop) : Lexes "  names = [\n".toList
    [⟨.names, namesWord⟩, equalTok, openList] ok :=
  Lexes.cast (Lexes.then (lexes_assign lexes_names Any) (lexes_nl ok)) (by decide) rfl

/-! ## Any source -/

theorem source_not_relation {t : Token} {r : List Token} (w : Str) (h : t.kind ≠ .relation)
    (h' : t.kind ≠ .underscore) : startsRelation (⟨.source, w⟩ :: t :: r) = false :=
  startsRelation_cons rfl (by simp [nextIs, h']) (by simp [nextIs, h])

theorem parsePlanDetail_source {ts : List Token} {t : SourceTree} {rest : List Token}
    (hs : startsRelation (⟨.source, sourceWord⟩ :: ts) = false)
    (h : parseReadType ts = some (t, rest)) :
    parsePlanDetail (⟨.source, sourceWord⟩ :: ts) = some (.source t, rest) := by
  have n1 : nextIs .pipelines ((⟨.source, sourceWord⟩ : Token) :: ts) = false := rfl
  have n2 : nextIs .root ((⟨.source, sourceWord⟩ : Token) :: ts) = false := rfl
  have n3 : nextIs .schema ((⟨.source, sourceWord⟩ : Token) :: ts) = false := rfl
  have n4 : nextIs .source ((⟨.source, sourceWord⟩ : Token) :: ts) = true := rfl
  have hx : expect .source ((⟨.source, sourceWord⟩ : Token) :: ts) = some ts := rfl
  rw [parsePlanDetail, hs, n1, n2, n3, n4, parseSource, hx, Option.bind_some, h]
  rfl

/-- One detail between braces. -/
theorem parseUntilBrace_one {α : Type} {p : List Token → Option (α × List Token)}
    {ts : List Token} {x : α} {rest : List Token} (hp : p ts = some (x, closeTok :: rest))
    (hb : nextIs .rightBrace ts = false) (n : Nat) (hn : 2 ≤ n) :
    Rel.parseUntilBrace p n ts = some ([x], rest) := by
  obtain ⟨m, rfl⟩ : ∃ m, n = m + 2 := ⟨n - 2, by omega⟩
  have h2 : Rel.parseUntilBrace p (m + 1) (closeTok :: rest) = some ([], rest) := by
    simp [Rel.parseUntilBrace, nextIs, closeTok]
  rw [Rel.parseUntilBrace, hb, if_neg Bool.false_ne_true, hp, Option.bind_some, h2]
  rfl

theorem sourceText_named (name : Str) (names : List Str) : sourceText name (.named names) =
    .ok ("source named_table ".toList ++ name ++ " {\n".toList ++ "  names = [\n".toList ++
      tableText names ++ "  ]\n".toList ++ "}\n".toList) := by
  unfold sourceText
  exact Eq.refl _

/-- A table with at least one name is read as these names. -/
theorem good_table {name : Str} {n : Str} {ns : List Str} (hname : Ext.IsName name)
    (h : ∀ m ∈ n :: ns, Quotable m) :
    ∃ l : Line PlanDetail, GoodLine parsePlanDetail l ∧
      sourceText name (.named (n :: ns)) = .ok l.text ∧
      l.detail = .source (.namedTable name ((n :: ns).map inQuotes)) := by
  have hn := hname.name
  refine ⟨⟨_, ⟨.source, sourceWord⟩ :: ⟨.namedTable, tableWord⟩ :: (Ext.toksOf name ++ openTok ::
    ⟨.names, namesWord⟩ :: equalTok :: openList :: (tableToks (n :: ns) ++
      closeList :: [closeTok])), .source (.namedTable name ((n :: ns).map inQuotes))⟩, ⟨?_,
    ⟨_, _, rfl, by simp⟩, ?_⟩, sourceText_named name (n :: ns), rfl⟩
  · have h4 := Lexes.append (Lexes.then (lexes_tableHead Any) hn.lexes_) (lexes_openLine Any)
      (fun rest _ => nameEnd_openLine rest)
    have h5 := Lexes.then (Lexes.then (Lexes.then (Lexes.then h4 (lexes_namesLine Any))
      (lexes_tableText (n :: ns) h)) (lexes_listEnd Any)) (lexes_end Any)
    exact Lexes.cast h5 rfl (by simp)
  · intro rest
    have e : (⟨.source, sourceWord⟩ : Token) :: ⟨.namedTable, tableWord⟩ :: (Ext.toksOf name ++
        openTok :: ⟨.names, namesWord⟩ :: equalTok :: openList :: (tableToks (n :: ns) ++
          closeList :: [closeTok])) ++ rest = ⟨.source, sourceWord⟩ :: ⟨.namedTable, tableWord⟩ ::
        (Ext.toksOf name ++ openTok :: (⟨.names, namesWord⟩ :: equalTok :: openList ::
          ((stringItem n).1 ++ (listToks (ns.map stringItem) ++ (trailing true ++
            closeList :: closeTok :: rest))))) := by
      rw [← tableToks_eq]; simp
    show parsePlanDetail _ = _
    rw [e]
    refine parsePlanDetail_source (source_not_relation _ (by simp) (by simp)) ?_
    have hp := parseAssigned_ok (k := .names) (w := namesWord) true (ns.map stringItem)
      (stringItem n) (by
        intro y hy
        rw [← List.map_cons, List.mem_map] at hy
        obtain ⟨m, -, rfl⟩ := hy
        exact goodItem_string m) (closeTok :: rest)
    have hd : parseSourceDetail .names parseString (⟨.names, namesWord⟩ :: equalTok :: openList ::
          ((stringItem n).1 ++ (listToks (ns.map stringItem) ++ (trailing true ++
            closeList :: closeTok :: rest)))) =
        some ((n :: ns).map inQuotes, closeTok :: rest) := by
      have ha : nextIs .advancedExtension ((⟨.names, namesWord⟩ : Token) :: equalTok :: openList ::
          ((stringItem n).1 ++ (listToks (ns.map stringItem) ++ (trailing true ++
            closeList :: closeTok :: rest)))) = false := rfl
      rw [parseSourceDetail, ha, if_neg Bool.false_ne_true, hp]
      simp [stringItem, Function.comp_def]
    have hi := Rel.parseId_name hn (t := openTok) (by decide) ((⟨.names, namesWord⟩ : Token) ::
      equalTok :: openList :: ((stringItem n).1 ++ (listToks (ns.map stringItem) ++
        (trailing true ++ closeList :: closeTok :: rest))))
    have hb := parseUntilBrace_one hd rfl ((⟨.names, namesWord⟩ : Token) ::
      equalTok :: openList :: ((stringItem n).1 ++ (listToks (ns.map stringItem) ++
        (trailing true ++ closeList :: closeTok :: rest)))).length (by simp)
    have hy : ∀ r, expect .leftBrace (openTok :: r) = some r := fun _ => rfl
    simp only [parseReadType]
    rw [hi, Option.bind_some, hy, Option.bind_some, hb]
    simp

end Verif.Sec
